import Verif.Props.BTM
import Verif.Props.RedTab4

/-! C71: the numbering of the vertices on all processes. -/

namespace NgsAMG.BTM

open NgsAMG.EQC NgsAMG.DCC NgsAMG.HybSm

/-- the distant processes of the vertices of process `p` (the vertices are the `P.ndof p` "DOFs" of `P`) -/
def vdps (P : PD) (p : ℕ) : List (List ℕ) := (List.range (P.ndof p)).map (P.dps p)

/-- number of vertices of `p` before `v` that have the same distant processes -/
def rankIn (P : PD) (p v : ℕ) : ℕ := ((vdps P p).take v).count (P.dps p v)

theorem vdps_get {P : PD} {p v : ℕ} (hv : v < P.ndof p) : (vdps P p)[v]? = some (P.dps p v) := by
  unfold vdps
  rw [List.getElem?_map, List.getElem?_range hv]; rfl

theorem vdps_length (P : PD) (p : ℕ) : (vdps P p).length = P.ndof p := by simp [vdps]

/-- the vertices before `v` in the same class -/
def before (P : PD) (p v : ℕ) : Finset ℕ := (Finset.range v).filter fun u => P.dps p u = P.dps p v

theorem rankIn_card {P : PD} {p v : ℕ} (hv : v ≤ P.ndof p) (d : List ℕ) :
    ((vdps P p).take v).count d = ((Finset.range v).filter fun u => P.dps p u = d).card := by
  induction v with
  | zero => simp
  | succ v ih =>
    rw [List.take_add_one, vdps_get (by omega), List.count_append, ih (by omega), Finset.range_add_one, Finset.filter_insert]
    simp only [Option.toList_some, List.count_singleton]
    by_cases h : P.dps p v = d
    · rw [if_pos h, Finset.card_insert_of_notMem (by simp)]; simp [h]
    · rw [if_neg h]; simp [h]

section
variable {P : PD} (hP : P.WF)
include hP

omit hP in
theorem valid_dps {p d : ℕ} : Valid P.np p (P.dps p d) :=
  ⟨dps_sorted p d, fun _ hq => (mem_dps.mp hq).1, fun h => (mem_dps.mp h).2.1 rfl⟩

theorem rankIn_le {p q v w : ℕ} (hp : p < P.np) (hq : q < P.np) (hv : v < P.ndof p) (hw : w < P.ndof q)
    (h : P.glob p v = P.glob q w) : rankIn P p v ≤ rankIn P q w := by
  have hm := members_dps_eq hp hq hv hw h
  unfold rankIn
  rw [rankIn_card hv.le, rankIn_card hw.le]
  have hu : ∀ u ∈ (Finset.range v).filter fun u => P.dps p u = P.dps p v,
      u < v ∧ u < P.ndof p ∧ P.dps p u = P.dps p v ∧ P.shares q (P.glob p u) = true := by
    intro u hu
    rw [Finset.mem_filter, Finset.mem_range] at hu
    have hun : u < P.ndof p := by omega
    refine ⟨hu.1, hun, hu.2, ?_⟩
    have : q ∈ members p (P.dps p u) := by
      rw [hu.2, hm, mem_members]; exact Or.inl rfl
    exact ((members_dps hp hun q).mp this).2
  refine Finset.card_le_card_of_injOn (fun u => P.loc q (P.glob p u)) ?_ ?_
  · intro u hu'
    obtain ⟨h1, h2, h3, h4⟩ := hu u hu'
    have hl := loc_spec h4
    rw [Finset.mem_coe, Finset.mem_filter, Finset.mem_range]
    refine ⟨hP.mono p hp q hq u h2 v hv _ hl.1 w hw hl.2.symm h h1, ?_⟩
    refine members_inj valid_dps valid_dps ?_
    rw [← members_dps_eq hp hq h2 hl.1 hl.2.symm, h3, hm]
  · intro u hu1 u' hu2 he
    obtain ⟨-, h2, -, h4⟩ := hu u hu1
    obtain ⟨-, h2', -, h4'⟩ := hu u' hu2
    apply hP.inj p hp u h2 u' h2'
    rw [← (loc_spec h4).2, ← (loc_spec h4').2]
    exact congrArg _ he

/-- two vertices are copies of each other if and only if they have the same processes and the same number within the class -/
theorem glob_eq_iff {p q v w : ℕ} (hp : p < P.np) (hq : q < P.np) (hv : v < P.ndof p) (hw : w < P.ndof q) :
    P.glob p v = P.glob q w ↔ members p (P.dps p v) = members q (P.dps q w) ∧ rankIn P p v = rankIn P q w := by
  constructor
  · intro h
    exact ⟨members_dps_eq hp hq hv hw h, le_antisymm (rankIn_le hP hp hq hv hw h) (rankIn_le hP hq hp hw hv h.symm)⟩
  · rintro ⟨hm, hr⟩
    have hqm : q ∈ members p (P.dps p v) := by rw [hm, mem_members]; exact Or.inl rfl
    have hs := ((members_dps hp hv q).mp hqm).2
    obtain ⟨hl1, hl2⟩ := loc_spec hs
    set w' := P.loc q (P.glob p v) with hw'
    have hm' := members_dps_eq hp hq hv hl1 hl2.symm
    have hr' : rankIn P q w' = rankIn P q w := by
      rw [← hr]
      exact le_antisymm (rankIn_le hP hq hp hl1 hv hl2) (rankIn_le hP hp hq hv hl1 hl2.symm)
    have hd : P.dps q w' = P.dps q w := members_inj valid_dps valid_dps (hm'.symm.trans hm)
    have : w' = w := by
      rcases Nat.lt_trichotomy w' w with h | h | h
      · have := count_take_mono (vdps P q) (P.dps q w') (vdps_get hl1) h
        unfold rankIn at hr'
        rw [← hd] at hr'; omega
      · exact h
      · have := count_take_mono (vdps P q) (P.dps q w) (vdps_get hw) h
        unfold rankIn at hr'
        rw [hd] at hr'; omega
    rw [← this, hl2]

/-- **C71 (copies).** The class (identified by its processes) and the number within the class that the queries return are the same
for two vertices of two processes exactly if they are copies of the same vertex. -/
theorem copies_agree {T : ℕ → List (List ℕ)} {M : ℕ → Verts}
    (hM : ∀ p < P.np, Numbered (T p) (vdps P p) (M p)) {p q v w : ℕ} (hp : p < P.np) (hq : q < P.np) (hv : v < P.ndof p)
    (hw : w < P.ndof q) :
    ∃ n m k l a b, (M p).sort[v]? = some n ∧ (M q).sort[w]? = some m ∧
      eqcOf (M p).disp (noCross (T p)) n = some k ∧ eqcOf (M q).disp (noCross (T q)) m = some l ∧
      toEQC (M p).disp (noCross (T p)) n = some a ∧ toEQC (M q).disp (noCross (T q)) m = some b ∧
      (P.glob p v = P.glob q w ↔ members p ((T p).getD k []) = members q ((T q).getD l []) ∧ a = b) := by
  obtain ⟨k, n, h1, h2, h3, h4, -⟩ := (hM p hp).query v _ (vdps_get hv)
  obtain ⟨l, m, g1, g2, g3, g4, -⟩ := (hM q hq).query w _ (vdps_get hw)
  refine ⟨n, m, k, l, _, _, h2, g2, h3, g3, h4, g4, ?_⟩
  rw [List.getD_eq_getElem?_getD, h1, List.getD_eq_getElem?_getD, g1]
  exact glob_eq_iff hP hp hq hv hw

/-- C71: a class has the same number of vertices on all its processes -/
theorem class_sizes {p q : ℕ} (hp : p < P.np) (hq : q < P.np) {d e : List ℕ} (hd : Valid P.np p d) (he : Valid P.np q e)
    (h : members p d = members q e) : (vdps P p).count d = (vdps P q).count e := by
  have key : ∀ {p q : ℕ} (_ : p < P.np) (_ : q < P.np) {d e : List ℕ} (_ : Valid P.np p d) (_ : Valid P.np q e)
      (_ : members p d = members q e), (vdps P p).count d ≤ (vdps P q).count e := by
    intro p q hp hq d e hd he h
    have h1 := rankIn_card (P := P) (p := p) le_rfl d
    have h2 := rankIn_card (P := P) (p := q) le_rfl e
    rw [List.take_of_length_le (by rw [vdps_length])] at h1 h2
    rw [h1, h2]
    have hu : ∀ u ∈ (Finset.range (P.ndof p)).filter fun u => P.dps p u = d,
        u < P.ndof p ∧ P.dps p u = d ∧ P.shares q (P.glob p u) = true := by
      intro u hu
      rw [Finset.mem_filter, Finset.mem_range] at hu
      refine ⟨hu.1, hu.2, ?_⟩
      have : q ∈ members p (P.dps p u) := by rw [hu.2, h, mem_members]; exact Or.inl rfl
      exact ((members_dps hp hu.1 q).mp this).2
    refine Finset.card_le_card_of_injOn (fun u => P.loc q (P.glob p u)) ?_ ?_
    · intro u hu'
      obtain ⟨h1, h2, h4⟩ := hu u hu'
      have hl := loc_spec h4
      rw [Finset.mem_coe, Finset.mem_filter, Finset.mem_range]
      refine ⟨hl.1, ?_⟩
      refine members_inj valid_dps he ?_
      rw [← members_dps_eq hp hq h1 hl.1 hl.2.symm, h2, h]
    · intro u hu1 u' hu2 hee
      obtain ⟨h2, -, h4⟩ := hu u hu1
      obtain ⟨h2', -, h4'⟩ := hu u' hu2
      apply hP.inj p hp u h2 u' h2'
      rw [← (loc_spec h4).2, ← (loc_spec h4').2]
      exact congrArg _ hee
  exact le_antisymm (key hp hq hd he h) (key hq hp he hd h.symm)

omit hP in
theorem sum_by_class {T : List (List ℕ)} (hT : T.Nodup) (dps : List (List ℕ)) (hd : ∀ d ∈ dps, d ∈ T) (f : List ℕ → Bool) :
    ((List.range T.length).map fun k => if f (T.getD k []) then dps.count (T.getD k []) else 0).sum = dps.countP f := by
  have h1 : ((List.range T.length).map fun k => if f (T.getD k []) then dps.count (T.getD k []) else 0) =
      T.map fun d => if f d then dps.count d else 0 := by
    apply List.ext_getElem (by simp)
    intro i h1 h2
    have : i < T.length := by simpa using h2
    simp [this]
  rw [h1]
  clear h1
  induction dps with
  | nil => simp
  | cons d ds ih =>
    have hih := ih (fun e he => hd e (by simp [he]))
    rw [List.countP_cons, ← hih]
    have hdT := hd d (by simp)
    have : (T.map fun e => if f e then (d :: ds).count e else 0).sum =
        (T.map fun e => if f e then ds.count e else 0).sum + (T.map fun e => if e = d ∧ f e then 1 else 0).sum := by
      rw [← List.sum_map_add]
      congr 1
      apply List.map_congr_left
      intro e _
      by_cases hf : f e
      · by_cases hed : e = d
        · subst hed; simp [hf]
        · have : ¬ d = e := fun h => hed h.symm
          simp [hf, hed, this]
      · simp [hf]
    rw [this]
    congr 1
    clear hih this
    have : (T.map fun e => if e = d ∧ f e then 1 else 0).sum = if f d then T.count d else 0 := by
      clear hdT hT hd ih
      induction T with
      | nil => simp
      | cons a T ih =>
        rw [List.map_cons, List.sum_cons, ih, List.count_cons]
        by_cases hf : f d
        · by_cases had : a = d
          · subst had; simp [hf]; omega
          · simp [hf, had]
        · by_cases had : a = d
          · subst had; simp [hf]
          · simp [hf, had]
    rw [this, List.count_eq_one_of_mem hT hdT]

/-- **C71 (global number of vertices).** The sum of the numbers of the masters' vertices is the number of vertices. -/
theorem global_count {T : ℕ → List (List ℕ)} {M : ℕ → Verts} (hT : Tables P.np T)
    (hM : ∀ p < P.np, Numbered (T p) (vdps P p) (M p)) (hcov : ∀ p < P.np, ∀ d ∈ vdps P p, d ∈ T p) :
    ((List.range P.np).map fun p => nMaster p (T p) (M p).disp).sum = (allDofs P).card := by
  have h1 : (allDofs P).card = ∑ g ∈ allDofs P, 1 := by simp
  rw [h1, sum_masters hP, ← List.sum_toFinset _ (List.nodup_range), List.toFinset_range]
  apply Finset.sum_congr rfl
  intro p hp
  rw [Finset.mem_range] at hp
  have hn : nMaster p (T p) (M p).disp = ((List.range (T p).length).map fun k =>
      if isMaster p ((T p).getD k []) then (vdps P p).count ((T p).getD k []) else 0).sum := by
    unfold nMaster
    congr 1
    apply List.map_congr_left
    intro k hk
    rw [List.mem_range] at hk
    obtain ⟨a, b, ha, hb, hab⟩ := (hM p hp).sizes k _ (List.getElem?_eq_getElem hk)
    rw [List.getD_eq_getElem?_getD (l := (M p).disp), hb, List.getD_eq_getElem?_getD (l := (M p).disp), ha, getD_eq hk]
    simp only [Option.getD_some]
    rw [← hab, Nat.add_sub_cancel_left]
  rw [hn, sum_by_class (hT.ok p hp).1 _ (hcov p hp)]
  unfold vdps
  rw [List.countP_map, List.countP_eq_length_filter, Finset.sum_ite, Finset.sum_const_zero, add_zero, ← Finset.card_eq_sum_ones,
    ← List.toFinset_card_of_nodup (List.nodup_range.filter _)]
  congr 1
  ext v
  simp only [List.mem_toFinset, List.mem_filter, List.mem_range, Finset.mem_filter, Finset.mem_range, Function.comp]
  refine and_congr_right fun hv => ?_
  rw [← Hybrid.isMaster_iff hp hv]
  have hself : p ∉ P.dps p v := (valid_dps (P := P)).notSelf
  unfold PD.isMaster PD.ghost
  cases hd : P.dps p v with
  | nil => simp [isMaster]
  | cons a l =>
    have : p ≠ a := by rintro rfl; exact hself (by rw [hd]; simp)
    simp only [isMaster, decide_eq_true_eq, Bool.not_eq_true', decide_eq_false_iff_not]
    omega

end

end NgsAMG.BTM
