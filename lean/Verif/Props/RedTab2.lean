import Verif.Props.RedTab

/-!
# Properties of `ReduceTable` (C69), part 2: the communication
-/

namespace NgsAMG.RedTab

open NgsAMG.Exch NgsAMG.EQC

variable {T R K : Type}

section
variable {np : ℕ} {dps : ℕ → List (List ℕ)} {key : ℕ → ℕ → K} (hR : Rows np dps key)
  (tab : ℕ → List (List T)) (lam : ℕ → ℕ → List (List T) → List R)

/-- what process `p` gets from `q` in the gather step -/
def gotRows (np : ℕ) (dps : ℕ → List (List ℕ)) (tab : ℕ → List (List T)) (p q : ℕ) : List (List T) :=
  if p < q ∧ q < np then gatherRows dps tab q p else []

include hR in
theorem rows_length {p q : ℕ} (hpq : p < q) (hq : q < np) :
    (slaveRows (dps p) p q).length = (masterRows (dps q) q p).length := by
  have := congrArg List.length (rows_agree hR hpq hq)
  simpa using this.symm

include hR in
theorem gotRows_length (p q : ℕ) (h : p < q ∧ q < np) :
    (gotRows np dps tab p q).length = (slaveRows (dps p) p q).length := by
  rw [gotRows, if_pos h, gatherRows, List.length_map, rows_length hR h.1 h.2]

/-- the lock-step state after the first phase -/
noncomputable def s1 (np : ℕ) (dps : ℕ → List (List ℕ)) (tab : ℕ → List (List T)) : ℕ → Loc T R :=
  drunPhase (gatherMeta np dps tab) fun _ => {}

noncomputable def s2 (np : ℕ) (dps : ℕ → List (List ℕ)) (tab : ℕ → List (List T)) : ℕ → Loc T R :=
  drunPhase (gatherSizes np dps tab) (s1 np dps tab)

noncomputable def s3 (np : ℕ) (dps : ℕ → List (List ℕ)) (tab : ℕ → List (List T)) : ℕ → Loc T R :=
  drunPhase (gatherData np dps tab) (s2 np dps tab)

noncomputable def s4 (np : ℕ) (dps : ℕ → List (List ℕ)) (tab : ℕ → List (List T)) (lam : ℕ → ℕ → List (List T) → List R) :
    ℕ → Loc T R :=
  drunPhase (reduceLocal dps tab lam) (s3 np dps tab)

noncomputable def s5 (np : ℕ) (dps : ℕ → List (List ℕ)) (tab : ℕ → List (List T)) (lam : ℕ → ℕ → List (List T) → List R) :
    ℕ → Loc T R :=
  drunPhase (scatterMeta np dps) (s4 np dps tab lam)

noncomputable def s6 (np : ℕ) (dps : ℕ → List (List ℕ)) (tab : ℕ → List (List T)) (lam : ℕ → ℕ → List (List T) → List R) :
    ℕ → Loc T R :=
  drunPhase (scatterSizes np dps) (s5 np dps tab lam)

noncomputable def s7 (np : ℕ) (dps : ℕ → List (List ℕ)) (tab : ℕ → List (List T)) (lam : ℕ → ℕ → List (List T) → List R) :
    ℕ → Loc T R :=
  drunPhase (scatterData np dps) (s6 np dps tab lam)

include hR in
theorem s1_spec (p q : ℕ) :
    (s1 (R := R) np dps tab p).gTot q = ((gotRows np dps tab p q).map List.length).sum ∧
    (s1 (R := R) np dps tab p).gNb q = (gotRows np dps tab p q).length ∧ (s1 (R := R) np dps tab p).ok = true := by
  by_cases h : p < q ∧ q < np
  · by_cases h0 : 0 < (slaveRows (dps p) p q).length
    · simp [s1, drunPhase, gatherMeta, gotRows, h, h0]
    · have hl := gotRows_length hR tab p q h
      have : gotRows np dps tab p q = [] := List.length_eq_zero_iff.mp (by omega)
      rw [this]
      have h0' : (slaveRows (dps p) p q) = [] := List.length_eq_zero_iff.mp (by omega)
      refine ⟨?_, ?_, rfl⟩
      · simp [s1, drunPhase, gatherMeta, h0']; rfl
      · simp [s1, drunPhase, gatherMeta, h0']; rfl
  · have : gotRows np dps tab p q = [] := if_neg h
    have hn : (decide (p < q) && decide (q < np)) = false := by
      rw [Bool.and_eq_false_iff, decide_eq_false_iff_not, decide_eq_false_iff_not]
      rw [Classical.not_and_iff_not_or_not] at h
      exact h
    rw [this]
    refine ⟨?_, ?_, rfl⟩
    · simp only [s1, drunPhase, gatherMeta, hn, Bool.false_and]
      simp
      rfl
    · simp only [s1, drunPhase, gatherMeta, hn, Bool.false_and]
      simp
      rfl

theorem gotRows_nil {p q : ℕ} (h : ¬ (p < q ∧ q < np)) : gotRows np dps tab p q = [] := if_neg h

theorem len_pos_of_sum {α : Type} {l : List (List α)} (h : 0 < (l.map List.length).sum) : 0 < l.length := by
  cases l with
  | nil => simp at h
  | cons a l => simp

theorem flatten_nil_of_sum {α : Type} {l : List (List α)} (h : (l.map List.length).sum = 0) : l.flatten = [] := by
  rw [← List.length_eq_zero_iff, List.length_flatten, h]

include hR in
theorem s2_spec (p : ℕ) :
    (∀ q, (s2 (R := R) np dps tab p).gBs q = (gotRows np dps tab p q).map List.length) ∧
    (∀ q, (s2 (R := R) np dps tab p).gTot q = ((gotRows np dps tab p q).map List.length).sum) ∧
    (s2 (R := R) np dps tab p).ok = true := by
  have hbs : ∀ q, (s2 (R := R) np dps tab p).gBs q = (gotRows np dps tab p q).map List.length := by
    intro q
    have h1 := (s1_spec (R := R) hR tab p q).2.1
    simp only [s2, drunPhase, gatherSizes, h1]
    by_cases h : p < q ∧ q < np
    · by_cases h0 : 0 < (gotRows np dps tab p q).length
      · rw [if_pos (by simp [h.1, h.2, h0]), if_pos (by simp [h.1, h.2, h0]), gotRows, if_pos h]
      · have : gotRows np dps tab p q = [] := List.length_eq_zero_iff.mp (by omega)
        rw [if_neg (by simp [this]), this]
        rfl
    · rw [gotRows_nil tab h]
      simp
  refine ⟨hbs, fun q => (s1_spec (R := R) hR tab p q).1, ?_⟩
  have : (s2 (R := R) np dps tab p).ok = ((s1 (R := R) np dps tab p).ok &&
      ((List.range np).all fun q => ((s2 (R := R) np dps tab p).gBs q).length == (s1 (R := R) np dps tab p).gNb q)) := rfl
  rw [this, (s1_spec (R := R) hR tab p 0).2.2, Bool.true_and, List.all_eq_true]
  intro q _
  rw [hbs, (s1_spec (R := R) hR tab p q).2.1]
  simp

include hR in
theorem s3_spec (p : ℕ) :
    (∀ q, (s3 (R := R) np dps tab p).gBs q = (gotRows np dps tab p q).map List.length) ∧
    (∀ q, (s3 (R := R) np dps tab p).gDat q = (gotRows np dps tab p q).flatten) ∧
    (s3 (R := R) np dps tab p).ok = true := by
  obtain ⟨hbs, htot, hok⟩ := s2_spec (R := R) hR tab p
  have hdat : ∀ q, (s3 (R := R) np dps tab p).gDat q = (gotRows np dps tab p q).flatten := by
    intro q
    simp only [s3, drunPhase, gatherData, htot q]
    by_cases h : p < q ∧ q < np
    · by_cases h0 : 0 < ((gotRows np dps tab p q).map List.length).sum
      · rw [if_pos (by simp [h.1, h.2, h0]), if_pos (by simp [h.1, h.2, h0]), gotRows, if_pos h]
      · rw [if_neg (by simp [h0]), flatten_nil_of_sum (by omega)]
    · rw [gotRows_nil tab h]
      simp
  refine ⟨hbs, hdat, ?_⟩
  have : (s3 (R := R) np dps tab p).ok = ((s2 (R := R) np dps tab p).ok &&
      ((List.range np).all fun q => ((s3 (R := R) np dps tab p).gDat q).length == (s2 (R := R) np dps tab p).gTot q)) := rfl
  rw [this, hok, Bool.true_and, List.all_eq_true]
  intro q _
  rw [hdat, htot, List.length_flatten]
  simp

/-- the inputs of the lambda for row `k` of its master `p` -/
noncomputable def inputs (dps : ℕ → List (List ℕ)) (key : ℕ → ℕ → K) (tab : ℕ → List (List T)) (p : ℕ) (k : ℕ) (d : List ℕ) :
    List (List T) :=
  ((p :: d).insertionSort (· ≤ ·)).map fun q => contrib dps key tab q (key p k)

include hR in
/-- after the local reduction the masters have the reduced rows -/
theorem s4_spec (htab : ∀ p < np, (tab p).length = (dps p).length) {p : ℕ} (hp : p < np) :
    (s4 np dps tab lam p).ok = true ∧ (s4 np dps tab lam p).red.length = (dps p).length ∧
    ∀ (k : ℕ) (d : List ℕ), (dps p)[k]? = some d → masterOf p d = p →
      (s4 np dps tab lam p).red[k]? = some (lam p k (inputs dps key tab p k d)) := by
  obtain ⟨hbs, hdat, hok⟩ := s3_spec (R := R) hR tab p
  have hz : ((dps p).zip (tab p)).map Prod.fst = dps p := List.map_fst_zip (by rw [htab p hp])
  have hgot : ∀ q, gotRows np dps tab p q =
      (slaveFrom p q 0 (((dps p).zip (tab p)).map Prod.fst)).map fun k => contrib dps key tab q (key p k) := by
    intro q
    rw [hz]
    by_cases h : p < q ∧ q < np
    · rw [gotRows, if_pos h, gatherRows_eq hR tab h.1 h.2]
      rfl
    · rw [gotRows_nil tab h]
      have : slaveFrom p q 0 (dps p) = [] := by
        rw [List.eq_nil_iff_forall_not_mem]
        intro r hr
        obtain ⟨i, d, h1, -, h3, h4⟩ := (mem_slaveFrom _ _ _ _ _).mp hr
        have hv := hR.valid p hp d (List.mem_of_getElem? h1)
        exact h ⟨(headD_mem hv h4).2.2 q h3, hv.range q h3⟩
      rw [this]
      rfl
  obtain ⟨L, h1, h2, h3⟩ := reduceRows_spec (np := np) (p := p) lam (fun q k => contrib dps key tab q (key p k))
    ((dps p).zip (tab p)) 0 (s3 (R := R) np dps tab p).gBs (s3 (R := R) np dps tab p).gDat
    (fun e he => hR.valid p hp e.1 (List.of_mem_zip he).1)
    (fun q => by rw [hbs, hgot]) (fun q => by rw [hdat, hgot])
  have hred : (s4 np dps tab lam p).red = L := by
    show (reduceRows p lam 0 ((dps p).zip (tab p)) (s3 np dps tab p).gBs (s3 np dps tab p).gDat).getD [] = L
    rw [h1]; rfl
  have hok4 : (s4 np dps tab lam p).ok = true := by
    show ((s3 np dps tab p).ok && (reduceRows p lam 0 ((dps p).zip (tab p)) (s3 np dps tab p).gBs (s3 np dps tab p).gDat).isSome) =
      true
    rw [h1, hok]; rfl
  refine ⟨hok4, ?_, ?_⟩
  · rw [hred, h2, List.length_zip, htab p hp, Nat.min_self]
  · intro k d hk hm
    have hkl : k < (dps p).length := (List.getElem?_eq_some_iff.mp hk).1
    have hkt : (tab p)[k]? = some ((tab p).getD k []) := by
      rw [List.getD_eq_getElem?_getD, List.getElem?_eq_getElem (by rw [htab p hp]; exact hkl)]
      rfl
    have hze : ((dps p).zip (tab p))[k]? = some (d, (tab p).getD k []) := by
      rw [List.getElem?_zip_eq_some]
      exact ⟨hk, hkt⟩
    have := h3 k _ hze hm
    rw [hred, this, Nat.zero_add]
    congr 2
    apply List.map_congr_left
    intro q _
    by_cases hq : q = p
    · rw [if_pos hq, hq, contrib_eq hR tab hp hkl]
    · rw [if_neg hq]

/-- what process `p` gets from `q` in the scatter step -/
noncomputable def gotRed (np : ℕ) (dps : ℕ → List (List ℕ)) (tab : ℕ → List (List T)) (lam : ℕ → ℕ → List (List T) → List R)
    (p q : ℕ) : List (List R) :=
  if q < p then scatterRows dps q (s4 np dps tab lam q) p else []

include hR in
theorem gotRed_eq {p q : ℕ} (hp : p < np) (h : q < p) : gotRed np dps tab lam p q =
    (masterRows (dps p) p q).map fun k => contrib dps key (fun r => (s4 np dps tab lam r).red) q (key p k) := by
  rw [gotRed, if_pos h]
  exact scatterRows_eq hR (fun r => (s4 np dps tab lam r).red) h hp

include hR in
theorem s5_spec {p : ℕ} (hp : p < np) (q : ℕ) :
    (s5 np dps tab lam p).sTot q = ((gotRed np dps tab lam p q).map List.length).sum ∧
    (s5 np dps tab lam p).sNb q = (gotRed np dps tab lam p q).length := by
  by_cases h : q < p
  · by_cases h0 : 0 < (masterRows (dps p) p q).length
    · simp [s5, drunPhase, scatterMeta, gotRed, h, h0]
    · have hl : (gotRed np dps tab lam p q).length = (masterRows (dps p) p q).length := by
        rw [gotRed_eq hR tab lam hp h, List.length_map]
      have : gotRed np dps tab lam p q = [] := List.length_eq_zero_iff.mp (by omega)
      rw [this]
      have h0' : (masterRows (dps p) p q) = [] := List.length_eq_zero_iff.mp (by omega)
      refine ⟨?_, ?_⟩
      · simp [s5, drunPhase, scatterMeta, h0']; rfl
      · simp [s5, drunPhase, scatterMeta, h0']; rfl
  · have : gotRed np dps tab lam p q = [] := if_neg h
    rw [this]
    refine ⟨?_, ?_⟩
    · simp only [s5, drunPhase, scatterMeta, h, decide_false, Bool.false_and]
      simp
      rfl
    · simp only [s5, drunPhase, scatterMeta, h, decide_false, Bool.false_and]
      simp
      rfl

theorem gotRed_nil {p q : ℕ} (h : ¬ q < p) : gotRed np dps tab lam p q = [] := if_neg h

theorem sizes_zero {α : Type} {l : List (List α)} (h : (l.map List.length).sum = 0) : List.replicate l.length 0 = l.map List.length := by
  symm
  rw [List.eq_replicate_iff]
  refine ⟨by simp, ?_⟩
  intro b hb
  have := List.sum_eq_zero_iff.mp h
  exact this b hb

include hR in
theorem s6_spec (htab : ∀ p < np, (tab p).length = (dps p).length) {p : ℕ} (hp : p < np) :
    (∀ q, (s6 np dps tab lam p).sBs q = (gotRed np dps tab lam p q).map List.length) ∧
    (∀ q, (s6 np dps tab lam p).sTot q = ((gotRed np dps tab lam p q).map List.length).sum) ∧
    (s6 np dps tab lam p).ok = true := by
  have hbs : ∀ q, (s6 np dps tab lam p).sBs q = (gotRed np dps tab lam p q).map List.length := by
    intro q
    obtain ⟨h1, h2⟩ := s5_spec hR tab lam hp q
    simp only [s6, drunPhase, scatterSizes, h1, h2]
    by_cases h : q < p
    · by_cases h0 : 0 < ((gotRed np dps tab lam p q).map List.length).sum
      · rw [if_pos (by simp [h, h0]), if_pos (by simp [h, h0]), gotRed, if_pos h]
        rfl
      · rw [if_neg (by simp [h0]), sizes_zero (by omega)]
    · rw [gotRed_nil tab lam h]
      simp
  refine ⟨hbs, fun q => (s5_spec hR tab lam hp q).1, ?_⟩
  have : (s6 np dps tab lam p).ok = ((s4 np dps tab lam p).ok &&
      ((List.range np).all fun q => ((s6 np dps tab lam p).sBs q).length == (s5 np dps tab lam p).sNb q)) := rfl
  rw [this, (s4_spec hR tab lam htab hp).1, Bool.true_and, List.all_eq_true]
  intro q _
  rw [hbs, (s5_spec hR tab lam hp q).2]
  simp

include hR in
theorem s7_spec (htab : ∀ p < np, (tab p).length = (dps p).length) {p : ℕ} (hp : p < np) :
    (∀ q, (s7 np dps tab lam p).sBs q = (gotRed np dps tab lam p q).map List.length) ∧
    (∀ q, (s7 np dps tab lam p).sDat q = (gotRed np dps tab lam p q).flatten) ∧
    (s7 np dps tab lam p).ok = true ∧ (s7 np dps tab lam p).red = (s4 np dps tab lam p).red := by
  obtain ⟨hbs, htot, hok⟩ := s6_spec hR tab lam htab hp
  have hdat : ∀ q, (s7 np dps tab lam p).sDat q = (gotRed np dps tab lam p q).flatten := by
    intro q
    simp only [s7, drunPhase, scatterData, htot q]
    by_cases h : q < p
    · by_cases h0 : 0 < ((gotRed np dps tab lam p q).map List.length).sum
      · rw [if_pos (by simp [h, h0]), if_pos (by simp [h, h0]), gotRed, if_pos h]
        rfl
      · rw [if_neg (by simp [h0]), flatten_nil_of_sum (by omega)]
    · rw [gotRed_nil tab lam h]
      simp
  refine ⟨hbs, hdat, ?_, rfl⟩
  have : (s7 np dps tab lam p).ok = ((s6 np dps tab lam p).ok &&
      ((List.range np).all fun q => ((s7 np dps tab lam p).sDat q).length == (s6 np dps tab lam p).sTot q)) := rfl
  rw [this, hok, Bool.true_and, List.all_eq_true]
  intro q _
  rw [hdat, htot, List.length_flatten]
  simp

include hR in
/-- the result table -/
theorem output_spec (htab : ∀ p < np, (tab p).length = (dps p).length) {p : ℕ} (hp : p < np) :
    ∃ t, output dps p (s7 np dps tab lam p) = some t ∧ t.length = (dps p).length ∧
      ∀ (k : ℕ) (d : List ℕ), (dps p)[k]? = some d →
        t[k]? = some (some (contrib dps key (fun r => (s4 np dps tab lam r).red) (masterOf p d) (key p k))) := by
  obtain ⟨hbs, hdat, -, hred⟩ := s7_spec hR tab lam htab hp
  have hun : ((List.range p).mapM fun q => unpack (masterRows (dps p) p q) ((s7 np dps tab lam p).sBs q)
      ((s7 np dps tab lam p).sDat q)) = some ((List.range p).map fun q => (masterRows (dps p) p q).map fun k =>
        (k, contrib dps key (fun r => (s4 np dps tab lam r).red) q (key p k))) := by
    refine mapM_some_of _ _ _ ?_
    intro q hq
    have hq' : q < p := List.mem_range.mp hq
    rw [hbs, hdat, unpack_flatten _ _ (by rw [gotRed_eq hR tab lam hp hq', List.length_map]), gotRed_eq hR tab lam hp hq']
    rw [← List.map_prod_left_eq_zip]
  have hown : ((masterRows (dps p) p p).map fun k => (k, (s7 np dps tab lam p).red.getD k [])) =
      (masterRows (dps p) p p).map fun k => (k, contrib dps key (fun r => (s4 np dps tab lam r).red) p (key p k)) := by
    apply List.map_congr_left
    intro k hk
    rw [hred, contrib_eq hR (fun r => (s4 np dps tab lam r).red) hp (master_rows_lt hk)]
  have hall : (((List.range p).map fun q => (masterRows (dps p) p q).map fun k =>
        (k, contrib dps key (fun r => (s4 np dps tab lam r).red) q (key p k))).flatten ++
      (masterRows (dps p) p p).map fun k => (k, (s7 np dps tab lam p).red.getD k [])) =
      ((List.range (p + 1)).map fun q => (masterRows (dps p) p q).map fun k =>
        (k, contrib dps key (fun r => (s4 np dps tab lam r).red) q (key p k))).flatten := by
    rw [hown, List.range_succ, List.map_append, List.flatten_append]
    simp
  unfold output
  rw [hun, Option.map_some, hall]
  refine ⟨_, rfl, ?_⟩
  have hfst : (((List.range (p + 1)).map fun q => (masterRows (dps p) p q).map fun k =>
        (k, contrib dps key (fun r => (s4 np dps tab lam r).red) q (key p k))).flatten).map Prod.fst =
      ((List.range (p + 1)).map fun q => masterRows (dps p) p q).flatten := by
    rw [List.map_flatten, List.map_map]
    congr 1
    apply List.map_congr_left
    intro q _
    simp [List.map_map, Function.comp_def]
  have hspec := foldl_set_spec (((List.range (p + 1)).map fun q => (masterRows (dps p) p q).map fun k =>
        (k, contrib dps key (fun r => (s4 np dps tab lam r).red) q (key p k))).flatten) (List.replicate (dps p).length none) (by
      intro e he
      rw [List.mem_flatten] at he
      obtain ⟨l, hl, he⟩ := he
      obtain ⟨q, -, rfl⟩ := List.mem_map.mp hl
      obtain ⟨k, hk, rfl⟩ := List.mem_map.mp he
      rw [List.length_replicate]
      exact master_rows_lt hk) (by
      rw [hfst, List.nodup_flatten]
      constructor
      · intro l hl
        obtain ⟨q, -, rfl⟩ := List.mem_map.mp hl
        exact (masterFrom_sorted _ _ _ _).imp (fun h => Nat.ne_of_lt h)
      · rw [List.pairwise_map]
        refine (List.nodup_range (n := p + 1)).imp ?_
        intro a b hab
        rw [List.disjoint_left]
        intro k hka hkb
        obtain ⟨i, d, h1, h2, h3⟩ := (mem_masterFrom _ _ _ _ _).mp hka
        obtain ⟨j, e, g1, g2, g3⟩ := (mem_masterFrom _ _ _ _ _).mp hkb
        have : i = j := by omega
        subst this
        rw [h1] at g1
        cases g1
        exact hab (h3.symm.trans g3))
  refine ⟨by rw [hspec.1, List.length_replicate], ?_⟩
  intro k d hk
  have hv := hR.valid p hp d (List.mem_of_getElem? hk)
  have hm : masterOf p d ≤ p := (masterOf_spec hv).2 p (mem_members.mpr (Or.inl rfl))
  refine hspec.2.1 (k, _) ?_
  rw [List.mem_flatten]
  exact ⟨_, List.mem_map.mpr ⟨masterOf p d, List.mem_range.mpr (by omega), rfl⟩,
    List.mem_map.mpr ⟨k, (mem_masterFrom _ _ _ _ _).mpr ⟨k, d, hk, by omega, rfl⟩, rfl⟩⟩

end

end NgsAMG.RedTab
