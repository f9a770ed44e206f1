import Verif.Model.P2Emb
import Verif.Props.DofMaps3

/-!
# C112: vertices of the algebraic P2 ordering
-/

namespace NgsAMG.P2E
open NgsAMG.DofM NgsAMG.Spec

/-- the degrees of freedom that are the middle of no edge, in their order -/
def properDofs (inSS : ℕ) (trips : List Trip) : List ℕ := (List.range inSS).filter fun d => !(trips.map Trip.vMid).contains d

theorem mem_properDofs {inSS : ℕ} {trips : List Trip} {d : ℕ} : d ∈ properDofs inSS trips ↔ d < inSS ∧ ∀ t ∈ trips, t.vMid ≠ d := by
  simp [properDofs]

theorem properDofs_sorted (inSS : ℕ) (trips : List Trip) : (properDofs inSS trips).Pairwise (· < ·) := List.pairwise_lt_range.filter _

theorem isMid_aux {n : ℕ} (trips : List Trip) (h : ∀ t ∈ trips, t.vMid < n) (b : List Bool) (hb : b.length = n) :
    ∃ mid, trips.foldlM (fun (b : List Bool) (t : Trip) => if t.vMid < b.length then some (b.set t.vMid true) else none) b = some mid ∧ mid.length = n ∧
      ∀ d < n, mid.getD d false = (b.getD d false || (trips.map Trip.vMid).contains d) := by
  induction trips generalizing b with
  | nil => exact ⟨b, rfl, hb, by simp⟩
  | cons t trips ih =>
    have ht : t.vMid < b.length := by rw [hb]; exact h t (by simp)
    obtain ⟨mid, h1, h2, h3⟩ := ih (fun t ht => h t (by simp [ht])) (b.set t.vMid true) (by simpa using hb)
    refine ⟨mid, ?_, h2, ?_⟩
    · rw [List.foldlM_cons, if_pos ht]
      exact h1
    · intro d hd
      rw [h3 d hd, List.map_cons, List.contains_cons]
      by_cases he : d = t.vMid
      · subst he
        simp [List.getD_eq_getElem?_getD, ht]
      · have he' : t.vMid ≠ d := fun h => he h.symm
        rw [List.getD_eq_getElem?_getD, List.getElem?_set_ne he', ← List.getD_eq_getElem?_getD, beq_eq_false_iff_ne.mpr he, Bool.false_or]

theorem isMid_spec {n : ℕ} {trips : List Trip} (h : ∀ t ∈ trips, t.vMid < n) :
    ∃ mid, isMid n trips = some mid ∧ mid.length = n ∧ ∀ d < n, mid.getD d false = (trips.map Trip.vMid).contains d := by
  obtain ⟨mid, h1, h2, h3⟩ := isMid_aux trips h (List.replicate n false) (by simp)
  refine ⟨mid, h1, h2, fun d hd => ?_⟩
  rw [h3 d hd]
  simp [List.getD_eq_getElem?_getD, hd]

theorem count_split (l : List Bool) : l.length - l.count true = ((List.range l.length).filter fun d => !l.getD d false).length := by
  have h : ∀ l : List Bool, l.length = l.count true + ((List.range l.length).filter fun d => !l.getD d false).length := by
    intro l
    induction l with
    | nil => rfl
    | cons b l ih =>
      rw [List.length_cons, List.range_succ_eq_map, List.filter_cons, List.filter_map]
      have e : (fun d => !(b :: l).getD d false) ∘ Nat.succ = fun d => !l.getD d false := by
        funext d
        simp
      rw [e]
      cases b
      · simp only [List.getD_cons_zero, Bool.not_false, if_true, List.length_cons, List.length_map]
        rw [List.count_cons_of_ne (by decide)]
        omega
      · simp only [List.getD_cons_zero, Bool.not_true, Bool.false_eq_true, if_false, List.length_map, List.count_cons_self]
        omega
  have := h l
  omega

theorem fold_proper (mid : List Bool) (l : List ℕ) (hl : ∀ k ∈ l, k < mid.length) (s : Maps × ℕ) :
    l.foldlM (algStep mid) s =
      (l.filter fun d => !mid.getD d false).foldlM (fun (s : Maps × ℕ) d => (putMaps s.1 d s.2 s.2).map fun m => (m, s.2 + 1)) s := by
  induction l generalizing s with
  | nil => rfl
  | cons k l ih =>
    have hk : k < mid.length := hl k (by simp)
    have e : mid[k]? = some (mid.getD k false) := by simp [List.getD_eq_getElem?_getD, hk]
    rw [List.foldlM_cons, List.filter_cons]
    unfold algStep
    rw [e, Option.bind_some]
    cases hb : mid.getD k false
    · simp only [Bool.not_false, if_true, List.foldlM_cons]
      cases putMaps s.1 k s.2 s.2 with
      | none => rfl
      | some m => exact ih (fun k hk => hl k (by simp [hk])) _
    · simp only [Bool.not_true, Bool.false_eq_true, if_false]
      exact ih (fun k hk => hl k (by simp [hk])) _

/-- **C112**, `P2_ORDERING_ALG`: the maps of the vertices are a numbering of the degrees of freedom that are the middle of no edge, in their order; the middles
belong to no vertex -/
theorem algMaps_correct {inSS : ℕ} {trips : List Trip} (h : ∀ t ∈ trips, t.vMid < inSS) :
    ∃ m, algMaps inSS trips = some (m, (properDofs inSS trips).length) ∧
      Numbering inSS (properDofs inSS trips).length [1] (properDofs inSS trips) id m.d2v m.v2d := by
  obtain ⟨mid, h1, h2, h3⟩ := isMid_spec h
  have hD : (List.range inSS).filter (fun d => !mid.getD d false) = properDofs inSS trips :=
    List.filter_congr fun d hd => by rw [h3 d (List.mem_range.mp hd)]
  have hn : inSS - mid.count true = (properDofs inSS trips).length := by
    have := count_split mid
    rw [h2, hD] at this
    exact this
  set D := properDofs inSS trips with hDef
  have hnd : D.Nodup := (properDofs_sorted inSS trips).imp fun h => h.ne
  have hlt : ∀ d ∈ D, d < inSS := fun d hd => (mem_properDofs.mp hd).1
  have hs : ([1] : List ℕ).sum = 1 := rfl
  obtain ⟨⟨m, c⟩, g1, g2, g3⟩ := foldlM_inv (D := D) (f := fun (s : Maps × ℕ) d => (putMaps s.1 d s.2 s.2).map fun m => (m, s.2 + 1))
    (I := fun k s => s.2 = k ∧ After inSS D.length [1] D k s.1) (s := (initMaps inSS D.length, 0))
    (by
      rintro k d ⟨m, c⟩ hd ⟨rfl, ha⟩
      dsimp only at ha hd ⊢
      have hk : c < D.length * 1 := by rw [Nat.mul_one]; exact (List.getElem?_eq_some_iff.mp hd).1
      obtain ⟨m', g1, g2⟩ := after_succ hnd hlt ha hd (slot_single hk)
      rw [hs, Nat.div_add_mod', Nat.div_one] at g1
      exact ⟨(m', c + 1), by rw [g1]; rfl, rfl, g2⟩)
    ⟨rfl, by have := after_zero inSS D.length [1] D; rwa [hs, Nat.mul_one] at this⟩
  dsimp only at g2 g3
  refine ⟨m, ?_, after_end (by rw [hs, Nat.mul_one]) g3⟩
  unfold algMaps
  rw [h1, Option.bind_some, hn, fold_proper mid _ (fun k hk => by rw [h2]; exact List.mem_range.mp hk), hD, g1, g2]

example : ∀ t ∈ [(⟨0, 2, 1⟩ : Trip), ⟨2, 4, 3⟩], t.vMid < 5 := by decide

example : algMaps 5 [⟨0, 2, 1⟩, ⟨2, 4, 3⟩] =
    some (⟨[some 0, none, some 1, none, some 2], [some 0, some 2, some 4]⟩, 3) := by decide +kernel

/-- **C112**: an edge whose ends are proper degrees of freedom gets the numbers of the two vertices there, before the new numbers of the mesh -/
theorem algParents_correct {inSS : ℕ} {trips : List Trip} (h : ∀ t ∈ trips, t.vMid < inSS)
    (he : ∀ t ∈ trips, t.vI ∈ properDofs inSS trips ∧ t.vJ ∈ properDofs inSS trips) :
    ∃ m ps, algMaps inSS trips = some (m, (properDofs inSS trips).length) ∧ algParents m trips = some ps ∧ ps.length = trips.length ∧
      ∀ (k : ℕ) (t : Trip) (p : Parent), trips[k]? = some t → ps[k]? = some p →
        p.dof = t.vMid ∧ (∃ a, p.v0 = some a ∧ (properDofs inSS trips)[a]? = some t.vI) ∧ ∃ b, p.v1 = some b ∧ (properDofs inSS trips)[b]? = some t.vJ := by
  obtain ⟨m, h1, h2⟩ := algMaps_correct h
  set D := properDofs inSS trips with hDef
  have key : ∀ d ∈ D, ∃ a, m.d2v[d]? = some (some a) ∧ D[a]? = some d := by
    intro d hd
    obtain ⟨a, ha⟩ := List.getElem?_of_mem hd
    have hk : a < D.length := (List.getElem?_eq_some_iff.mp ha).1
    have := (h2.on a d (a / 1) (a % 1) ha (slot_single (by omega))).1
    rw [Nat.div_one] at this
    exact ⟨a, this, ha⟩
  have main : ∀ l : List Trip, (∀ t ∈ l, t.vI ∈ D ∧ t.vJ ∈ D) → ∃ ps, algParents m l = some ps ∧ ps.length = l.length ∧
      ∀ (k : ℕ) (t : Trip) (p : Parent), l[k]? = some t → ps[k]? = some p →
        p.dof = t.vMid ∧ (∃ a, p.v0 = some a ∧ D[a]? = some t.vI) ∧ ∃ b, p.v1 = some b ∧ D[b]? = some t.vJ := by
    intro l hl
    induction l with
    | nil => exact ⟨[], rfl, rfl, by simp⟩
    | cons t l ih =>
      obtain ⟨ps, i1, i2, i3⟩ := ih fun t ht => hl t (by simp [ht])
      obtain ⟨a, a1, a2⟩ := key t.vI (hl t (by simp)).1
      obtain ⟨b, b1, b2⟩ := key t.vJ (hl t (by simp)).2
      refine ⟨⟨t.vMid, some a, some b⟩ :: ps, ?_, by simp [i2], ?_⟩
      · unfold algParents at i1 ⊢
        rw [List.mapM_cons, i1, a1, b1]
        rfl
      · rintro (_ | k) t' p ht hp
        · simp only [List.getElem?_cons_zero, Option.some.injEq] at ht hp
          subst ht hp
          exact ⟨rfl, ⟨a, rfl, a2⟩, ⟨b, rfl, b2⟩⟩
        · exact i3 k t' p (by simpa using ht) (by simpa using hp)
  obtain ⟨ps, p1, p2, p3⟩ := main trips he
  exact ⟨m, ps, h1, p1, p2, p3⟩

example : ∀ t ∈ [(⟨0, 2, 1⟩ : Trip), ⟨2, 4, 3⟩], t.vI ∈ properDofs 5 [⟨0, 2, 1⟩, ⟨2, 4, 3⟩] ∧ t.vJ ∈ properDofs 5 [⟨0, 2, 1⟩, ⟨2, 4, 3⟩] := by decide +kernel

/-! ### `P2_ORDERING` -/

/-- the first degrees of freedom of the vertices of the mesh that have some -/
def firstDofs (vdofs : List (List ℕ)) : List ℕ := vdofs.filterMap List.head?

theorem p2Fold (vdofs : List (List ℕ)) (s : Maps × ℕ) :
    vdofs.foldlM p2Step s = (firstDofs vdofs).foldlM (fun (s : Maps × ℕ) d =>
      if d < s.1.d2v.length ∧ s.2 < s.1.v2d.length then some (⟨s.1.d2v.set d (some s.2), s.1.v2d.set s.2 (some s.2)⟩, s.2 + 1) else none) s := by
  induction vdofs generalizing s with
  | nil => rfl
  | cons ds vdofs ih =>
    cases ds with
    | nil =>
      rw [List.foldlM_cons]
      exact ih s
    | cons d ds =>
      have e : firstDofs ((d :: ds) :: vdofs) = d :: firstDofs vdofs := rfl
      rw [e, List.foldlM_cons, List.foldlM_cons]
      unfold p2Step
      dsimp only
      split_ifs with h
      · exact ih _
      · rfl

/-- **C112**, `P2_ORDERING`: the maps are complete and `d2v` is right, but `v2d` gives the number of the vertex instead of its degree of freedom -/
theorem p2Maps_result {ndof : ℕ} {vdofs : List (List ℕ)} (hnd : (firstDofs vdofs).Nodup) (hlt : ∀ d ∈ firstDofs vdofs, d < ndof) :
    ∃ m : Maps, p2Maps ndof vdofs = some (m, (firstDofs vdofs).length) ∧ m.d2v.length = ndof ∧ m.v2d = (List.range (firstDofs vdofs).length).map some ∧
      (∀ k d : ℕ, (firstDofs vdofs)[k]? = some d → m.d2v[d]? = some (some k)) ∧ ∀ d < ndof, d ∉ firstDofs vdofs → m.d2v[d]? = some none := by
  have hlen : (firstDofs vdofs).length ≤ vdofs.length := List.length_filterMap_le _ _
  set D := firstDofs vdofs with hD
  obtain ⟨⟨m, c⟩, g1, g2, g3, g4, g5, g6, g7⟩ := foldlM_inv (D := D) (f := fun (s : Maps × ℕ) d =>
      if d < s.1.d2v.length ∧ s.2 < s.1.v2d.length then some ((⟨s.1.d2v.set d (some s.2), s.1.v2d.set s.2 (some s.2)⟩ : Maps), s.2 + 1) else none)
    (I := fun k s => s.2 = k ∧ s.1.d2v.length = ndof ∧ s.1.v2d.length = vdofs.length ∧ s.1.v2d.take k = (List.range k).map some ∧
      (∀ j d : ℕ, j < k → D[j]? = some d → s.1.d2v[d]? = some (some j)) ∧ ∀ d < ndof, d ∉ D.take k → s.1.d2v[d]? = some none)
    (s := (initMaps ndof vdofs.length, 0))
    (by
      rintro k d ⟨m, c⟩ hd ⟨rfl, i1, i2, i3, i4, i5⟩
      dsimp only at i1 i2 i3 i4 i5 hd ⊢
      have hk : c < D.length := (List.getElem?_eq_some_iff.mp hd).1
      have hdn : d < ndof := hlt d (List.mem_of_getElem? hd)
      refine ⟨_, if_pos ⟨by omega, by omega⟩, rfl, by simpa using i1, by simpa using i2, ?_, ?_, ?_⟩
      · dsimp only
        rw [List.take_add_one, List.take_set_of_le le_rfl, i3, List.range_succ, List.map_append]
        congr 1
        rw [List.getElem?_set_self (by omega)]
        rfl
      · intro j d' hj hd'
        dsimp only
        by_cases he : j = c
        · subst he
          rw [hd'] at hd
          obtain rfl := Option.some.inj hd
          rw [List.getElem?_set_self (by omega)]
        · have hne : d ≠ d' := by
            rintro rfl
            obtain ⟨q1, q2⟩ := List.getElem?_eq_some_iff.mp hd
            obtain ⟨q3, q4⟩ := List.getElem?_eq_some_iff.mp hd'
            exact he ((List.Nodup.getElem_inj_iff hnd).mp (q4.trans q2.symm))
          rw [List.getElem?_set_ne hne]
          exact i4 j d' (by omega) hd'
      · intro d' hd' hn
        dsimp only
        rw [List.take_add_one, hd, Option.toList_some, List.mem_append, List.mem_singleton, not_or] at hn
        rw [List.getElem?_set_ne (fun h => hn.2 h.symm)]
        exact i5 d' hd' hn.1)
    ⟨rfl, by simp [initMaps], by simp [initMaps], by simp, by simp, fun d hd _ => by simp [initMaps, hd]⟩
  dsimp only at g2 g3 g4 g5 g6 g7
  subst g2
  refine ⟨⟨m.d2v, m.v2d.take D.length⟩, ?_, g3, g5, ?_, ?_⟩
  · unfold p2Maps
    rw [p2Fold, ← hD, g1]
    rfl
  · intro k d hd
    exact g6 k d (List.getElem?_eq_some_iff.mp hd).1 hd
  · intro d hd hn
    exact g7 d hd (by rwa [List.take_length])

example : (firstDofs [[], [1, 3], [2]]).Nodup ∧ ∀ d ∈ firstDofs [[], [1, 3], [2]], d < 4 := by decide +kernel

/-- **C112**, `P2_ORDERING`: when the used vertices of the mesh have the degrees of freedom `0`, `1`, .. as their first ones, the maps are a numbering -/
theorem p2Maps_partial {ndof : ℕ} {vdofs : List (List ℕ)} (hid : firstDofs vdofs = List.range (firstDofs vdofs).length) (hn : (firstDofs vdofs).length ≤ ndof) :
    ∃ m, p2Maps ndof vdofs = some (m, (firstDofs vdofs).length) ∧ Numbering ndof (firstDofs vdofs).length [1] (firstDofs vdofs) id m.d2v m.v2d := by
  obtain ⟨m, h1, h2, h3, h4, h5⟩ := p2Maps_result (ndof := ndof) (vdofs := vdofs) (by rw [hid]; exact List.nodup_range)
    (by intro d hd; rw [hid, List.mem_range] at hd; omega)
  refine ⟨m, h1, h2, by rw [h3]; simp, ?_, h5⟩
  intro k d v c hk hs
  have hkl : k < (firstDofs vdofs).length := (List.getElem?_eq_some_iff.mp hk).1
  rw [slot_single (by omega), Nat.div_one, Nat.mod_one] at hs
  obtain ⟨rfl, rfl⟩ := Prod.mk.inj (Option.some.inj hs)
  refine ⟨h4 k d hk, ?_⟩
  have : d = k := by
    rw [hid, List.getElem?_range hkl] at hk
    exact (Option.some.inj hk).symm
  subst this
  rw [h3]
  simp [hkl]

example : firstDofs [[0, 3], [1, 4], [2, 5]] = List.range (firstDofs [[0, 3], [1, 4], [2, 5]]).length := by decide +kernel

/-- **C112**, `P2_ORDERING`, in general the maps are wrong: the first vertex of the mesh has no degree of freedom (`definedon`) -/
theorem p2Maps_refuted : ¬ ∀ (ndof : ℕ) (vdofs : List (List ℕ)), (firstDofs vdofs).Nodup → (∀ d ∈ firstDofs vdofs, d < ndof) →
    ∃ m, p2Maps ndof vdofs = some (m, (firstDofs vdofs).length) ∧ Numbering ndof (firstDofs vdofs).length [1] (firstDofs vdofs) id m.d2v m.v2d := by
  intro h
  obtain ⟨m, h1, h2⟩ := h 3 [[], [1], [2]] (by decide) (by decide)
  have e : p2Maps 3 [[], [1], [2]] = some (⟨[none, some 0, some 1], [some 0, some 1]⟩, 2) := by decide +kernel
  rw [e] at h1
  obtain ⟨rfl, -⟩ := Prod.mk.inj (Option.some.inj h1)
  have := (h2.on 0 1 0 0 (by decide) (by decide)).2
  revert this
  decide

end NgsAMG.P2E
