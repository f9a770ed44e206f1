import Verif.Model.CoarseMapSV
import Verif.Props.CoarseMap5

/-!
# C93: `MapVerts_sv`, counts and offsets
-/

namespace NgsAMG.CMap

open NgsAMG.EQC NgsAMG.RedTab NgsAMG.Exch NgsAMG.BTM

/-! ### prefix sums -/

theorem prefixRow_spec (s : ℕ) (r : List ℕ) : (prefixRow s r).2 = s + r.sum ∧
    ∀ j : ℕ, (prefixRow s r).1[j]? = if j < r.length then some (s + (r.take j).sum) else none := by
  induction r generalizing s with
  | nil => simp [prefixRow]
  | cons x xs ih =>
    obtain ⟨h1, h2⟩ := ih (s + x)
    refine ⟨by rw [prefixRow, h1, List.sum_cons, Nat.add_assoc], ?_⟩
    intro j
    rw [prefixRow]
    cases j with
    | zero => simp
    | succ j =>
      rw [List.getElem?_cons_succ, h2]
      simp [Nat.add_assoc]

theorem prefixRow_length (s : ℕ) (r : List ℕ) : (prefixRow s r).1.length = r.length := by
  induction r generalizing s with
  | nil => rfl
  | cons x xs ih => rw [prefixRow, List.length_cons, ih, List.length_cons]

theorem prefixRows_spec (s : ℕ) (rows : List (List ℕ)) :
    (prefixRows s rows).2 = s :: partialSum s (rows.map List.sum) ∧
    ∀ k : ℕ, (prefixRows s rows).1[k]? = (rows[k]?).map fun row => (prefixRow (s + ((rows.take k).map List.sum).sum) row).1 := by
  induction rows generalizing s with
  | nil => simp [prefixRows, partialSum]
  | cons r rs ih =>
    obtain ⟨h1, h2⟩ := ih (prefixRow s r).2
    constructor
    · rw [prefixRows, h1, List.map_cons, partialSum, (prefixRow_spec s r).1]
    · intro k
      rw [prefixRows]
      cases k with
      | zero => simp
      | succ k =>
        rw [List.getElem?_cons_succ, h2, List.getElem?_cons_succ, (prefixRow_spec s r).1]
        simp [Nat.add_assoc]

/-! ### numbers in consecutive blocks -/

theorem locate (L : List ℕ) {c : ℕ} (h : c < L.sum) : ∃ i b j : ℕ, L[i]? = some b ∧ j < b ∧ c = (L.take i).sum + j := by
  induction L generalizing c with
  | nil => simp at h
  | cons x xs ih =>
    by_cases hx : c < x
    · exact ⟨0, x, c, rfl, hx, by simp⟩
    · rw [List.sum_cons] at h
      obtain ⟨i, b, j, h1, h2, h3⟩ := ih (c := c - x) (by omega)
      exact ⟨i + 1, b, j, by simpa using h1, h2, by rw [List.take_succ_cons, List.sum_cons]; omega⟩

theorem take_sum_le (L : List ℕ) {i i' b : ℕ} (h : i < i') (hb : L[i]? = some b) : (L.take i).sum + b ≤ (L.take i').sum := by
  induction L generalizing i i' with
  | nil => simp at hb
  | cons x xs ih =>
    obtain ⟨i', rfl⟩ : ∃ m, i' = m + 1 := ⟨i' - 1, by omega⟩
    cases i with
    | zero =>
      rw [List.getElem?_cons_zero, Option.some.injEq] at hb
      subst hb
      rw [List.take_succ_cons, List.sum_cons]
      simp
    | succ i =>
      rw [List.getElem?_cons_succ] at hb
      have := ih (i := i) (i' := i') (by omega) hb
      rw [List.take_succ_cons, List.sum_cons, List.take_succ_cons, List.sum_cons]
      omega

theorem locate_unique (L : List ℕ) {i i' b b' j j' : ℕ} (h : L[i]? = some b) (h' : L[i']? = some b') (hj : j < b) (hj' : j' < b')
    (he : (L.take i).sum + j = (L.take i').sum + j') : i = i' ∧ j = j' := by
  rcases Nat.lt_trichotomy i i' with hlt | rfl | hlt
  · have := take_sum_le L hlt h
    omega
  · exact ⟨rfl, by omega⟩
  · have := take_sum_le L hlt h'
    omega

theorem locate_lt (L : List ℕ) {i b j : ℕ} (h : L[i]? = some b) (hj : j < b) : (L.take i).sum + j < L.sum := by
  have := take_sum_le L (i' := L.length) (List.getElem?_eq_some_iff.mp h).1 h
  rw [List.take_length] at this
  omega

/-! ### the tentative counts -/

/-- the center of the agglomerate is in the class `k` -/
def cenIn (C : Ctx) (k : ℕ) (g : Agg) : Bool := C.eqcV g.center == some k

theorem count_fold (ks : List ℕ) (t : List (List ℕ)) (k : ℕ) :
    (ks.foldl (fun t k => t.modify k fun row => row.map (· + 1)) t)[k]? = (t[k]?).map fun row => row.map (· + ks.count k) := by
  induction ks generalizing t with
  | nil => simp
  | cons x xs ih =>
    rw [List.foldl_cons, ih, List.getElem?_modify]
    by_cases hx : x = k
    · subst hx
      rw [List.count_cons_self]
      cases t[x]? with
      | none => rfl
      | some row =>
        simp only [if_true, Option.map_eq_map, Option.map_some, List.map_map, Option.some.injEq]
        refine List.map_congr_left fun a _ => ?_
        show a + 1 + _ = _
        omega
    · simp only [if_neg hx]
      rw [List.count_cons_of_ne (by simpa using hx)]
      simp

theorem mapM_countP (C : Ctx) (aggs : List Agg) {ks : List ℕ} (h : (aggs.mapM fun g => C.eqcV g.center) = some ks) (k : ℕ) :
    ks.count k = aggs.countP (cenIn C k) := by
  induction aggs generalizing ks with
  | nil => simp at h; subst h; rfl
  | cons g gs ih =>
    rw [List.mapM_cons] at h
    cases hg : C.eqcV g.center with
    | none => simp [hg] at h
    | some x =>
      cases hs : (gs.mapM fun g => C.eqcV g.center) with
      | none => rw [hg, hs] at h; simp at h
      | some xs =>
        rw [hg, hs] at h
        simp at h
        subst h
        rw [List.countP_cons, ← ih hs, List.count_cons]
        congr 1
        simp [cenIn, hg]

theorem tentCnts_spec {C : Ctx} {aggs : List Agg} (h : ∀ g ∈ aggs, ∃ k, C.eqcV g.center = some k ∧ k < C.T.length) :
    tentCnts C aggs = some ((List.range C.T.length).map fun k => [aggs.countP (cenIn C k)]) := by
  choose! f hf using h
  have hm : (aggs.mapM fun g => C.eqcV g.center) = some (aggs.map f) := mapM_some_of _ _ _ fun g hg => (hf g hg).1
  unfold tentCnts
  rw [hm, Option.bind_some, if_pos]
  · congr 1
    refine List.ext_getElem? fun k => ?_
    rw [count_fold, mapM_countP C aggs hm k, List.getElem?_replicate]
    by_cases hk : k < C.T.length
    · rw [if_pos hk, List.getElem?_map, List.getElem?_range hk]
      simp
    · rw [if_neg hk, List.getElem?_eq_none (by simpa using hk)]
      rfl
  · intro k hk
    rw [List.mem_map] at hk
    obtain ⟨g, hg, rfl⟩ := hk
    exact (hf g hg).2

end NgsAMG.CMap
