import Verif.Props.FacetLoops2
import Verif.Props.LoopSort6

/-!
# Facet loops 3: **C106**, two processes
-/

namespace NgsAMG.LSort

open NgsAMG.Exch NgsAMG.EQC NgsAMG.RedTab

/-- process 0 has the two loops of the examples of C105: the shared one as row 0 and a triangle as row 1 -/
def P0 : PLoops where
  nRows := 2
  data := fun r => if r = 0 then [20, 21] else [10, 11, 12]
  dps := fun r => if r = 0 then [1] else []
  f2e := fun f => if f = 20 then some 0 else if f = 21 then some 2 else if f < 13 then some (f - 6) else none
  edge := fun e => if e < 4 then edge0 e else ((triEdge (e - 4)).1 + 4, (triEdge (e - 4)).2 + 4)
  code := fun v => if v = 0 then (1, 0) else if v = 1 then (3, 0) else if v = 2 then (3, 1) else (2, 0)
  vert := vert0
  ghost := fun v => v == 3
  econ := fun v w => if min v w = 0 then max v w - 1 else min v w + 1

/-- process 1 has the rest of the shared loop; its vertex 3 is a ghost -/
def P1 : PLoops where
  nRows := 1
  data := fun _ => [5, 6]
  dps := fun _ => [0]
  f2e := fun f => if f = 5 then some 1 else some 3
  edge := edge0
  code := fun v => if v = 0 then (2, 0) else if v = 1 then (3, 0) else if v = 2 then (3, 1) else (1, 0)
  vert := fun g => if g = (2, 0) then some 0 else if g = (3, 0) then some 1 else if g = (3, 1) then some 2 else if g = (1, 0) then some 3 else none
  ghost := fun v => v == 3
  econ := fun v w => if min v w = 0 then max v w - 1 else min v w + 1

/-- both processes -/
def PP (p : ℕ) : PLoops := if p = 0 then P0 else P1

theorem whole_cycle : Cycle Prod.fst Prod.snd whole := by
  refine ⟨?_, ?_⟩
  · intro A hA
    have h0 := hA ((1, 0), (3, 0)) (by decide)
    have h1 := hA ((3, 0), (2, 0)) (by decide)
    have h2 := hA ((2, 0), (3, 1)) (by decide)
    simp only at h0 h1 h2
    by_cases h : A (1, 0)
    · left
      intro t ht
      simp only [whole, List.mem_cons, List.not_mem_nil, or_false] at ht
      rcases ht with rfl | rfl | rfl | rfl
      · exact h
      · exact h0.1 h
      · exact h1.1 (h0.1 h)
      · exact h2.1 (h1.1 (h0.1 h))
    · right
      intro t ht
      simp only [whole, List.mem_cons, List.not_mem_nil, or_false] at ht
      rcases ht with rfl | rfl | rfl | rfl
      · exact h
      · exact fun k => h (h0.2 k)
      · exact fun k => h (h0.2 (h1.2 k))
      · exact fun k => h (h0.2 (h1.2 (h2.2 k)))
  · intro v
    by_cases h : v ∈ [((1, 0) : GV), (3, 0), (2, 0), (3, 1)]
    · right
      simp only [List.mem_cons, List.not_mem_nil, or_false] at h
      rcases h with rfl | rfl | rfl | rfl <;> decide
    · left
      simp only [List.mem_cons, List.not_mem_nil, or_false, not_or] at h
      refine degree_zero' fun t ht => ?_
      simp only [whole, List.mem_cons, List.not_mem_nil, or_false] at ht
      rcases ht with rfl | rfl | rfl | rfl <;> simp <;> tauto

theorem tri_cycle4 : Cycle (fun e => (P0.edge e).1) (fun e => (P0.edge e).2) [4, 5, 6] := by
  refine ⟨?_, ?_⟩
  · intro A hA
    have h0 : A 4 ↔ A 5 := hA 4 (by simp)
    by_cases h : A 4
    · left
      intro t ht
      simp only [List.mem_cons, List.not_mem_nil, or_false] at ht
      rcases ht with rfl | rfl | rfl
      · exact h
      · exact h
      · exact h0.1 h
    · right
      intro t ht
      simp only [List.mem_cons, List.not_mem_nil, or_false] at ht
      rcases ht with rfl | rfl | rfl
      · exact h
      · exact h
      · exact fun k => h (h0.2 k)
  · intro v
    by_cases h : v ∈ [4, 5, 6]
    · right
      simp only [List.mem_cons, List.not_mem_nil, or_false] at h
      rcases h with rfl | rfl | rfl <;> decide
    · left
      simp only [List.mem_cons, List.not_mem_nil, or_false, not_or] at h
      refine degree_zero' fun t ht => ?_
      simp only [List.mem_cons, List.not_mem_nil, or_false] at ht
      rcases ht with rfl | rfl | rfl <;> simp [P0, triEdge] <;> omega

theorem shared0 : (PP 0).sharedDps = [[1]] := by decide +kernel
theorem shared1 : (PP 1).sharedDps = [[0]] := by decide +kernel

theorem rows_PP : Rows 2 (fun p => (PP p).sharedDps) (fun _ _ => (0 : ℕ)) := by
  refine ⟨?_, ?_, ?_, ?_⟩
  · intro p hp d hd
    obtain rfl | rfl : p = 0 ∨ p = 1 := by omega
    · simp only [shared0, List.mem_singleton] at hd
      subst hd
      exact ⟨by simp [EQC.SL], by simp, by simp⟩
    · simp only [shared1, List.mem_singleton] at hd
      subst hd
      exact ⟨by simp [EQC.SL], by simp, by simp⟩
  · intro p hp k l hk hl _
    obtain rfl | rfl : p = 0 ∨ p = 1 := by omega
    · rw [shared0] at hk hl; simp at hk hl; omega
    · rw [shared1] at hk hl; simp at hk hl; omega
  · intro p hp k d hk q hq
    obtain rfl | rfl : p = 0 ∨ p = 1 := by omega
    · simp only [shared0] at hk
      have hd := List.mem_of_getElem? hk
      rw [List.mem_singleton] at hd
      subst hd
      rw [List.mem_singleton] at hq
      subst hq
      exact ⟨0, [0], by simp only [shared1]; rfl, rfl, by decide⟩
    · simp only [shared1] at hk
      have hd := List.mem_of_getElem? hk
      rw [List.mem_singleton] at hd
      subst hd
      rw [List.mem_singleton] at hq
      subst hq
      exact ⟨0, [1], by simp only [shared0]; rfl, rfl, by decide⟩
  · intro p q hpq hq k k' l l' hkk hk' hl hl' _ _
    obtain rfl : p = 0 := by omega
    simp only [shared0, List.length_singleton] at hk'
    omega

theorem setting_PP : Setting 2 PP fun _ _ => (0 : ℕ) := by
  refine ⟨rows_PP, ?_, ?_, ?_⟩
  · intro p hp r hr hd
    obtain rfl | rfl : p = 0 ∨ p = 1 := by omega
    · have hr : r < 2 := hr
      obtain rfl | rfl : r = 0 ∨ r = 1 := by omega
      · exact absurd hd (by decide)
      · exact ⟨[4, 5, 6], by decide, by decide, tri_cycle4⟩
    · exact absurd hd (by simp [PP, P1])
  · intro p hp r hr hd f hf
    obtain rfl | rfl : p = 0 ∨ p = 1 := by omega
    · have hr : r < 2 := hr
      obtain rfl | rfl : r = 0 ∨ r = 1 := by omega
      · simp only [PP, P0, if_true, List.mem_cons, List.not_mem_nil, or_false] at hf
        rcases hf with rfl | rfl <;> decide
      · exact absurd rfl hd
    · show (if f = 5 then some 1 else some 3 : Option ℕ).isSome = true
      split <;> rfl
  · intro p hp k d hk parts hparts
    have hprocs : (p :: d).insertionSort (· ≤ ·) = [0, 1] := by
      obtain rfl | rfl : p = 0 ∨ p = 1 := by omega
      · rw [shared0] at hk
        have hd := List.mem_of_getElem? hk
        rw [List.mem_singleton] at hd
        subst hd; decide
      · rw [shared1] at hk
        have hd := List.mem_of_getElem? hk
        rw [List.mem_singleton] at hd
        subst hd; decide
    rw [hprocs] at hparts
    have h0 : (PP 0).shared = [[((1, 0), (3, 0)), ((3, 0), (2, 0))]] := by decide +kernel
    have h1 : (PP 1).shared = [[((2, 0), (3, 1)), ((3, 1), (1, 0))]] := by decide +kernel
    have hk2 : RowsWithKey (fun _ _ => (0 : ℕ)) (fun q => (PP q).shared) 0 [0, 1]
        [[((1, 0), (3, 0)), ((3, 0), (2, 0))], [((2, 0), (3, 1)), ((3, 1), (1, 0))]] :=
      List.Forall₂.cons ⟨0, rfl, by simp only [h0]; rfl⟩ (List.Forall₂.cons ⟨0, rfl, by simp only [h1]; rfl⟩ List.Forall₂.nil)
    have := rowsWithKey_unique (tab := fun q => (PP q).shared) (key := fun _ _ => (0 : ℕ)) (κ := 0) (fun q hq k l hk hl _ => by
      simp only [List.mem_cons, List.not_mem_nil, or_false] at hq
      rcases hq with rfl | rfl
      · simp only [h0, List.length_singleton] at hk hl; omega
      · simp only [h1, List.length_singleton] at hk hl; omega) hparts hk2
    subst this
    exact ⟨by decide, whole_cycle⟩

/-- the execution without concurrency of the example, and what the processes get -/
example : (PP 0).finish [whole] = some ([[5, 7, -6], [1, 3, -4, -2]], [[], [1]]) ∧ (PP 1).finish [whole] = some ([[-3, -1, 2, 4]], [[0]]) := by
  decide +kernel

example {n : ℕ} {s : Exch.St (Loc (GV × GV) (GV × GV)) (Msg (GV × GV) (GV × GV))}
    (h : DReach 2 (loopProg 2 PP) (fun _ => {}) n s) (hf : DFinal 2 (loopProg 2 PP) s) : (s.vec 0).ok = true ∧ (s.vec 1).ok = true := by
  obtain ⟨-, G, h1, -⟩ := facetLoops_correct setting_PP h hf
  exact ⟨(h1 0 (by decide)).1, (h1 1 (by decide)).1⟩

example {n : ℕ} {s : Exch.St (Loc (GV × GV) (GV × GV)) (Msg (GV × GV) (GV × GV))}
    (h : DReach 2 (loopProg 2 PP) (fun _ => {}) n s) : n ≤ 32 ∧ (¬ DFinal 2 (loopProg 2 PP) s → ∃ t, DStep 2 (loopProg 2 PP) s t) :=
  ⟨facetLoops_terminates setting_PP h, facetLoops_no_deadlock setting_PP h⟩

example : boundary (codeSrc edge0) (codeTgt edge0)
    (decodeLoop vert0 (fun v => v == 3) (fun v w => if min v w = 0 then max v w - 1 else min v w + 1) whole) 1 = 0 :=
  decoded_divergence_free (loop := whole) (a := (1, 0)) (by simp [Walk, whole]) _ _ _ _ knows0 (3, 0) 1 rfl rfl (by decide)

end NgsAMG.LSort
