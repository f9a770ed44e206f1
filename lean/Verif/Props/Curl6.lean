import Verif.Props.Curl5
import Mathlib.Data.Rat.Lemmas
import Mathlib.Algebra.Field.Rat

/-!
# The divergence of the curl of a loop is zero (C100): examples, and what goes wrong
-/

namespace NgsAMG.Curl
open NgsAMG.SparseMM NgsAMG.Spec NgsAMG.Loop

/-! ### an example: two triangles with a common edge, two degrees of freedom per edge -/

/-- edges -/
def exEs : List (ℕ × ℕ) := [(0, 1), (0, 2), (1, 2), (1, 3), (2, 3)]
/-- flow -/
def exFlow (e : ℕ) : Fin 2 → ℚ := ![(e : ℚ) + 1, 2]
/-- loops: the two triangles, the second one backwards, and the way around both -/
def exLoops : List (List ℤ) := [[1, 3, -2], [4, -5, -3], [1, 4, -5, -2]]

theorem exFlow_ne (e : ℕ) : ∑ m, exFlow e m * exFlow e m ≠ 0 := by
  rw [Fin.sum_univ_two]
  simp only [exFlow, Matrix.cons_val_zero, Matrix.cons_val_one]
  have : (0 : ℚ) ≤ ((e : ℚ) + 1) * ((e : ℚ) + 1) := mul_self_nonneg _
  intro h
  linarith

example : ∃ d2e T C, dof2e (e2dof none exEs) = some d2e ∧ transpose (ncCurlT !![7, 8] (e2dof none exEs) d2e.length exFlow (fun _ => true) exLoops) = some T ∧
      matMultAB (fun _ => 4) (fun _ _ => (0, 0)) (fun _ _ => (0, 0)) (ncDiv 4 (fun e => exEs.getD e (0, 0)) d2e (fun _ => true) (fun v => (v : ℚ) + 1) exFlow) T = some C ∧
      C.height = 4 ∧ C.width = 3 ∧ ∀ v k, C.entry v k = 0 := by
  refine div_curl_product 4 exEs (by decide) _ exFlow _ (fun _ => true) exLoops (by decide) (by decide) (fun l _ k _ => exFlow_ne _) ?_ _ _ _ (by decide)
  intro l hl
  simp only [exLoops, List.mem_cons, List.not_mem_nil, or_false] at hl
  rcases hl with rfl | rfl | rfl
  · exact ⟨[0, 1, 2, 0], ⟨by decide, by decide⟩, by decide⟩
  · exact ⟨[1, 3, 2, 1], ⟨by decide, by decide⟩, by decide⟩
  · exact ⟨[0, 1, 3, 2, 0], ⟨by decide, by decide⟩, by decide⟩

/-! ### an example with two processes and ghost vertices -/

/-- process `false` has vertices 0, 1, 2 and the edges `0–1`, `1–2`, `0–2`; process `true` has vertices 2, 3, 0 (in this order, 2 and 0 are ghosts), and the edges `2–3`, `2–0`, `3–0`;
the walk is `0, 1, 2, 3, 0` -/
def exPart (p : Bool) : Part 2 ℚ ℕ where
  nv := 3
  edges e := if p then [(0, 1), (0, 2), (1, 2)].getD e (0, 0) else [(0, 1), (1, 2), (0, 2)].getD e (0, 0)
  glob v := if p then [2, 3, 0].getD v 0 else v
  e2d := if p then e2dof (some fun v => decide (v ≠ 1)) [(0, 1), (0, 2), (1, 2)] else e2dof (some fun _ => false) [(0, 1), (1, 2), (0, 2)]
  d2e := if p then [0, 2] else [0, 1, 2]
  master _ := true
  flow := exFlow
  junk := fun _ _ => 5
  active _ := true
  loops := if p then [[1, 3]] else [[2, 1]]

theorem exPart_ok (p : Bool) : (exPart p).OK := by
  have key : ∀ (g : ℕ → Bool) (es : List (ℕ × ℕ)) (d2e : List ℕ), dof2e (e2dof (some g) es) = some d2e →
      ∀ e d : ℕ, (e2dof (some g) es)[e]? = some (some d) ↔ d2e[d]? = some e := by
    intro g es d2e h
    obtain ⟨d', h1, -, h3, -, -⟩ := dofed_correct (some g) es
    rw [h] at h1
    rw [Option.some.inj h1]
    exact h3
  cases p
  · exact ⟨key _ _ _ (by decide), by decide, by decide, by decide, by decide, fun l _ k _ => exFlow_ne _⟩
  · exact ⟨key _ _ _ (by decide), by decide, by decide, by decide, by decide, fun l _ k _ => exFlow_ne _⟩

example (V : ℕ) : ([false, true].map fun p => ∑ v ∈ Finset.range (exPart p).nv, if (exPart p).glob v = V then (exPart p).divCurl (fun v => 1 / ((v : ℚ) + 1)) v 0 else 0).sum = 0 :=
  div_curl_zero [false, true] exPart (fun p _ => exPart_ok p) _ [0, 1, 2, 3, 0] ⟨by decide, by decide⟩ (fun _ => 0)
    (fun p => if p then [1, 3] else [2, 1]) (fun p _ => by cases p <;> rfl) (fun p _ => rfl) (by decide) V

/-! ### what goes wrong -/

/-- **C100** (needed: no edge twice). A closed walk that goes over an edge forth and back has curl zero; but the code makes a row with the same column twice, in which the first
value is that of the way back and the second one is never set. -/
theorem curl_twice {K : Type} [Field K] {b : ℕ} (flow : ℕ → Fin b → K) (junk : Mt 1 b K) :
    (ncCurlT junk (e2dof none [(0, 1)]) 1 flow (fun _ => true) [[1, -1]]).row 0 = [(0, ncVal flow (-1)), (0, junk)] := by
  rfl

/-- its divergence is not zero -/
theorem curl_twice_div : ∃ junk : Mt 1 1 ℚ, Closed [0, 1, 0] ∧ ([1, -1].map (entryVerts fun _ => (0, 1))) = steps [0, 1, 0] ∧
    (∑ d ∈ Finset.range 1, (ncDiv 2 (fun _ => (0, 1)) [0] (fun _ => true) (fun _ => (1 : ℚ)) (fun _ (_ : Fin 1) => 1)).entry 0 d
      * ((ncCurlT junk (e2dof none [(0, 1)]) 1 (fun _ _ => 1) (fun _ => true) [[1, -1]]).entry 0 d).transpose) ≠ 0 := by
  refine ⟨0, ⟨by decide, by decide⟩, by decide, ?_⟩
  rw [Finset.sum_range_one]
  have h1 := (ncDiv_correct 2 (fun _ => (0, 1)) [0] (fun _ => true) (fun _ => (1 : ℚ)) (fun _ (_ : Fin 1) => 1) (by decide)).2 0 (by decide) 0 0 rfl
  have h2 : (ncCurlT (0 : Mt 1 1 ℚ) (e2dof none [(0, 1)]) 1 (fun _ _ => 1) (fun _ => true) [[1, -1]]).entry 0 0 = ncVal (fun _ _ => 1) (-1) := by
    rw [CSR.entry, curl_twice]
    simp
  rw [h1, h2]
  intro h
  have h3 := congrFun (congrFun h 0) 0
  rw [Matrix.mul_apply, Fin.sum_univ_one] at h3
  simp [divEntry, inc, ncVal, sgn, Matrix.transpose_apply] at h3

end NgsAMG.Curl
