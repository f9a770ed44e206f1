import Verif.Props.PresVec5
import Verif.Props.SortedArray

/-!
# Property C102: numbering of the degrees of freedom of the edges, and a concrete case
-/

namespace NgsAMG.Pres

/-- mesh_dofs.hpp:102-105, `DOFToEdge`, on a mesh with `N` edges -/
def dofToEdge (nd : ℕ → ℕ) (N d : ℕ) : Option ℕ :=
  match SortedArray.mergePos d ((List.range (N + 1)).map (dofOff nd)) with
  | some (.pos p) => some (p - 1)
  | _ => none

/-- **C102**: `DOFToEdge` is the inverse of `EdgeToDOF`, also with edges that have no degrees of freedom -/
theorem dofToEdge_correct (nd : ℕ → ℕ) {N E l : ℕ} (hE : E < N) (hl : l < nd E) : dofToEdge nd N (dofOff nd E + l) = some E := by
  have hs : ((List.range (N + 1)).map (dofOff nd)).Pairwise (· ≤ ·) := by
    rw [List.pairwise_map]
    exact List.pairwise_lt_range.imp fun h => dofOff_mono nd h.le
  have hget : ∀ i < N + 1, ((List.range (N + 1)).map (dofOff nd))[i]? = some (dofOff nd i) := by
    intro i hi
    rw [List.getElem?_map, List.getElem?_range hi]
    rfl
  obtain ⟨p, hp, h1, h2, h3⟩ := SortedArray.mergePos_correct (dofOff nd E + l) _ hs
  unfold dofToEdge
  rw [hp]
  have hEp : E < p := by
    by_contra h
    have := h3 E _ (hget E (by omega)) (by omega)
    omega
  have hpE : p ≤ E + 1 := by
    by_contra h
    have := h2 (E + 1) _ (hget (E + 1) (by omega)) (by omega)
    rw [dofOff_succ] at this
    omega
  show some (p - 1) = some E
  congr 1
  omega

/-- an edge without degrees of freedom between two others -/
example : dofToEdge (fun e => if e = 1 then 0 else 2) 3 2 = some 2 := dofToEdge_correct (fun e => if e = 1 then 0 else 2) (N := 3) (E := 2) (l := 0) (by decide) (by decide)

/-! ### a concrete case -/

theorem clear_of_mul {n : ℕ} {V : ℕ → Vec n} {a : ℝ} (h : V 1 = a • V 0) : Clear V 1 2 := by
  intro l h1 h2
  obtain rfl : l = 1 := by omega
  left
  rw [h]
  exact Submodule.smul_mem _ _ (Submodule.subset_span ⟨0, by norm_num, rfl⟩)

/-- two coarse edges with degrees of freedom, of two and one fine edges, and one without; a fine edge with two degrees of freedom -/
def inp7 : Inp where
  ord := [0, 1, 2]
  dofed := fun E => E != 1
  c2f := fun E => if E = 0 then [0, 1] else if E = 2 then [2] else []
  cv0 := fun _ => 0
  fv0 := fun e => e
  vmap := fun v => if v = 0 then some 0 else none
  flow := fun e => if e = 0 then 3 else if e = 1 then -2 else 1
  off := fun e => if e = 0 then 0 else e + 1
  vecs := [fun d => if d = 1 then 0 else 5]
  junk := fun _ _ => 0

theorem inp7_ok : ∀ E ∈ inp7.ord, inp7.dofed E = true → EdgeOK inp7 E := by
  intro E hE hd
  simp only [inp7, List.mem_cons, List.not_mem_nil, or_false] at hE
  obtain rfl | rfl | rfl := hE
  · refine ⟨?_, 0, by simp [inp7], by simp [inp7]⟩
    intro e he
    simp only [inp7, if_true, List.mem_cons, List.not_mem_nil, or_false] at he
    obtain rfl | rfl := he <;> decide
  · simp [inp7] at hd
  · refine ⟨?_, 2, by simp [inp7], by simp [inp7]⟩
    intro e he
    simp only [inp7, List.mem_cons, List.not_mem_nil, or_false] at he
    simp at he
    subst he
    decide

/-- the hypotheses of the theorems above for this case: the vector is represented exactly on edge 0, where the first basis function has flow 5 -/
example : ∃ buf offs nd, Done inp7 buf offs nd (fun _ => 0) ∧
    (∑ r : Fin (inp7.fDofs 0).length, (inp7.fFlow 0).getD r 0 * readBlock buf offs nd 0 r 0) = 5 ∧
    ∀ r : Fin (inp7.fDofs 0).length, (if (inp7.fDofs 0)[r] = 1 then (0 : ℝ) else 5) =
      ∑ q ∈ Finset.range (nd 0), readBlock buf offs nd 0 r q * inp7.coarseVec buf offs nd 0 (fun _ => 0) (dofOff nd 0 + q) := by
  have hn : inp7.ord.Nodup := by decide
  obtain ⟨buf, nd, _, hD⟩ := fill_total hn inp7_ok (fun _ => 0) (List.replicate (inp7.offsets fun _ => 0).2 0) List.length_replicate
  refine ⟨buf, _, nd, hD, ?_, ?_⟩
  · rw [(flows hn inp7_ok hD (E := 0) (by simp [inp7]) (by simp [inp7])).1]
    simp [inp7]
    norm_num
  · obtain ⟨rest, h1, _, h2⟩ := preserved hn inp7_ok hD (E := 0) (by simp [inp7]) (by simp [inp7]) (j := 0) (by simp [inp7]) (fun _ => 0)
    have hc : Clear (inp7.V 0) 1 2 := by
      refine clear_of_mul (a := 5) ?_
      funext i
      have : ∀ i < 3, (5 : ℝ) * (inp7.special 0).getD i 0 = (fun d => if d = 1 then 0 else 5) ((inp7.fDofs 0).getD i 0) := by
        intro i hi
        obtain rfl | rfl | rfl : i = 0 ∨ i = 1 ∨ i = 2 := by omega
        all_goals simp [Inp.special, Inp.fDofs, Inp.nDof, inp7, List.range_succ]
      exact (this i (lt_of_lt_of_eq i.2 (by decide))).symm
    intro r
    have := h1 r
    rw [h2 hc r, add_zero] at this
    exact this

end NgsAMG.Pres
