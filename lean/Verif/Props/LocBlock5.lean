import Verif.Props.LocBlock3

/-!
# C80: the memory that is reserved for a block of `BSmoother2` is enough
-/

namespace NgsAMG.BlkGS
open Matrix NgsAMG.GS NgsAMG.Spec

variable {k : ℕ}

/-- whatever the order of `b` is, each element of `a` that is not in `b` is visited -/
theorem anotb_le (a b : List ℕ) : (a.filter (· ∉ b)).length ≤ anotb a b := by
  fun_induction anotb a b with
  | case1 => simp
  | case2 x a ih => simpa using ih
  | case3 x a y b h ih =>
    rw [List.filter_cons]
    split
    · simpa using ih
    · exact ih.trans (Nat.le_succ _)
  | case4 a y b h ih =>
    refine le_trans ?_ ih
    rw [List.filter_cons_of_neg (by simp)]
    refine List.Sublist.length_le ?_
    refine List.monotone_filter_right _ fun z hz => ?_
    simp only [List.mem_cons, not_or, decide_eq_true_eq] at hz ⊢
    exact hz.2
  | case5 x a y b h h' ih =>
    refine le_trans ?_ ih
    refine List.Sublist.length_le ?_
    refine List.monotone_filter_right _ fun z hz => ?_
    simp only [List.mem_cons, not_or, decide_eq_true_eq] at hz ⊢
    exact hz.2

/-- for increasing arrays exactly those -/
theorem anotb_eq {a b : List ℕ} (ha : a.Pairwise (· < ·)) (hb : b.Pairwise (· < ·)) : anotb a b = (a.filter (· ∉ b)).length := by
  fun_induction anotb a b with
  | case1 => simp
  | case2 x a ih => simpa using ih ha.of_cons hb
  | case3 x a y b h ih =>
    rw [List.filter_cons_of_pos, List.length_cons, ih ha.of_cons hb]
    have : x ∉ y :: b := by
      intro hm
      rcases List.mem_cons.1 hm with rfl | hm
      · omega
      · have := List.rel_of_pairwise_cons hb hm; omega
    simpa using this
  | case4 a y b h ih =>
    rw [List.filter_cons_of_neg (by simp), ih ha.of_cons hb.of_cons]
    congr 1
    refine List.filter_congr fun z hz => ?_
    have := List.rel_of_pairwise_cons ha hz
    have hne : z ≠ y := by omega
    simp [hne]
  | case5 x a y b h h' ih =>
    rw [ih ha hb.of_cons]
    congr 1
    refine List.filter_congr fun z hz => ?_
    have hxz : x ≤ z := by
      rcases List.mem_cons.1 hz with rfl | hz
      · exact le_rfl
      · exact (List.rel_of_pairwise_cons ha hz).le
    have hne : z ≠ y := by omega
    simp [hne]

theorem LBlock.Repr.stored {A : CSR (Blk k)} {B : LBlock k} (h : B.Repr A) (j : Fin B.dofs.length) :
    (B.low j).length + (B.up j).length = (((A.row B.dofs[j]).map Prod.fst).filter (· ∉ B.dofs)).length := by
  have h1 := (h.rows j).length_eq
  rw [List.length_append, List.length_append] at h1
  have h2 := (List.filter_append_perm (fun e : ℕ × Blk k => decide (e.1 ∈ B.dofs)) (A.row B.dofs[j])).length_eq
  rw [List.length_append] at h2
  have h3 : (((A.row B.dofs[j]).map Prod.fst).filter (· ∉ B.dofs)).length = ((A.row B.dofs[j]).filter fun e => !decide (e.1 ∈ B.dofs)).length := by
    rw [List.filter_map, List.length_map]
    congr 1
    refine List.filter_congr fun e _ => ?_
    simp
  rw [h3]
  omega

/-- **C80 (memory).** The entries that a block stores fit into the memory reserved for it, in whatever order its unknowns are given -/
theorem alloc_enough {A : CSR (Blk k)} {B : LBlock k} (h : B.Repr A) (dofs0 : List ℕ) (hp : B.dofs.Perm dofs0) :
    ((List.finRange B.dofs.length).map fun j => (B.low j).length + (B.up j).length).sum ≤ allocCols A dofs0 := by
  rw [allocCols, ← ((hp.map fun d => anotb ((A.row d).map Prod.fst) dofs0)).sum_eq]
  have h1 : B.dofs.map (fun d => anotb ((A.row d).map Prod.fst) dofs0) = (List.finRange B.dofs.length).map fun j => anotb ((A.row B.dofs[j]).map Prod.fst) dofs0 := by
    conv_lhs => rw [← List.map_get_finRange B.dofs, List.map_map]
    rfl
  rw [h1]
  refine List.sum_le_sum fun j _ => ?_
  rw [h.stored]
  refine le_trans (List.Sublist.length_le ?_) (anotb_le _ _)
  refine List.monotone_filter_right _ fun z hz => ?_
  simpa [hp.mem_iff] using hz

/-- the block `[1,0]` of the tridiagonal matrix: one entry is stored, memory for three is reserved -/
example : allocCols exM [1, 0] = 3 ∧ allocCols exM [0, 1] = 1 := by
  constructor <;> simp [allocCols, exM, anotb]

end NgsAMG.BlkGS
