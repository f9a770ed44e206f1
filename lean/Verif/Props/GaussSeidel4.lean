import Verif.Props.GaussSeidel
import Mathlib.Tactic.FinCases
import Mathlib.Tactic.NormNum

/-! C35: the compressed Gauss-Seidel smoother, and concrete instances for C31-C34. -/

namespace NgsAMG.GS
open Matrix Spec
variable {k : ℕ}

/-- a step at position `q` of `GSS4` is a step at row `xdofs[q]` of the full smoother -/
structure Agrees (g : GSS4 k) (A : CSR (Blk k)) (d : ℕ → Blk k) : Prop where
  height : g.cA.height = g.xdofs.length
  row : ∀ q (h : q < g.xdofs.length), g.cA.row q = A.row g.xdofs[q]
  dinv : ∀ q (h : q < g.xdofs.length), g.dinv q = d g.xdofs[q]

theorem updateRow4_eq {g : GSS4 k} {A : CSR (Blk k)} {d : ℕ → Blk k} (h : Agrees g A d) (b x : BVec k) (q : ℕ)
    (hq : q < g.xdofs.length) : updateRow4 g b x q = updateRow A d b x g.xdofs[q] := by
  have hg : g.xdofs.getD q 0 = g.xdofs[q] := by simp [hq]
  have hr : rowTimesVector g.cA q x = rowTimesVector A g.xdofs[q] x := by
    unfold rowTimesVector; rw [h.row q hq]
  simp only [updateRow4, updateRow, hg, hr, h.dinv q hq]

theorem upRow4_eq {g : GSS4 k} {A : CSR (Blk k)} {d : ℕ → Blk k} (h : Agrees g A d) (s : BVec k × BVec k) (q : ℕ)
    (hq : q < g.xdofs.length) : upRow4 g s q = upRow A d s g.xdofs[q] := by
  have hg : g.xdofs.getD q 0 = g.xdofs[q] := by simp [hq]
  have hr : ∀ w r, addRowTransToVector g.cA q w r = addRowTransToVector A g.xdofs[q] w r := by
    intro w r; unfold addRowTransToVector; rw [h.row q hq]
  simp only [upRow4, upRow, hg, hr, h.dinv q hq]

theorem foldl_positions {S : Type*} (l : List ℕ) (f4 : S → ℕ → S) (f : S → ℕ → S)
    (h : ∀ s q (hq : q < l.length), f4 s q = f s l[q]) (P : List ℕ) (hP : ∀ q ∈ P, q < l.length) (s : S) :
    P.foldl f4 s = (P.map (fun q => l.getD q 0)).foldl f s := by
  induction P generalizing s with
  | nil => rfl
  | cons q P ih =>
    have hq := hP q List.mem_cons_self
    rw [List.foldl_cons, List.map_cons, List.foldl_cons, ih (fun p hp => hP p (List.mem_cons_of_mem _ hp)), h s q hq]
    congr 2
    simp [hq]

theorem map_range_getD (l : List ℕ) : (List.range l.length).map (fun q => l.getD q 0) = l := by
  apply List.ext_getElem
  · simp
  · intro i h1 h2; simp [h2]

theorem rows4_map (l : List ℕ) (bw : Bool) :
    (rows4 l.length bw).map (fun q => l.getD q 0) = if bw then l.reverse else l := by
  rcases bw with _ | _
  · simp only [rows4, Bool.false_eq_true, if_false, map_range_getD]
  · simp only [rows4, if_true]
    rw [List.map_reverse, map_range_getD]

theorem smooth4_of_agrees {g : GSS4 k} {A : CSR (Blk k)} {d : ℕ → Blk k} (h : Agrees g A d) (bw : Bool)
    (x v : BVec k) :
    g.smoothRHS x v bw = (if bw then g.xdofs.reverse else g.xdofs).foldl (updateRow A d v) x ∧
    g.smoothRES x v bw = (if bw then g.xdofs.reverse else g.xdofs).foldl (upRow A d) (x, v) := by
  have hP : ∀ q ∈ rows4 g.xdofs.length bw, q < g.xdofs.length := by
    intro q hq; rcases bw with _ | _ <;> simpa [rows4] using hq
  constructor
  · rw [GSS4.smoothRHS, h.height, foldl_positions g.xdofs _ _ (fun s q hq => updateRow4_eq h v s q hq) _ hP, rows4_map]
  · rw [GSS4.smoothRES, h.height, foldl_positions g.xdofs _ _ (fun s q hq => upRow4_eq h s q hq) _ hP, rows4_map]

theorem setUp4_xdofs (A : CSR (Blk k)) (sub : Option (ℕ → Bool)) :
    (setUp4 A sub).2 = freeRows A.height 0 A.height (fun i => isFree sub i = true) := by
  have hall : ∀ P : ℕ → Prop, ∀ [DecidablePred P], (∀ i < A.height, P i) →
      List.range A.height = (List.range A.height).filter (fun i => P i) := by
    intro P _ h
    symm; rw [List.filter_eq_self]; intro a ha; simpa using h a (List.mem_range.1 ha)
  rcases sub with _ | f
  · simp only [setUp4, freeRows]
    exact hall _ (fun i hi => ⟨Nat.zero_le _, hi, rfl⟩)
  · simp only [setUp4, freeRows, isFree]
    split_ifs with h
    · apply List.filter_congr
      intro i hi
      have := List.mem_range.1 hi
      simp [this]
    · have := numSet_full (not_not.1 h)
      exact hall _ (fun i hi => ⟨Nat.zero_le _, hi, this i hi⟩)

theorem setUp4_rows (A : CSR (Blk k)) (sub : Option (ℕ → Bool)) :
    (setUp4 A sub).1.height = (setUp4 A sub).2.length ∧
    ∀ q (h : q < (setUp4 A sub).2.length), (setUp4 A sub).1.row q = A.row ((setUp4 A sub).2)[q] := by
  rcases sub with _ | f
  · simp [setUp4]
  · by_cases h : numSet A.height f ≠ A.height
    · simp only [setUp4, h, ne_eq, not_false_eq_true, if_true]
      refine ⟨trivial, fun q hq => ?_⟩
      simp only [List.getElem?_eq_getElem hq]
      rw [List.filter_eq_self]
      intro e he
      have hmem := List.getElem_mem hq
      rw [List.mem_filter] at hmem
      simp only [resSubset, List.any_eq_true, Bool.and_eq_true, Bool.or_eq_true, beq_iff_eq]
      exact ⟨_, hmem.1, hmem.2, Or.inr ⟨e, he, rfl⟩⟩
    · simp [setUp4, h]

/-- **C35 (given diagonals).** With replaced diagonals (the way the code uses it), the compressed smoother on a subset
computes the same iterate and residual as the full smoother restricted to the subset, in both directions. -/
theorem gss4_eq_gss3_repl (inv : Blk k → Blk k) (A : CSR (Blk k)) (rd : ℕ → Blk k)
    (sub : Option (ℕ → Bool)) (x v : BVec k) (bw : Bool) :
    (GSS4.mk' inv A (some rd) sub).smoothRHS x v bw =
      (GSS3.mk' inv A (some rd) sub).smoothRHS 0 A.height x v bw ∧
    (GSS4.mk' inv A (some rd) sub).smoothRES x v bw =
      (GSS3.mk' inv A (some rd) sub).smoothRES 0 A.height x v bw := by
  have hx : (GSS4.mk' inv A (some rd) sub).xdofs = freeRows A.height 0 A.height (fun i => isFree sub i = true) :=
    setUp4_xdofs A sub
  have hag : Agrees (GSS4.mk' inv A (some rd) sub) A (GSS3.mk' inv A (some rd) sub).dinv := by
    refine ⟨(setUp4_rows A sub).1, (setUp4_rows A sub).2, fun q hq => ?_⟩
    have hmem : (GSS4.mk' inv A (some rd) sub).xdofs[q] ∈ freeRows A.height 0 A.height (fun i => isFree sub i = true) :=
      hx ▸ List.getElem_mem hq
    simp only [freeRows, List.mem_filter, decide_eq_true_eq] at hmem
    have hfree : isFree sub (GSS4.mk' inv A (some rd) sub).xdofs[q] = true := hmem.2.2.2
    have h1 : (GSS3.mk' inv A (some rd) sub).dinv (GSS4.mk' inv A (some rd) sub).xdofs[q] =
        inv (rd (GSS4.mk' inv A (some rd) sub).xdofs[q]) := by
      simp only [GSS3.mk']; rw [if_pos hfree]
    rw [h1]
    change inv (((GSS4.mk' inv A (some rd) sub).xdofs[q]?.map rd).getD 0) = _
    rw [List.getElem?_eq_getElem hq]; rfl
  have h := smooth4_of_agrees hag bw x v
  rw [h.1, h.2, hx]
  unfold GSS3.smoothRHS GSS3.smoothRES
  rw [visited_mk']
  exact ⟨rfl, rfl⟩

/-- **C35 (own diagonals), partial.** Without given diagonals the two agree if the subset is everything. For strict
subsets this is false: see `gss4_own_diag_wrong`. -/
theorem gss4_eq_gss3_own_partial (inv : Blk k → Blk k) (A : CSR (Blk k)) (x v : BVec k) (bw : Bool)
    (sub : Option (ℕ → Bool)) (hsub : ∀ i < A.height, isFree sub i = true) :
    (GSS4.mk' inv A none sub).smoothRHS x v bw = (GSS3.mk' inv A none sub).smoothRHS 0 A.height x v bw ∧
    (GSS4.mk' inv A none sub).smoothRES x v bw = (GSS3.mk' inv A none sub).smoothRES 0 A.height x v bw := by
  have hfull : setUp4 A sub = (A, List.range A.height) := by
    rcases sub with _ | f
    · rfl
    · have : numSet A.height f = A.height := by
        unfold numSet
        rw [(List.filter_eq_self (p := f)).2 (fun a ha => hsub a (List.mem_range.1 ha)), List.length_range]
      simp [setUp4, this]
  have hx := setUp4_xdofs A sub
  have hag : Agrees (GSS4.mk' inv A none sub) A (GSS3.mk' inv A none sub).dinv := by
    refine ⟨(setUp4_rows A sub).1, (setUp4_rows A sub).2, fun q hq => ?_⟩
    have e1 : (GSS4.mk' inv A none sub).xdofs = List.range A.height := congrArg Prod.snd hfull
    have e2 : (GSS4.mk' inv A none sub).cA = A := congrArg Prod.fst hfull
    have hq' : q < A.height := by simpa [e1] using hq
    have e3 : (GSS4.mk' inv A none sub).xdofs[q] = q := by simp [e1]
    rw [e3]
    change inv ((GSS4.mk' inv A none sub).cA.lookup q q) = _
    simp only [GSS3.mk', e2]
    rw [if_pos (hsub q hq')]
  have h := smooth4_of_agrees hag bw x v
  rw [h.1, h.2]
  change ((if bw then (setUp4 A sub).2.reverse else (setUp4 A sub).2).foldl _ _ = _) ∧
    ((if bw then (setUp4 A sub).2.reverse else (setUp4 A sub).2).foldl _ _ = _)
  rw [hx]
  unfold GSS3.smoothRHS GSS3.smoothRES
  rw [visited_mk']
  exact ⟨rfl, rfl⟩

/-! ### a concrete system: `[[2,-1],[-1,2]]`, scalar entries -/

/-- scalar block -/
def sc (a : ℝ) : Blk 1 := fun _ _ => a

/-- the 2x2 sparse matrix of the examples -/
def exA : CSR (Blk 1) where
  height := 2
  width := 2
  row i := if i = 0 then [(0, sc 2), (1, sc (-1))] else if i = 1 then [(0, sc (-1)), (1, sc 2)] else []

theorem exA_wf : exA.WF := by
  refine ⟨fun i => ?_, fun i e he => ?_, fun i hi => ?_⟩
  · simp only [exA]; split_ifs <;> simp
  · simp only [exA] at he ⊢
    split_ifs at he <;> simp at he <;> rcases he with rfl | rfl <;> simp
  · have h0 : i ≠ 0 := by simp [exA] at hi; omega
    have h1 : i ≠ 1 := by simp [exA] at hi; omega
    simp [exA, h0, h1]

theorem exA_entry (i j : ℕ) : exA.entry i j =
    if i = 0 then (if j = 0 then sc 2 else if j = 1 then sc (-1) else 0)
    else if i = 1 then (if j = 0 then sc (-1) else if j = 1 then sc 2 else 0) else 0 := by
  simp only [CSR.entry, exA]
  by_cases h0 : i = 0
  · simp only [h0, if_true]
    by_cases j0 : j = 0
    · subst j0; simp
    · by_cases j1 : j = 1
      · subst j1; simp
      · simp [j0, j1, Ne.symm j0, Ne.symm j1]
  · by_cases h1 : i = 1
    · simp only [h1, if_true, if_false, one_ne_zero]
      by_cases j0 : j = 0
      · subst j0; simp
      · by_cases j1 : j = 1
        · subst j1; simp
        · simp [j0, j1, Ne.symm j0, Ne.symm j1]
    · simp [h0, h1]

theorem sc_transpose (a : ℝ) : (sc a)ᵀ = sc a := rfl

theorem exA_symm : Symm exA := by
  refine ⟨rfl, fun i j => ?_⟩
  rw [exA_entry, exA_entry]
  split_ifs <;> simp_all [sc_transpose]

/-- inverse of a scalar block -/
noncomputable def scInv (m : Blk 1) : Blk 1 := sc (m 0 0)⁻¹

theorem exA_diags (free : Option (ℕ → Bool)) : DiagsOK scInv exA none free := by
  intro i hi _
  have : exA.entry i i = sc 2 := by
    rw [exA_entry]; have : i = 0 ∨ i = 1 := by simp [exA] at hi; omega
    rcases this with rfl | rfl <;> simp
  simp only [Option.map_none, Option.getD_none, this]
  refine ⟨rfl, fun v => ?_⟩
  simp [scInv, sc, Matrix.mulVec, dotProduct]
  nlinarith [mul_self_nonneg (v 0)]

/-- hypotheses of C31-C34 hold for this matrix, with one fixed and one free row -/
example (x b : BVec 1) : (GSS3.mk' scInv exA none (some (· == 1))).smoothRES 0 2 x (b - mulBlock 2 exA.entry x) false =
    ((GSS3.mk' scInv exA none (some (· == 1))).smoothRHS 0 2 x b false,
      b - mulBlock 2 exA.entry ((GSS3.mk' scInv exA none (some (· == 1))).smoothRHS 0 2 x b false)) :=
  smoothRES_eq_smoothRHS scInv exA exA_wf exA_symm none (some (· == 1)) 0 2 x b false

example (x xs : BVec 1) := smooth_energy scInv exA exA_wf exA_symm none none (exA_diags none) 0 2 x xs true

example (b c : BVec 1) := smoothBack_adjoint scInv exA exA_wf exA_symm none none
  (fun i hi hf => (exA_diags none i hi hf).1) 0 2 b c

/-- **C35 (own diagonals) fails for strict subsets.** For the matrix `[[2,-1],[-1,2]]` and the subset `{1}` the
compressed smoother inverts `A(1,0) = -1` instead of `A(1,1) = 2`: for `b = (0,1)` and `x = 0` it computes `x₁ = -1`
instead of `1/2`. -/
theorem gss4_own_diag_wrong :
    let b : BVec 1 := fun i _ => if i = 1 then 1 else 0
    let sub : Option (ℕ → Bool) := some (· == 1)
    (GSS4.mk' scInv exA none sub).smoothRHS 0 b false 1 0 = -1 ∧
    (GSS3.mk' scInv exA none sub).smoothRHS 0 exA.height 0 b false 1 0 = 1 / 2 := by
  intro b sub
  constructor
  · simp [GSS4.smoothRHS, GSS4.mk', setUp4, sub, numSet, exA, rows4, updateRow4, List.range_succ, CSR.lookup,
      rowTimesVector, Matrix.mulVec, dotProduct, scInv, sc, b, resSubset]
  · have h := (smoothRHS_correct scInv exA exA_wf none sub 0 exA.height 0 b).1
    rw [h]
    have hh : exA.height = 2 := rfl
    have h11 : exA.entry 1 1 = sc 2 := by simp [exA_entry]
    simp [gsSweep, freeRows, hh, h11, sub, isFree, List.range_succ, gsRow, mulBlock, Matrix.mulVec, dotProduct, scInv,
      sc, b]

end NgsAMG.GS
