import Verif.Props.LocBlockNO6

/-! C81, what goes wrong, continued: the residual after a backward step, and entries that are not symmetric matrices. -/

namespace NgsAMG.BlkGS
open Matrix NgsAMG.GS NgsAMG.Spec

variable {k : ℕ}

theorem setLU_up (inv : Inverter k) (nr : ℕ) (d2b : ℕ → Option ℕ) (A : CSR (Blk k)) (dofs0 : List ℕ) (j : Fin (setLU inv nr d2b A dofs0).dofs.length) (i : ℕ)
    (hi : (setLU inv nr d2b A dofs0).dofs[j] = i) :
    (setLU inv nr d2b A dofs0).up j = (A.row i).filter fun e => match d2b e.1 with | none => false | some q => nr < q := by
  subst hi; rfl

theorem setLU_low (inv : Inverter k) (nr : ℕ) (d2b : ℕ → Option ℕ) (A : CSR (Blk k)) (dofs0 : List ℕ) (j : Fin (setLU inv nr d2b A dofs0).dofs.length) (i : ℕ)
    (hi : (setLU inv nr d2b A dofs0).dofs[j] = i) :
    (setLU inv nr d2b A dofs0).low j = (A.row i).filter fun e => match d2b e.1 with | none => true | some q => q < nr := by
  subst hi; rfl

/-- block numbers of the unknowns for the blocks `[0,1]`, `[2]` -/
def exD2B : ℕ → Option ℕ := Function.update (Function.update (Function.update (fun _ => none) 0 (some 0)) 1 (some 0)) 2 (some 1)

noncomputable def exB0 : LBlock 1 := setLU (fun _ M => M⁻¹) 0 exD2B exM [0, 1]
noncomputable def exB1 : LBlock 1 := setLU (fun _ M => M⁻¹) 1 exD2B exM [2]

theorem exB_mk : mkLSm (fun _ M => M⁻¹) exM [[[0, 1], [2]]] true none = some ⟨3, [exB0, exB1], [0, 2], true⟩ := rfl

theorem exB0_up0 (h : 0 < exB0.dofs.length) : exB0.up ⟨0, h⟩ = [] := by
  refine (setLU_up _ _ _ _ _ _ 0 rfl).trans ?_
  simp [exM, exD2B, Function.update]

theorem exB0_up1 (h : 1 < exB0.dofs.length) : exB0.up ⟨1, h⟩ = [(2, sc (-1))] := by
  refine (setLU_up _ _ _ _ _ _ 1 rfl).trans ?_
  simp [exM, exD2B, Function.update]

theorem exB1_up (j : Fin exB1.dofs.length) : exB1.up j = [] := by
  have h : Subsingleton (Fin exB1.dofs.length) := inferInstanceAs (Subsingleton (Fin 1))
  rw [Subsingleton.elim j ⟨0, Nat.zero_lt_one⟩]
  refine (setLU_up _ _ _ _ _ _ 2 rfl).trans ?_
  simp [exM, exD2B, Function.update]

theorem exB0_dinv : (exB0.dinv *ᵥ fun _ => 1) = fun _ => 1 := by
  have : exB0.dinv = (diagBlock exM.entry [0, 1])⁻¹ := by
    show (diagOf exM none [0, 1])⁻¹ = _
    rw [diagOf_none exM exM_wf]
  rw [this]
  exact exS_one [0, 1] (Or.inl rfl)

/-- **C81** violated: backward with the residual known and asked for. Blocks `[0,1]`, `[2]`: the residual that is returned is not that of the vector that is returned,
because the row of the first unknown of a block is used for all of them -/
theorem smoothNO_back_refuted (upd0 work : BVec 1) (hu : upd0 = 0) :
    ∃ (S : LSm 1) (x' r' : BVec 1), mkLSm (fun _ M => M⁻¹) exM [[[0, 1], [2]]] true none = some S ∧
      Truthful 3 exM.entry 0 (fun i _ => if i < 2 then 1 else 0) (fun i _ => if i < 2 then 1 else 0) true true ∧
      smooth2 S 1 true false 0 (fun i _ => if i < 2 then 1 else 0) (fun i _ => if i < 2 then 1 else 0) upd0 work true true true = some (x', r') ∧
      r' 2 0 = 0 ∧ ((fun i _ => if i < 2 then 1 else 0 : BVec 1) - mulBlock 3 exM.entry x') 2 0 = 1 := by
  subst hu
  let b : BVec 1 := fun i _ => if i < 2 then 1 else 0
  let s1 := exB1.bwZigSaveL b (0, b)
  let s2 := exB0.bwZigSaveL b s1
  have d1 : exB1.dofs = [2] := rfl
  have d0 : exB0.dofs = [0, 1] := rfl
  have n0 : exB0.dofs.Nodup := by rw [d0]; decide
  have n1 : exB1.dofs.Nodup := by rw [d1]; decide
  have hx1 : s1.1 2 0 = 0 := by
    have := setAt_self n1 (exB1.dinv *ᵥ exB1.rhsU 0 b) 0 ⟨0, Nat.zero_lt_one⟩
    have e : s1.1 2 = _ := this
    rw [e]
    show (exB1.dinv *ᵥ exB1.rhsU 0 b) _ = 0
    have : exB1.rhsU 0 b = 0 := by
      funext p
      show subRow (exB1.up p.1) _ _ _ = _
      rw [exB1_up]
      have : exB1.dofs[p.1] = 2 := List.mem_singleton.1 (List.getElem_mem (l := [2]) _)
      simp [subRow, b, this]
    rw [this, mulVec_zero]; rfl
  have hr1 : s1.2 2 0 = 0 := by
    have e : s1.2 2 = setAt exB1.dofs 0 b 2 := by
      refine foldVals_outside (j := 2) (fun j => exB1.up ⟨0, Nat.lt_of_le_of_lt (Nat.zero_le _) j.2⟩) (exB1.dinv *ᵥ exB1.rhsU 0 b) (setAt exB1.dofs 0 b) ?_
      intro p e he
      rw [exB1_up] at he
      simp at he
    rw [e]
    exact congrFun (setAt_self n1 0 b ⟨0, Nat.zero_lt_one⟩) 0
  have hr2 : s2.2 2 0 = 0 := by
    have e : s2.2 2 = setAt exB0.dofs 0 s1.2 2 := by
      refine foldVals_outside (j := 2) (fun j => exB0.up ⟨0, Nat.lt_of_le_of_lt (Nat.zero_le _) j.2⟩) (exB0.dinv *ᵥ exB0.rhsU s1.1 b) (setAt exB0.dofs 0 s1.2) ?_
      intro p e he
      rw [exB0_up0] at he
      simp at he
    rw [e, setAt_outside n0 _ _ (by rw [d0]; decide)]
    exact hr1
  have hrhs : exB0.rhsU s1.1 b = fun _ => 1 := by
    funext p
    obtain ⟨⟨p, hp⟩, c⟩ := p
    have hp' : p < 2 := hp
    have hc : c = 0 := Subsingleton.elim _ _
    subst hc
    show subRow (exB0.up ⟨p, hp⟩) _ _ _ = _
    have : p = 0 ∨ p = 1 := by omega
    rcases this with rfl | rfl
    · rw [exB0_up0]; simp [subRow, b, d0]
    · rw [exB0_up1]
      have : (sc (-1) *ᵥ s1.1 2) 0 = 0 := by
        rw [mulVec, dotProduct, Fin.sum_univ_one, hx1, mul_zero]
      simp [subRow, b, d0, this]
  have hx : ∀ i, i < 2 → s2.1 i 0 = 1 := by
    intro i hi
    have := setAt_self n0 (exB0.dinv *ᵥ exB0.rhsU s1.1 b) s1.1 ⟨i, hi⟩
    rw [hrhs, exB0_dinv] at this
    have e : exB0.dofs[i]'hi = i := by
      have : i = 0 ∨ i = 1 := by omega
      rcases this with rfl | rfl <;> rfl
    have h2 : s2.1 = setAt exB0.dofs (exB0.dinv *ᵥ exB0.rhsU s1.1 b) s1.1 := rfl
    rw [h2, hrhs, exB0_dinv]
    have h3 : setAt exB0.dofs (fun _ => 1) s1.1 (exB0.dofs[i]'hi) 0 = 1 := congrFun this 0
    exact (congrArg (fun m => setAt exB0.dofs (fun _ => 1) s1.1 m 0) e).symm.trans h3
  have hx2 : s2.1 2 0 = 0 := by
    have h2 : s2.1 = setAt exB0.dofs (exB0.dinv *ᵥ exB0.rhsU s1.1 b) s1.1 := rfl
    rw [h2, setAt_outside n0 _ _ (by rw [d0]; decide)]
    exact hx1
  refine ⟨_, s2.1, s2.2, exB_mk, ⟨fun _ => ?_, fun _ => rfl⟩, ?_, hr2, ?_⟩
  · have : mulBlock 3 exM.entry (0 : BVec 1) = 0 := by funext i c; simp [mulBlock]
    rw [this, sub_zero]
  · have : smooth2 ⟨3, [exB0, exB1], [0, 2], true⟩ 1 true false 0 b b 0 work true true true = some (0 + s2.1, s2.2) := rfl
    rw [zero_add] at this
    exact this
  · simp only [Pi.sub_apply, mulBlock, exM_entry, Finset.sum_range_succ, Finset.sum_range_zero, Finset.sum_apply, Pi.add_apply]
    simp [mulVec, dotProduct, sc, hx 1 (by decide), hx2]

/-- two nodes with two unknowns each; the coupling is not a symmetric matrix, the whole matrix is -/
def exN : CSR (Blk 2) where
  height := 2
  width := 2
  row i := if i = 0 then [(0, !![2, 0; 0, 2]), (1, !![0, 1; 0, 0])] else if i = 1 then [(0, !![0, 0; 1, 0]), (1, !![2, 0; 0, 2])] else []

theorem exN_wf : exN.WF where
  sorted i := by unfold exN; dsimp only; split_ifs <;> simp
  inRange i e h := by unfold exN at h ⊢; dsimp only at h ⊢; split_ifs at h <;> simp at h <;> rcases h with h | h <;> simp_all
  outside i h := by
    have h' : 2 ≤ i := h
    have a : i ≠ 0 := by omega
    have b : i ≠ 1 := by omega
    simp [exN, a, b]

theorem exN_entry (i j : ℕ) : exN.entry i j = if i = 0 ∧ j = 0 ∨ i = 1 ∧ j = 1 then !![2, 0; 0, 2] else if i = 0 ∧ j = 1 then !![0, 1; 0, 0] else
    if i = 1 ∧ j = 0 then !![0, 0; 1, 0] else 0 := by
  unfold CSR.entry exN
  dsimp only
  by_cases h0 : i = 0
  · subst h0
    by_cases j0 : j = 0
    · subst j0; simp
    · by_cases j1 : j = 1
      · subst j1; simp
      · have a : ¬ (0 = j) := fun h => j0 h.symm
        have b : ¬ (1 = j) := fun h => j1 h.symm
        simp [a, b, j0, j1]
  · by_cases h1 : i = 1
    · subst h1
      by_cases j0 : j = 0
      · subst j0; simp
      · by_cases j1 : j = 1
        · subst j1; simp
        · have a : ¬ (0 = j) := fun h => j0 h.symm
          have b : ¬ (1 = j) := fun h => j1 h.symm
          simp [a, b, j0, j1]
    · simp [h0, h1]

theorem exN_symm : Symm exN := by
  refine ⟨rfl, fun i j => ?_⟩
  rw [exN_entry, exN_entry]
  split_ifs <;> first | omega | (ext a c; fin_cases a <;> fin_cases c <;> simp)

def exND2B : ℕ → Option ℕ := Function.update (Function.update (fun _ => none) 0 (some 0)) 1 (some 1)

noncomputable def exN0 : LBlock 2 := setLU (fun _ M => M⁻¹) 0 exND2B exN [0]
noncomputable def exN1 : LBlock 2 := setLU (fun _ M => M⁻¹) 1 exND2B exN [1]

theorem exN_mk : mkLSm (fun _ M => M⁻¹) exN [[[0], [1]]] true none = some ⟨2, [exN0, exN1], [0, 2], true⟩ := rfl

theorem exN0_low (j : Fin exN0.dofs.length) : exN0.low j = [] := by
  have h : Subsingleton (Fin exN0.dofs.length) := inferInstanceAs (Subsingleton (Fin 1))
  rw [Subsingleton.elim j ⟨0, Nat.zero_lt_one⟩]
  refine (setLU_low _ _ _ _ _ _ 0 rfl).trans ?_
  simp [exN, exND2B, Function.update]

theorem exN1_low (j : Fin exN1.dofs.length) : exN1.low j = [(0, !![0, 0; 1, 0])] := by
  have h : Subsingleton (Fin exN1.dofs.length) := inferInstanceAs (Subsingleton (Fin 1))
  rw [Subsingleton.elim j ⟨0, Nat.zero_lt_one⟩]
  refine (setLU_low _ _ _ _ _ _ 1 rfl).trans ?_
  simp [exN, exND2B, Function.update]

theorem exN_dinv (i : ℕ) (hi : i < 2) : (diagBlock exN.entry [i])⁻¹ = (1 / 2 : ℝ) • (1 : Matrix (Fin [i].length × Fin 2) (Fin [i].length × Fin 2) ℝ) := by
  have hs : Subsingleton (Fin [i].length) := inferInstanceAs (Subsingleton (Fin 1))
  have h : diagBlock exN.entry [i] = (2 : ℝ) • 1 := by
    ext ⟨p, a⟩ ⟨q, c⟩
    have hpq : p = q := Subsingleton.elim _ _
    subst hpq
    have hp : [i][p] = i := List.mem_singleton.1 (List.getElem_mem _)
    simp only [diagBlock, hp, exN_entry, Matrix.smul_apply, one_apply, Prod.mk.injEq, true_and]
    rw [if_pos (by omega)]
    fin_cases a <;> fin_cases c <;> simp
  refine inv_eq_left_inv ?_
  rw [h, Matrix.smul_mul, one_mul, smul_smul]
  norm_num

theorem exN1_dinv : exN1.dinv = (1 / 2 : ℝ) • (1 : Matrix (Fin [1].length × Fin 2) (Fin [1].length × Fin 2) ℝ) := by
  show (diagOf exN none [1])⁻¹ = _
  rw [diagOf_none exN exN_wf, exN_dinv 1 (by decide)]

/-- **C81** violated: forward with the residual known and asked for, entries of size two. The matrix is symmetric, but its entries are used without being transposed -/
theorem smoothNO_trans_refuted (work : BVec 2) :
    ∃ (S : LSm 2) (x' r' : BVec 2), mkLSm (fun _ M => M⁻¹) exN [[[0], [1]]] true none = some S ∧
      Truthful 2 exN.entry 0 (fun i c => if i = 1 ∧ c = 1 then 1 else 0) (fun i c => if i = 1 ∧ c = 1 then 1 else 0) true true ∧
      smooth2 S 1 false false 0 (fun i c => if i = 1 ∧ c = 1 then 1 else 0) (fun i c => if i = 1 ∧ c = 1 then 1 else 0) 0 work true true true = some (x', r') ∧
      r' 0 0 = 0 ∧ ((fun i c => if i = 1 ∧ c = 1 then 1 else 0 : BVec 2) - mulBlock 2 exN.entry x') 0 0 = - (1 / 2) := by
  let b : BVec 2 := fun i c => if i = 1 ∧ c = 1 then 1 else 0
  let s1 := exN0.fwZigSaveU b (0, b)
  let s2 := exN1.fwZigSaveU b s1
  have d0 : exN0.dofs = [0] := rfl
  have d1 : exN1.dofs = [1] := rfl
  have n0 : exN0.dofs.Nodup := by rw [d0]; decide
  have n1 : exN1.dofs.Nodup := by rw [d1]; decide
  have hx1 : s1.1 0 = 0 := by
    have e : s1.1 0 = _ := setAt_self n0 (exN0.dinv *ᵥ exN0.rhsL 0 b) 0 ⟨0, Nat.zero_lt_one⟩
    have h0 : exN0.rhsL 0 b = 0 := by
      funext p
      show subRow (exN0.low p.1) _ _ _ = _
      rw [exN0_low]
      have : exN0.dofs[p.1] = 0 := List.mem_singleton.1 (List.getElem_mem (l := [0]) _)
      simp [subRow, b, this]
    rw [e, h0, mulVec_zero]; rfl
  have hu : exN1.dinv *ᵥ exN1.rhsL s1.1 b = fun p => if p.2 = 1 then 1 / 2 else 0 := by
    have : exN1.rhsL s1.1 b = fun p => if p.2 = 1 then 1 else 0 := by
      funext p
      show subRow (exN1.low p.1) _ _ _ = _
      rw [exN1_low]
      have : exN1.dofs[p.1] = 1 := List.mem_singleton.1 (List.getElem_mem (l := [1]) _)
      simp [subRow, b, this, hx1]
    rw [this, exN1_dinv]
    refine (smul_mulVec _ _ _).trans ?_
    refine (congrArg _ (one_mulVec _)).trans ?_
    funext p
    simp
  have hx2 : s2.1 1 = fun c => if c = 1 then 1 / 2 else 0 := by
    have e : s2.1 1 = _ := setAt_self n1 (exN1.dinv *ᵥ exN1.rhsL s1.1 b) s1.1 ⟨0, Nat.zero_lt_one⟩
    rw [e, hu]
  have hx0 : s2.1 0 = 0 := by
    have e : s2.1 = setAt exN1.dofs (exN1.dinv *ᵥ exN1.rhsL s1.1 b) s1.1 := rfl
    rw [e, setAt_outside n1 _ _ (by rw [d1]; decide), hx1]
  have hr1 : s1.2 0 = 0 := by
    have e : s1.2 0 = setAt exN0.dofs 0 b 0 := by
      refine foldVals_outside (j := 0) exN0.low (exN0.dinv *ᵥ exN0.rhsL 0 b) (setAt exN0.dofs 0 b) ?_
      intro p e he
      rw [exN0_low] at he
      simp at he
    rw [e]
    exact setAt_self n0 0 b ⟨0, Nat.zero_lt_one⟩
  have hr2 : s2.2 0 0 = 0 := by
    have e := foldVals_apply exN1.low (exN1.dinv *ᵥ exN1.rhsL s1.1 b) (List.finRange exN1.dofs.length) (setAt exN1.dofs 0 s1.2) 0
    have e' : s2.2 0 = _ := e
    have hl : List.finRange exN1.dofs.length = [⟨0, Nat.zero_lt_one⟩] := rfl
    rw [e', setAt_outside n1 _ _ (by rw [d1]; decide), hr1, hl, hu]
    simp [exN1_low, mulVec, dotProduct]
  refine ⟨_, s2.1, s2.2, exN_mk, ⟨fun _ => ?_, fun _ => rfl⟩, ?_, hr2, ?_⟩
  · have : mulBlock 2 exN.entry (0 : BVec 2) = 0 := by funext i c; simp [mulBlock]
    rw [this, sub_zero]
  · have : smooth2 ⟨2, [exN0, exN1], [0, 2], true⟩ 1 false false 0 b b 0 work true true true = some (0 + s2.1, s2.2) := rfl
    rw [zero_add] at this
    exact this
  · simp only [Pi.sub_apply, mulBlock, exN_entry, Finset.sum_range_succ, Finset.sum_range_zero, Finset.sum_apply, Pi.add_apply]
    simp [mulVec, dotProduct, hx0, hx2]

end NgsAMG.BlkGS
