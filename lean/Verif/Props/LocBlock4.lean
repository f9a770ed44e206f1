import Verif.Props.LocBlock3
import Mathlib.LinearAlgebra.Matrix.NonsingularInverse

/-!
# C80: adjoint, energy; what is wrong in `BSmoother2` for overlapping blocks; example
-/

namespace NgsAMG.BlkGS
open Matrix NgsAMG.GS NgsAMG.Spec

variable {k : ℕ}

/-- unknowns of a block with the matrix that is applied to the residual -/
abbrev SBlock (k : ℕ) := (dofs : List ℕ) × Matrix (Fin dofs.length × Fin k) (Fin dofs.length × Fin k) ℝ

theorem blockSweep_sweep (A : CSR (Blk k)) (hA : A.WF) (L : List (SBlock k)) (x b : BVec k) :
    blockSweep A.width A.entry L x b = Sweep.sweep A.lin corrOf (L.map fun B => (⟨B.1, B.2⟩ : BBlock k)) x b := by
  rw [← foldl_sweep, foldl_spec A hA, List.map_map]
  congr 1
  exact (List.map_id _).symm

/-- block Gauss-Seidel in reversed order is the adjoint -/
theorem blockSweep_adjoint (A : CSR (Blk k)) (hA : A.WF) (hs : Symm A) (L : List (SBlock k)) (hL : ∀ B ∈ L, (∀ d ∈ B.1, d < A.height) ∧ B.2ᵀ = B.2) (b c : BVec k) :
    ip A.width (blockSweep A.width A.entry L 0 b) c = ip A.width b (blockSweep A.width A.entry L.reverse 0 c) := by
  rw [blockSweep_sweep A hA, blockSweep_sweep A hA, List.map_reverse]
  refine sweep_adj A hA hs _ ?_ ?_ b c
  · intro B hB
    obtain ⟨B', hB', rfl⟩ := List.mem_map.1 hB
    exact (hL B' hB').1
  · intro B hB
    obtain ⟨B', hB', rfl⟩ := List.mem_map.1 hB
    exact (hL B' hB').2

/-- block Gauss-Seidel does not increase the energy of the error -/
theorem blockSweep_energy (A : CSR (Blk k)) (hA : A.WF) (hs : Symm A) (L : List (SBlock k)) (hL : ∀ B ∈ L, (∀ d ∈ B.1, d < A.height) ∧ InvOK (diagBlock A.entry B.1) B.2)
    (x xs : BVec k) : energy A.width A.entry (xs - blockSweep A.width A.entry L x (mulBlock A.width A.entry xs)) ≤ energy A.width A.entry (xs - x) := by
  rw [blockSweep_sweep A hA]
  have h := smooth_energy ⟨A, L.map fun B => (⟨B.1, B.2⟩ : BBlock k), none⟩ hA hs false ?_ ?_ 1 x xs
  · rw [smoothImpl, times_fold, foldl_sweep] at h
    simpa [order] using h
  · intro B hB
    obtain ⟨B', hB', rfl⟩ := List.mem_map.1 hB
    exact (hL B' hB').1
  · intro B hB
    obtain ⟨B', hB', rfl⟩ := List.mem_map.1 hB
    exact (hL B' hB').2

/-- the solution is a fixed point -/
theorem blockSweep_fixed (n : ℕ) (A : ℕ → ℕ → Blk k) (L : List (SBlock k)) (x : BVec k) : blockSweep n A L x (mulBlock n A x) = x := by
  induction L with
  | nil => rfl
  | cons B L ih =>
    rw [blockSweep, List.foldl_cons]
    have : blockRow n A B.1 B.2 (mulBlock n A x) x = x := by
      funext j c
      simp [blockRow]
    rw [this]
    exact ih

theorem sweepOrder_reverse {β : Type*} (L : List β) (rev : Bool) (n : ℕ) :
    (List.replicate n (sweepOrder L rev false)).flatten.reverse = (List.replicate n (sweepOrder L (!rev) false)).flatten ∧
    (List.replicate n (sweepOrder L rev true)).flatten.reverse = (List.replicate n (sweepOrder L rev true)).flatten := by
  constructor <;> rw [List.reverse_flatten, List.map_replicate, List.reverse_replicate] <;> cases rev <;> simp [sweepOrder]

theorem mem_sweepOrder {β : Type*} {L : List β} {rev symm : Bool} {n : ℕ} {B : β} (h : B ∈ (List.replicate n (sweepOrder L rev symm)).flatten) : B ∈ L := by
  rw [List.mem_flatten] at h
  obtain ⟨l, hl, hB⟩ := h
  rw [(List.mem_replicate.1 hl).2, sweepOrder] at hB
  cases rev <;> cases symm <;> simpa using hB

/-- **C80 (adjoint).** `SmoothBackK` is the adjoint of `SmoothK`, `SmoothSymmK` is self-adjoint; for symmetric inverses of the blocks -/
theorem smooth2_adjoint (inv : Inverter k) (A : CSR (Blk k)) (hA : A.WF) (hs : Symm A) (groups : List (List (List ℕ))) (md : Option (ℕ → Blk k))
    (hb : ∀ dofs ∈ groups.flatten, dofs.Nodup ∧ ∀ d ∈ dofs, d < A.height) (hi : ∀ dofs ∈ groups.flatten, (specBlock inv A md dofs).2ᵀ = (specBlock inv A md dofs).2)
    (steps : ℕ) (symm : Bool) (b c r u w : BVec k) :
    ∃ S yb yc, mkLSm inv A groups false md = some S ∧ (smooth2 S steps false symm 0 b r u w false false true).map Prod.fst = some yb ∧
      (smooth2 S steps (!symm) symm 0 c r u w false false true).map Prod.fst = some yc ∧ ip A.width yb c = ip A.width b yc := by
  have ht : ∀ v : BVec k, Truthful A.width A.entry 0 v r false true := fun v => ⟨by simp, fun _ => rfl⟩
  obtain ⟨S, hS, rb, h1, -⟩ := smooth2_correct_partial inv A hA hs groups md hb steps false symm 0 b r u w false false true (ht b)
  obtain ⟨S', hS', rc, h2, -⟩ := smooth2_correct_partial inv A hA hs groups md hb steps (!symm) symm 0 c r u w false false true (ht c)
  have : S' = S := by rw [hS] at hS'; exact (Option.some.inj hS').symm
  subst this
  refine ⟨S', _, _, hS, by rw [h1]; rfl, by rw [h2]; rfl, ?_⟩
  rw [blockSweep_adjoint A hA hs]
  · cases symm
    · rw [(sweepOrder_reverse _ false steps).1]
    · rw [(sweepOrder_reverse _ false steps).2]; rfl
  · intro B hB
    obtain ⟨dofs, hd, rfl⟩ := List.mem_map.1 (mem_sweepOrder hB)
    exact ⟨fun d hd' => (hb dofs hd).2 d (List.mem_insertionSort (r := (· ≤ ·)) |>.1 hd'), hi dofs hd⟩

/-- **C80 (energy).** no method increases the energy of the error, if the inverses fit to the blocks -/
theorem smooth2_energy (inv : Inverter k) (A : CSR (Blk k)) (hA : A.WF) (hs : Symm A) (groups : List (List (List ℕ))) (md : Option (ℕ → Blk k))
    (hb : ∀ dofs ∈ groups.flatten, dofs.Nodup ∧ ∀ d ∈ dofs, d < A.height)
    (hi : ∀ dofs ∈ groups.flatten, InvOK (diagBlock A.entry (specBlock inv A md dofs).1) (specBlock inv A md dofs).2)
    (steps : ℕ) (rev symm : Bool) (x xs res u w : BVec k) (ru ur xz : Bool) (ht : Truthful A.width A.entry x (mulBlock A.width A.entry xs) res ru xz) :
    ∃ S out, mkLSm inv A groups false md = some S ∧ smooth2 S steps rev symm x (mulBlock A.width A.entry xs) res u w ru ur xz = some out ∧
      energy A.width A.entry (xs - out.1) ≤ energy A.width A.entry (xs - x) := by
  obtain ⟨S, hS, r, h1, -⟩ := smooth2_correct_partial inv A hA hs groups md hb steps rev symm x _ res u w ru ur xz ht
  refine ⟨S, _, hS, h1, blockSweep_energy A hA hs _ ?_ x xs⟩
  intro B hB
  obtain ⟨dofs, hd, rfl⟩ := List.mem_map.1 (mem_sweepOrder hB)
  exact ⟨fun d hd' => (hb dofs hd).2 d (List.mem_insertionSort (r := (· ≤ ·)) |>.1 hd'), hi dofs hd⟩

/-- **C80 (violation).** Started from the solution, without residual, and asked for one: the residual that is returned is not zero where an unknown is in no block or in
more than one -/
theorem smooth2_res_wrong (inv : Inverter k) (A : CSR (Blk k)) (hA : A.WF) (groups : List (List (List ℕ))) (md : Option (ℕ → Blk k))
    (hb : ∀ dofs ∈ groups.flatten, dofs.Nodup) (steps : ℕ) (rev symm : Bool) (x res upd0 work : BVec k) :
    ∃ S, mkLSm inv A groups false md = some S ∧
      smooth2 S steps rev symm x (mulBlock A.width A.entry x) res upd0 work false true false =
        some (x, fun j => (1 - (groups.flatten.countP (j ∈ ·) : ℝ)) • mulBlock A.width A.entry x j) := by
  obtain ⟨S, hS, hno, hG, hbl⟩ := mkLSm_grouped inv A groups md
  refine ⟨S, hS, ?_⟩
  have hr : ∀ B ∈ S.blocks, B.Repr A := by
    intro B hB
    rw [hbl] at hB
    obtain ⟨dofs, hd, rfl⟩ := List.mem_map.1 hB
    exact setFrom_repr inv A hA md dofs (hb dofs hd)
  obtain ⟨h1, h2⟩ := all_blocks hG
  have h4 := smoothSimple_correct hA hG hr 0 _ (by rw [Nat.zero_add]) steps rev symm x (mulBlock A.width A.entry x)
  rw [blockSweep_fixed] at h4
  rw [smooth2, if_neg (by rw [hno]; simp), smoothWO, h1, if_neg (by simp), h4, Option.map_some, if_pos rfl]
  congr 2
  funext j
  have h7 : S.mult j = groups.flatten.countP (j ∈ ·) := by
    rw [LSm.mult, hbl, List.countP_map]
    refine List.countP_congr fun dofs _ => ?_
    have : j ∈ (setFrom inv A md dofs).dofs ↔ j ∈ dofs := List.mem_insertionSort (r := (· ≤ ·))
    simp [this]
  rw [multAddSys_apply hr, h7, ← multRow_eq A hA, sub_smul, one_smul, neg_smul, one_smul, smul_neg, ← sub_eq_add_neg]
  rfl

/-- in particular: the blocks `[0,1]`, `[1,2]` for the tridiagonal matrix, solution `(0,1,0)` -/
theorem smooth2_res_refuted (res upd0 work : BVec 1) :
    ∃ (S : LSm 1) (x' res' : BVec 1), mkLSm (fun _ M => M⁻¹) exM [[[1, 0], [1, 2]]] false none = some S ∧
      smooth2 S 1 false false (fun i _ => if i = 1 then 1 else 0) (mulBlock 3 exM.entry fun i _ => if i = 1 then 1 else 0) res upd0 work false true false = some (x', res') ∧
      res' 1 0 = -2 ∧ (mulBlock 3 exM.entry (fun i _ => if i = 1 then 1 else 0) - mulBlock 3 exM.entry x') 1 0 = 0 := by
  obtain ⟨S, hS, h⟩ := smooth2_res_wrong (fun _ M => M⁻¹) exM exM_wf [[[1, 0], [1, 2]]] none (by decide) 1 false false (fun i _ => if i = 1 then 1 else 0) res upd0 work
  refine ⟨S, _, _, hS, h, ?_, ?_⟩
  · have : [[[1, 0], [1, 2]]].flatten.countP (1 ∈ ·) = 2 := by decide
    rw [this]
    have hw : exM.width = 3 := rfl
    simp [mulBlock, hw, exM_entry, Finset.sum_range_succ, mulVec, dotProduct, sc]
    try norm_num
  · exact sub_self _

/-- **C80 (violation).** Backward over groups whose numbers are not consecutive: other blocks than those of the groups are visited (group 1 instead of group 0);
for groups in falling order memory before the array is read -/
theorem iterGroups_refuted : iterGroups (fiOf [1, 1, 1]) [0, 2] false = some [0, 2] ∧ iterGroups (fiOf [1, 1, 1]) [0, 2] true = some [2, 1] ∧
    iterGroups (fiOf [1, 1, 1]) [1, 0] true = none := by decide

/-- **C80 (violation).** `SmoothGroups` goes backward, whatever `reverse` is -/
theorem smoothGroups_backward {A : CSR (Blk k)} (hA : A.WF) {S : LSm k} {Gs : List (List (LBlock k))} (hG : S.Grouped Gs) (hr : ∀ B ∈ S.blocks, B.Repr A) (hno : S.no = false)
    (g m : ℕ) (hg : g + m ≤ Gs.length) (steps : ℕ) (rev : Bool) (x b res upd0 work : BVec k) :
    smoothGroups S (List.range' g m) steps rev false x b res upd0 work false false false =
      some (blockSweep A.width A.entry ((List.replicate steps (blocksOf Gs (List.range' g m)).reverse).flatten.map LBlock.toSpec) x b, res) := by
  rw [smoothGroups, if_neg (by rw [hno]; simp), smoothWO, if_neg (by simp), smoothSimple_correct hA hG hr g m hg]
  simp [stepBlocks]

theorem exM_inv (i : ℕ) (hi : i < 3) : specBlock (fun _ M => M⁻¹) exM none [i] = ⟨[i], fun _ _ => 1 / 2⟩ := by
  show (⟨[i], (diagBlock exM.entry [i])⁻¹⟩ : SBlock 1) = _
  have h1 : Subsingleton (Fin [i].length) := inferInstanceAs (Subsingleton (Fin 1))
  have h2 : Subsingleton (Fin [i].length × Fin 1) := inferInstanceAs (Subsingleton (Fin 1 × Fin 1))
  congr 1
  rw [inv_subsingleton]
  funext p q
  have : p = q := Subsingleton.elim _ _
  subst this
  rw [diagonal_apply_eq, Ring.inverse_eq_inv', diagBlock, exM_entry]
  have : [i][p.1] = i := List.mem_singleton.1 (List.getElem_mem _)
  simp [this, hi, sc]

/-- concretely: the blocks `[0]`, `[1]` of the tridiagonal matrix, forward asked for -/
theorem smoothGroups_refuted (res upd0 work : BVec 1) :
    ∃ (S : LSm 1) (x' : BVec 1), mkLSm (fun _ M => M⁻¹) exM [[[0], [1]]] false none = some S ∧
      smoothGroups S [0] 1 false false 0 (fun i _ => if i = 0 then 1 else 0) res upd0 work false false false = some (x', res) ∧ x' 1 0 = 0 ∧
      blockSweep 3 exM.entry [⟨[0], (diagBlock exM.entry [0])⁻¹⟩, ⟨[1], (diagBlock exM.entry [1])⁻¹⟩] 0 (fun i _ => if i = 0 then 1 else 0) 1 0 = 1 / 4 := by
  obtain ⟨S, hS, hno, hG, hbl⟩ := mkLSm_grouped (fun _ M => M⁻¹) exM [[[0], [1]]] none
  have hr : ∀ B ∈ S.blocks, B.Repr exM := by
    intro B hB
    rw [hbl] at hB
    obtain ⟨dofs, hd, rfl⟩ := List.mem_map.1 hB
    refine setFrom_repr _ exM exM_wf none dofs ?_
    have : dofs = [0] ∨ dofs = [1] := by simpa using hd
    rcases this with rfl | rfl <;> decide
  have h := smoothGroups_backward exM_wf hG hr hno 0 1 (by simp) 1 false 0 (fun i _ => if i = 0 then 1 else 0) res upd0 work
  refine ⟨S, _, hS, h, ?_, ?_⟩
  · have e1 : (setFrom (fun _ M => M⁻¹) exM none [0]).toSpec = ⟨[0], fun _ _ => 1 / 2⟩ := by
      rw [setFrom_spec _ exM exM_wf none [0] (by decide), exM_inv 0 (by decide)]
    have e2 : (setFrom (fun _ M => M⁻¹) exM none [1]).toSpec = ⟨[1], fun _ _ => 1 / 2⟩ := by
      rw [setFrom_spec _ exM exM_wf none [1] (by decide), exM_inv 1 (by decide)]
    have hw : exM.width = 3 := rfl
    simp [blocksOf, e1, e2, blockSweep, blockRow, hw, mulBlock, exM_entry, Finset.sum_range_succ, mulVec, dotProduct, sc, List.range'_succ]
  · have e1 := exM_inv 0 (by decide)
    have e2 := exM_inv 1 (by decide)
    have e1' : (⟨[0], (diagBlock exM.entry [0])⁻¹⟩ : SBlock 1) = ⟨[0], fun _ _ => 1 / 2⟩ := e1
    have e2' : (⟨[1], (diagBlock exM.entry [1])⁻¹⟩ : SBlock 1) = ⟨[1], fun _ _ => 1 / 2⟩ := e2
    rw [e1', e2']
    simp [blockSweep, blockRow, mulBlock, exM_entry, Finset.sum_range_succ, mulVec, dotProduct, sc, Fintype.sum_prod_type]
    try norm_num

/-- the hypotheses hold for the overlapping blocks `[0,1]`, `[1,2]` -/
example (steps : ℕ) (rev symm : Bool) (x xs res u w : BVec 1) :
    ∃ S out, mkLSm (fun _ M => M⁻¹) exM [[[1, 0]], [[1, 2]]] false none = some S ∧ smooth2 S steps rev symm x (mulBlock 3 exM.entry xs) res u w false false false = some out ∧
      energy 3 exM.entry (xs - out.1) ≤ energy 3 exM.entry (xs - x) := by
  refine smooth2_energy _ exM exM_wf exM_symm [[[1, 0]], [[1, 2]]] none ?_ ?_ steps rev symm x xs res u w false false false ⟨by simp, by simp⟩
  · show ∀ dofs ∈ [[1, 0], [1, 2]], dofs.Nodup ∧ ∀ d ∈ dofs, d < 3
    decide
  · intro dofs hd
    have hd' : dofs ∈ [[1, 0], [1, 2]] := hd
    have hn : dofs.Nodup ∧ ∀ d ∈ dofs, d < 3 := by
      revert dofs; show ∀ dofs, dofs ∈ _ → dofs ∈ _ → _; intro dofs _; revert dofs; decide
    exact invOK_inv (posDef_block exM exM_wf exM_symm exM_spd ((List.perm_insertionSort _ _).nodup_iff.2 hn.1)
      fun d hd => hn.2 d (List.mem_insertionSort (r := (· ≤ ·)) |>.1 hd))

end NgsAMG.BlkGS
