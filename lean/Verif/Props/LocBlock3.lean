import Verif.Props.LocBlock2

/-!
# C80: `Smooth`, `SmoothK`, `SmoothSymmK`, `SmoothBack`, `SmoothBackK` of `BSmoother2` for blocks that may overlap
-/

namespace NgsAMG.BlkGS
open Matrix NgsAMG.GS NgsAMG.Spec

variable {k : ℕ}

theorem foldAdd_eq (dofs : List ℕ) (rows : Fin dofs.length → List (ℕ × Blk k)) (s : ℝ) (x y : BVec k) :
    (List.finRange dofs.length).foldl (fun y j => Function.update y dofs[j] ((rows j).foldl (fun t e => t + s • (e.2 *ᵥ x e.1)) (y dofs[j]))) y =
      addAt dofs (fun p => (s • ((rows p.1).map fun e => e.2 *ᵥ x e.1).sum) p.2) y := by
  rw [addAt]
  congr 1
  funext y j
  congr 1
  rw [CSR.foldl_add_eq]
  congr 1
  funext c
  show _ = (s • ((rows j).map fun e => e.2 *ᵥ x e.1).sum) c
  rw [List.smul_sum, List.map_map]
  rfl

/-- what a block adds for a product with the matrix: the rows of its unknowns -/
theorem LBlock.Repr.addMat_apply {A : CSR (Blk k)} {B : LBlock k} (h : B.Repr A) (s : ℝ) (x y : BVec k) (j : ℕ) :
    B.addMat s x y j = y j + if j ∈ B.dofs then s • rowTimesVector A j x else 0 := by
  funext c
  rw [LBlock.addMat]
  rw [foldAdd_eq, foldAdd_eq, addAt_apply, addAt_apply, addAt_apply, add_assoc, add_assoc, ← Finset.sum_add_distrib, ← Finset.sum_add_distrib, Pi.add_apply]
  congr 1
  by_cases hj : j ∈ B.dofs
  · obtain ⟨q, hq⟩ := List.get_of_mem hj
    have hq' : B.dofs[q] = j := hq
    rw [if_pos hj, Finset.sum_eq_single q]
    · rw [if_pos hq', if_pos hq', if_pos hq', ← hq']
      have h5 := h.row_sum x q c
      simp only [Pi.smul_apply, Pi.add_apply, smul_eq_mul] at h5 ⊢
      rw [h5]
      ring
    · intro p _ hp
      have : ¬ B.dofs[p] = j := fun he => hp (Fin.ext ((List.Nodup.getElem_inj_iff h.nodup).1 (he.trans hq'.symm)))
      rw [if_neg this, if_neg this, if_neg this]; simp
    · intro hq; exact absurd (Finset.mem_univ _) hq
  · rw [if_neg hj]
    refine Finset.sum_eq_zero fun p _ => ?_
    have : ¬ B.dofs[p] = j := fun he => hj (he ▸ List.getElem_mem _)
    rw [if_neg this, if_neg this, if_neg this]; simp

/-- in how many blocks an unknown is -/
def LSm.mult (S : LSm k) (j : ℕ) : ℕ := S.blocks.countP fun B => j ∈ B.dofs

/-- `MultAdd` of the matrix that the object offers: each row counts as often as there are blocks that contain it -/
theorem multAddSys_apply {A : CSR (Blk k)} {S : LSm k} (hr : ∀ B ∈ S.blocks, B.Repr A) (s : ℝ) (x y : BVec k) (j : ℕ) :
    multAddSys S s x y j = y j + (S.mult j : ℝ) • s • rowTimesVector A j x := by
  rw [multAddSys, LSm.mult]
  generalize S.blocks = L at hr ⊢
  induction L generalizing y with
  | nil => simp
  | cons B L ih =>
    rw [List.foldl_cons, ih _ (fun B h => hr B (List.mem_cons_of_mem _ h)), (hr B List.mem_cons_self).addMat_apply, List.countP_cons]
    by_cases hj : j ∈ B.dofs
    · rw [if_pos hj, if_pos (by simpa using hj), Nat.cast_add, Nat.cast_one, add_smul, one_smul]; abel
    · rw [if_neg hj, if_neg (by simpa using hj)]; simp

theorem all_blocks {S : LSm k} {Gs : List (List (LBlock k))} (hG : S.Grouped Gs) : S.all = List.range' 0 Gs.length ∧ blocksOf Gs (List.range' 0 Gs.length) = S.blocks := by
  constructor
  · rw [LSm.all, hG.fi, fiOf, List.length_scanl, List.length_map, Nat.add_sub_cancel, List.range_eq_range']
  · rw [hG.blocks, blocksOf, ← List.range_eq_range', List.flatMap_def]
    congr 1
    refine List.ext_getElem? fun i => ?_
    rw [List.getElem?_map]
    by_cases hi : i < Gs.length
    · rw [List.getElem?_range hi, Option.map_some, List.getElem?_eq_getElem hi, List.getD_eq_getElem?_getD, List.getElem?_eq_getElem hi]; rfl
    · rw [List.getElem?_eq_none (by simpa using hi), List.getElem?_eq_none (by simpa using hi)]; rfl

theorem mkLSm_grouped (inv : Inverter k) (A : CSR (Blk k)) (groups : List (List (List ℕ))) (md : Option (ℕ → Blk k)) :
    ∃ S, mkLSm inv A groups false md = some S ∧ S.no = false ∧ S.Grouped (groups.map fun G => G.map (setFrom inv A md)) ∧ S.blocks = groups.flatten.map (setFrom inv A md) := by
  refine ⟨_, rfl, rfl, ⟨?_, ?_⟩, rfl⟩
  · exact List.map_flatten
  · show fiOf _ = fiOf _
    rw [List.map_map]
    congr 1
    exact List.map_congr_left fun G _ => (List.length_map _).symm

/-- blocks with their unknowns sorted and the inverse of the diagonal block, as the specification has them -/
def specBlock (inv : Inverter k) (A : CSR (Blk k)) (md : Option (ℕ → Blk k)) (dofs : List ℕ) :
    (dofs : List ℕ) × Matrix (Fin dofs.length × Fin k) (Fin dofs.length × Fin k) ℝ :=
  ⟨dofs.insertionSort (· ≤ ·), inv _ (diagBlock (fun i j => match md with | some d => if i = j then d i else A.entry i j | none => A.entry i j) (dofs.insertionSort (· ≤ ·)))⟩

theorem setFrom_spec (inv : Inverter k) (A : CSR (Blk k)) (hA : A.WF) (md : Option (ℕ → Blk k)) (dofs : List ℕ) (hn : dofs.Nodup) :
    (setFrom inv A md dofs).toSpec = specBlock inv A md dofs := by
  have hn' : (dofs.insertionSort (· ≤ ·)).Nodup := (List.perm_insertionSort _ _).nodup_iff.2 hn
  show (⟨_, inv _ (diagOf A md _)⟩ : (dofs : List ℕ) × Matrix (Fin dofs.length × Fin k) (Fin dofs.length × Fin k) ℝ) = _
  cases md with
  | none => rw [diagOf_none A hA]; rfl
  | some d => rw [diagOf_some A hA d (setFrom inv A (some d) dofs).dofs hn']; rfl

/-- one step over all blocks, in the order of the groups; backward the reversed order; symmetric: afterwards the other direction -/
def sweepOrder {β : Type*} (L : List β) (rev symm : Bool) : List β := (if rev then L.reverse else L) ++ if symm then (if rev then L else L.reverse) else []

theorem stepBlocks_map {β : Type*} (g : LBlock k → β) (L : List (LBlock k)) (rev symm : Bool) : (stepBlocks L rev symm).map g = sweepOrder (L.map g) rev symm := by
  cases rev <;> cases symm <;> simp [stepBlocks, sweepOrder]

/-- **C80** (partial: if a new residual is asked for and there was none before, only for blocks without common unknowns that cover everything, see
`smooth2_res_refuted`): all smoothing methods of the object for blocks that may overlap -/
theorem smooth2_correct_partial (inv : Inverter k) (A : CSR (Blk k)) (hA : A.WF) (hs : Symm A) (groups : List (List (List ℕ))) (md : Option (ℕ → Blk k))
    (hb : ∀ dofs ∈ groups.flatten, dofs.Nodup ∧ ∀ d ∈ dofs, d < A.height) (steps : ℕ) (rev symm : Bool) (x b res upd0 work : BVec k) (ru ur xz : Bool)
    (ht : Truthful A.width A.entry x b res ru xz) :
    ∃ S, mkLSm inv A groups false md = some S ∧
      let x' := blockSweep A.width A.entry (List.replicate steps (sweepOrder (groups.flatten.map (specBlock inv A md)) rev symm)).flatten x b
      ∃ res', smooth2 S steps rev symm x b res upd0 work ru ur xz = some (x', res') ∧
        (ur = true → (ru = true ∨ ∀ j < A.height, groups.flatten.countP (j ∈ ·) = 1) → ∀ j, ru = true ∨ j < A.height → res' j = (b - mulBlock A.width A.entry x') j) ∧
        (ur = false → res' = res) := by
  obtain ⟨S, hS, hno, hG, hbl⟩ := mkLSm_grouped inv A groups md
  refine ⟨S, hS, ?_⟩
  intro x'
  have hr : ∀ B ∈ S.blocks, B.Repr A ∧ ∀ d ∈ B.dofs, d < A.height := by
    intro B hB
    rw [hbl] at hB
    obtain ⟨dofs, hd, rfl⟩ := List.mem_map.1 hB
    exact ⟨setFrom_repr inv A hA md dofs (hb dofs hd).1, fun d hd' => (hb dofs hd).2 d (List.mem_insertionSort (r := (· ≤ ·)) |>.1 hd')⟩
  obtain ⟨h1, h2⟩ := all_blocks hG
  have h3 : ((List.replicate steps (stepBlocks S.blocks rev symm)).flatten.map LBlock.toSpec) =
      (List.replicate steps (sweepOrder (groups.flatten.map (specBlock inv A md)) rev symm)).flatten := by
    rw [List.map_flatten, List.map_replicate, stepBlocks_map, hbl, List.map_map]
    congr 3
    exact List.map_congr_left fun dofs hd => setFrom_spec inv A hA md dofs (hb dofs hd).1
  have h4 := smoothSimple_correct hA hG (fun B hB => (hr B hB).1) 0 _ (by rw [Nat.zero_add]) steps rev symm x b
  rw [h2, h3] at h4
  rw [smooth2, if_neg (by rw [hno]; simp), smoothWO, h1]
  by_cases hc : (ru && ur) = true
  · rw [if_pos hc]
    rw [Bool.and_eq_true] at hc
    have h5 := smoothRESSimple_correct hA hs hG hr 0 _ (by rw [Nat.zero_add]) steps rev symm x b
    dsimp only at h5
    rw [h2, h3, ← ht.1 hc.1] at h5
    exact ⟨_, h5, fun _ _ j _ => rfl, fun hu => by rw [hc.2] at hu; simp at hu⟩
  · rw [if_neg hc, h4]
    refine ⟨_, rfl, ?_, ?_⟩
    · intro hu hcov j hj
      subst hu
      have hru : ru = false := by simpa using hc
      subst hru
      rw [if_pos rfl, multAddSys_apply fun B hB => (hr B hB).1]
      have h6 := (hcov.resolve_left (by simp)) j (hj.resolve_left (by simp))
      have h7 : S.mult j = 1 := by
        rw [LSm.mult, hbl, List.countP_map, ← h6]
        refine List.countP_congr fun dofs _ => ?_
        have : j ∈ (setFrom inv A md dofs).dofs ↔ j ∈ dofs := List.mem_insertionSort (r := (· ≤ ·))
        simp [this]
      rw [h7, Nat.cast_one, one_smul, neg_smul, one_smul, ← sub_eq_add_neg, Pi.sub_apply, ← multRow_eq A hA]
      rfl
    · intro hu
      rw [hu]; rfl

end NgsAMG.BlkGS
