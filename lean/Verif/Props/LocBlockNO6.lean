import Verif.Props.LocBlockNO5
import Verif.Props.BlockGS5

/-! C81, what goes wrong: the cases that `smoothNO_correct_partial` leaves out. -/

namespace NgsAMG.BlkGS
open Matrix NgsAMG.GS NgsAMG.Spec

variable {k : ℕ}

/-- forward with `bwZig`: every block sees zeros outside, so that this is block Jacobi -/
theorem bwZig_jacobi {A : CSR (Blk k)} {L : List (LBlock k)} (h : NOBlocks A L) (b x : BVec k) (hz : ∀ B ∈ L, ∀ j, ∀ e ∈ B.up j, x e.1 = 0) :
    (∀ B ∈ L, ∀ p : Fin B.dofs.length, (L.foldl (fun x B => B.bwZig b x) x) B.dofs[p] = fun c => (B.dinv *ᵥ gather B.dofs b) (p, c)) ∧
    ∀ j, (∀ B ∈ L, j ∉ B.dofs) → (L.foldl (fun x B => B.bwZig b x) x) j = x j := by
  induction L generalizing x with
  | nil => simp
  | cons B L ih =>
    have hn := (h.repr B List.mem_cons_self).nodup
    have hpw := h.pw
    rw [List.pairwise_cons] at hpw
    have hr : B.rhsU x b = gather B.dofs b := by
      funext p
      show subRow (B.up p.1) x _ p.2 = _
      rw [subRow_zero _ (hz B List.mem_cons_self p.1)]
      rfl
    have hz' : ∀ C ∈ L, ∀ j, ∀ e ∈ C.up j, (B.bwZig b x) e.1 = 0 := by
      intro C hC j e he
      rw [LBlock.bwZig, setAt_outside hn _ _ ((hpw.1 C hC).2.2 j e he)]
      exact hz C (List.mem_cons_of_mem _ hC) j e he
    obtain ⟨i1, i2⟩ := ih h.tail (B.bwZig b x) hz'
    refine ⟨?_, ?_⟩
    · intro C hC p
      rcases List.mem_cons.1 hC with rfl | hC
      · rw [List.foldl_cons, i2 C.dofs[p] fun D hD => (hpw.1 D hD).1 _ (List.getElem_mem _), LBlock.bwZig, setAt_self hn, hr]
      · exact i1 C hC p
    · intro j hj
      rw [List.foldl_cons, i2 j fun D hD => hj D (List.mem_cons_of_mem _ hD), LBlock.bwZig, setAt_outside hn _ _ (hj B List.mem_cons_self)]

/-- **C81** violated: one forward step, the vector is said to be zero (and is): the blocks do not see each other, this is block Jacobi and not block Gauss-Seidel -/
theorem smoothNO_zero_jacobi (inv : Inverter k) (A : CSR (Blk k)) (hA : A.WF) (groups : List (List (List ℕ))) (hn : groups.flatten.flatten.Nodup)
    (hinv : ∀ dofs ∈ groups.flatten, (specBlock inv A none dofs).2 * diagBlock A.entry (specBlock inv A none dofs).1 = 1) (b res upd0 work : BVec k) :
    ∃ S x', mkLSm inv A groups true none = some S ∧ smooth2 S 1 false false 0 b res upd0 work false false true = some (x', res) ∧
      ∀ dofs ∈ groups.flatten, ∀ p : Fin (dofs.insertionSort (· ≤ ·)).length, x' (dofs.insertionSort (· ≤ ·))[p] = fun c => ∑ q, (specBlock inv A none dofs).2 (p, c) q * b (dofs.insertionSort (· ≤ ·))[q.1] q.2 := by
  obtain ⟨S, Gs, hS, hno, hG, hNO, hsp⟩ := (mkLSm_no inv A hA groups).2 hn hinv
  refine ⟨S, S.blocks.foldl (fun x (B : LBlock k) => B.bwZig b x) 0, hS, ?_, ?_⟩
  · rw [smooth2, if_pos hno, smoothNO, if_neg (by simp), if_neg (by simp), smoothFB,
      stepsZig_some _ (fun z x => S.blocks.foldl (fun x B => if z then B.bwZig b x else B.upd b x) x)]
    · rfl
    · intro z s
      rw [pass_all hG]
      cases z <;> rfl
  · intro dofs hd
    have : specBlock inv A none dofs ∈ groups.flatten.map (specBlock inv A none) := List.mem_map_of_mem hd
    rw [← hsp] at this
    obtain ⟨B, hB, he⟩ := List.mem_map.1 this
    have hj := (bwZig_jacobi hNO b 0 fun _ _ _ _ _ => rfl).1 B hB
    have key : ∀ D : SBlock k, B.toSpec = D → ∀ p : Fin D.1.length, (S.blocks.foldl (fun x (B : LBlock k) => B.bwZig b x) 0) D.1[p] = fun c => ∑ q, D.2 (p, c) q * b D.1[q.1] q.2 := by
      rintro D rfl p
      exact hj p
    exact key _ he

theorem exM_unit (d : List ℕ) (hn : d.Nodup) (hd : ∀ i ∈ d, i < 3) :
    (specBlock (fun _ M => M⁻¹) exM none d).2 * diagBlock exM.entry (specBlock (fun _ M => M⁻¹) exM none d).1 = 1 := by
  have hM := posDef_block exM exM_wf exM_symm exM_spd ((List.perm_insertionSort (· ≤ ·) d).nodup_iff.2 hn) fun i hi => hd i (List.mem_insertionSort (r := (· ≤ ·)) |>.1 hi)
  exact Matrix.nonsing_inv_mul _ ((Matrix.isUnit_iff_isUnit_det _).1 hM.isUnit)

/-- concretely: three unknowns on a line, every unknown a block -/
theorem smoothNO_zero_refuted (res upd0 work : BVec 1) :
    ∃ (S : LSm 1) (x' : BVec 1), mkLSm (fun _ M => M⁻¹) exM [[[0], [1], [2]]] true none = some S ∧
      smooth2 S 1 false false 0 (fun i _ => if i = 0 then 1 else 0) res upd0 work false false true = some (x', res) ∧ x' 1 0 = 0 ∧
      blockSweep 3 exM.entry [⟨[0], (diagBlock exM.entry [0])⁻¹⟩, ⟨[1], (diagBlock exM.entry [1])⁻¹⟩, ⟨[2], (diagBlock exM.entry [2])⁻¹⟩] 0 (fun i _ => if i = 0 then 1 else 0) 1 0 = 1 / 4 := by
  obtain ⟨S, x', hS, hx, h⟩ := smoothNO_zero_jacobi (fun _ M => M⁻¹) exM exM_wf [[[0], [1], [2]]] (by decide)
    (fun dofs hd => by
      have : dofs = [0] ∨ dofs = [1] ∨ dofs = [2] := by simpa using hd
      exact exM_unit dofs (by rcases this with rfl | rfl | rfl <;> simp) (by rcases this with rfl | rfl | rfl <;> simp)) (fun i _ => if i = 0 then 1 else 0) res upd0 work
  refine ⟨S, x', hS, hx, ?_, ?_⟩
  · have h1 := congrFun (h [1] (by simp) ⟨0, by simp⟩) 0
    have e : (x' 1 0 : ℝ) = _ := h1
    rw [e]
    refine Finset.sum_eq_zero fun q _ => ?_
    have : ([1].insertionSort (· ≤ ·))[q.1] = 1 := List.mem_singleton.1 (List.getElem_mem (l := [1]) _)
    simp [this]
  · have e1 : (⟨[0], (diagBlock exM.entry [0])⁻¹⟩ : SBlock 1) = ⟨[0], fun _ _ => 1 / 2⟩ := exM_inv 0 (by decide)
    have e2 : (⟨[1], (diagBlock exM.entry [1])⁻¹⟩ : SBlock 1) = ⟨[1], fun _ _ => 1 / 2⟩ := exM_inv 1 (by decide)
    have e3 : (⟨[2], (diagBlock exM.entry [2])⁻¹⟩ : SBlock 1) = ⟨[2], fun _ _ => 1 / 2⟩ := exM_inv 2 (by decide)
    rw [e1, e2, e3]
    simp [blockSweep, blockRow, mulBlock, exM_entry, Finset.sum_range_succ, mulVec, dotProduct, sc, Fintype.sum_prod_type]
    try norm_num

/-- **C81** violated: an unknown that is in no block is changed by what the working vector held before, if the residual is known and asked for -/
theorem smoothNO_stale (S : LSm k) (A : CSR (Blk k)) (hr : ∀ B ∈ S.blocks, B.Repr A) {Gs : List (List (LBlock k))} (hG : S.Grouped Gs) (hno : S.no = true)
    (steps : ℕ) (rev symm : Bool) (x b res upd0 work : BVec k) (xz : Bool) (j : ℕ) (hj : ∀ B ∈ S.blocks, j ∉ B.dofs) :
    ∃ x' res', smooth2 S steps rev symm x b res upd0 work true true xz = some (x', res') ∧ x' j = x j + upd0 j := by
  have fold : ∀ (L : List (LBlock k)) (f : LBlock k → BVec k × BVec k → BVec k × BVec k), (∀ B ∈ L, B ∈ S.blocks) → (∀ B ∈ S.blocks, ∀ s, (f B s).1 j = s.1 j) →
      ∀ s, (L.foldl (fun s B => f B s) s).1 j = s.1 j := by
    intro L f hL hf
    induction L with
    | nil => simp
    | cons B L ih =>
      intro s
      rw [List.foldl_cons, ih (fun C hC => hL C (List.mem_cons_of_mem _ hC)), hf B (hL B List.mem_cons_self)]
  have zig : ∀ (f : Bool → BVec k × BVec k → Option (BVec k × BVec k)), (∀ z s, ∃ s', f z s = some s' ∧ s'.1 j = s.1 j) →
      ∀ n z s, ∃ s', stepsZig f n z s = some s' ∧ s'.1 j = s.1 j := by
    intro f hf n
    induction n with
    | zero => exact fun z s => ⟨s, rfl, rfl⟩
    | succ n ih =>
      intro z s
      obtain ⟨s1, h1, h1'⟩ := hf z s
      obtain ⟨s2, h2, h2'⟩ := ih false s1
      exact ⟨s2, by rw [stepsZig, h1, Option.bind_some, h2], h2'.trans h1'⟩
  have hset : ∀ B ∈ S.blocks, ∀ u (y : BVec k), setAt B.dofs u y j = y j := fun B hB u y => setAt_outside (hr B hB).nodup u y (hj B hB)
  have hsub : ∀ r : Bool, ∀ B ∈ (if r then S.blocks.reverse else S.blocks), B ∈ S.blocks := by intro r B; cases r <;> simp
  rw [smooth2, if_pos hno, smoothNO, if_pos rfl, if_pos rfl]
  cases symm with
  | true =>
    rw [if_pos rfl, smoothSYMMCR]
    have := zig (fun zig s => (pass S S.all false (fun s B => if zig then B.fwZigSavebL res s else B.savebL res s) s).bind fun s => pass S S.all true (fun s B => B.subUSaveL s) s) ?_ steps true (upd0, res)
    · obtain ⟨s', h1, h2⟩ := this
      exact ⟨x + s'.1, s'.2, by rw [h1, Option.map_some], by rw [Pi.add_apply, h2]⟩
    · intro z s
      rw [pass_all hG, Option.bind_some, pass_all hG]
      refine ⟨_, rfl, ?_⟩
      rw [fold _ (fun B s => B.subUSaveL s) (hsub true) fun B hB s => hset B hB _ _,
        fold _ (fun B s => if z then B.fwZigSavebL res s else B.savebL res s) (hsub false) fun B hB s => by cases z <;> exact hset B hB _ _]
  | false =>
    rw [if_neg (by simp), smoothCR]
    have := zig (fun zig s => pass S S.all rev (fun s B =>
      if zig then (if rev then B.bwZigSaveL res s else B.fwZigSaveU res s) else (if rev then B.saveRows B.up res s else B.saveRows B.low res s)) s) ?_ steps true (upd0, res)
    · obtain ⟨s', h1, h2⟩ := this
      exact ⟨x + s'.1, s'.2, by rw [h1, Option.map_some], by rw [Pi.add_apply, h2]⟩
    · intro z s
      rw [pass_all hG]
      refine ⟨_, rfl, ?_⟩
      exact fold _ (fun B s => if z then (if rev then B.bwZigSaveL res s else B.fwZigSaveU res s) else (if rev then B.saveRows B.up res s else B.saveRows B.low res s)) (hsub rev)
        (fun B hB s => by cases z <;> cases rev <;> exact hset B hB _ _) s

/-- the hypotheses of `smoothNO_correct_partial` hold for the blocks `[1,0]` and `[2]` -/
example (steps : ℕ) (hst : 0 < steps) (xs x work : BVec 1) :
    ∃ S, mkLSm (fun _ M => M⁻¹) exM [[[1, 0]], [[2]]] true none = some S ∧
      let b := mulBlock 3 exM.entry xs
      let x' := blockSweep 3 exM.entry (List.replicate steps (sweepOrder ([[[1, 0]], [[2]]].flatten.map (specBlock (fun _ M => M⁻¹) exM none)) false true)).flatten x b
      ∃ res', smooth2 S steps false true x b (b - mulBlock 3 exM.entry x) 0 work true true false = some (x', res') ∧
        (true = true → ∀ j < 3, res' j = (b - mulBlock 3 exM.entry x') j) ∧ (true = true → true = false → res' = b - mulBlock 3 exM.entry x) := by
  refine smoothNO_correct_partial (fun _ M => M⁻¹) exM exM_wf exM_symm [[[1, 0]], [[2]]] (by decide) ?_ ?_ steps hst false true (by simp) x _ _ 0 work (fun _ _ => rfl) true true false
    ⟨fun _ => rfl, by simp⟩ (by simp) fun _ _ => ⟨Or.inl rfl, ?_⟩
  · intro j
    show j ∈ [1, 0, 2] ↔ j < 3
    simp; omega
  · intro dofs hd
    have : dofs = [1, 0] ∨ dofs = [2] := by simpa using hd
    exact exM_unit dofs (by rcases this with rfl | rfl <;> simp) (by rcases this with rfl | rfl <;> simp)
  · intro i j
    ext a c
    rw [Matrix.transpose_apply, Subsingleton.elim a c]

end NgsAMG.BlkGS
