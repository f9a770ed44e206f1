import Verif.Props.LocBlock4

/-!
# C81: `BSmoother2` for blocks without common unknowns; single passes
-/

namespace NgsAMG.BlkGS
open Matrix NgsAMG.GS NgsAMG.Spec

variable {k : ℕ}

/-- blocks without common unknowns that hold the rows of `A` and the inverses of the diagonal blocks; `low` has no column of the block itself or a later one, `up` none of
the block itself or an earlier one -/
structure NOBlocks (A : CSR (Blk k)) (L : List (LBlock k)) : Prop where
  repr : ∀ B ∈ L, B.Repr A
  inv : ∀ B ∈ L, B.dinv * B.diag = 1
  pw : L.Pairwise fun B C => (∀ d ∈ B.dofs, d ∉ C.dofs) ∧ (∀ j, ∀ e ∈ B.low j, e.1 ∉ C.dofs) ∧ ∀ j, ∀ e ∈ C.up j, e.1 ∉ B.dofs

theorem NOBlocks.tail {A : CSR (Blk k)} {B : LBlock k} {L : List (LBlock k)} (h : NOBlocks A (B :: L)) : NOBlocks A L :=
  ⟨fun C hC => h.repr C (List.mem_cons_of_mem _ hC), fun C hC => h.inv C (List.mem_cons_of_mem _ hC), h.pw.of_cons⟩

theorem LBlock.Repr.cols {A : CSR (Blk k)} {B : LBlock k} (h : B.Repr A) (j : Fin B.dofs.length) : ∀ e ∈ B.low j ++ B.up j, e.1 ∉ B.dofs := by
  have h1 := ((h.rows j).filter fun e => decide (e.1 ∈ B.dofs)).length_eq
  rw [List.filter_append, List.length_append, List.filter_filter] at h1
  simp only [Bool.and_self] at h1
  have h2 : ((B.low j ++ B.up j).filter fun e => decide (e.1 ∈ B.dofs)) = [] := List.length_eq_zero_iff.1 (by omega)
  intro e he hd
  have := List.filter_eq_nil_iff.1 h2 e he
  exact this (by simpa using hd)

theorem setAt_eq {dofs : List ℕ} (hn : dofs.Nodup) (u : Fin dofs.length × Fin k → ℝ) (x : BVec k) : setAt dofs u x = addAt dofs (u - gather dofs x) x := by
  have key : ∀ (l : List (Fin dofs.length)) (y z : BVec k), l.Nodup → (∀ p ∈ l, z dofs[p] = x dofs[p]) → y = z →
      l.foldl (fun x j => Function.update x dofs[j] fun c => u (j, c)) y = l.foldl (fun y j => Function.update y dofs[j] (y dofs[j] + fun c => (u - gather dofs x) (j, c))) z := by
    intro l
    induction l with
    | nil => intro y z _ _ h; exact h
    | cons p l ih =>
      intro y z hl hz hyz
      subst hyz
      rw [List.foldl_cons, List.foldl_cons]
      refine ih _ _ (List.nodup_cons.1 hl).2 ?_ ?_
      · intro q hq
        have hne : dofs[q] ≠ dofs[p] := by
          intro he
          have : q = p := Fin.ext ((List.Nodup.getElem_inj_iff hn).1 he)
          exact (List.nodup_cons.1 hl).1 (this ▸ hq)
        rw [Function.update_of_ne hne]
        exact hz q (List.mem_cons_of_mem _ hq)
      · congr 1
        funext c
        have := congrFun (hz p List.mem_cons_self) c
        simp only [Pi.add_apply, Pi.sub_apply, gather]
        rw [this]; ring
  exact key _ x x (List.nodup_finRange _) (fun _ _ => rfl) rfl

theorem setAt_outside {dofs : List ℕ} (hn : dofs.Nodup) (u : Fin dofs.length × Fin k → ℝ) (x : BVec k) {j : ℕ} (hj : j ∉ dofs) : setAt dofs u x j = x j := by
  rw [setAt_eq hn]; exact addAt_outside dofs _ x hj

theorem setAt_self {dofs : List ℕ} (hn : dofs.Nodup) (u : Fin dofs.length × Fin k → ℝ) (x : BVec k) (p : Fin dofs.length) : setAt dofs u x dofs[p] = fun c => u (p, c) := by
  rw [setAt_eq hn, addAt_self hn]
  funext c
  simp [gather]

theorem subRow_congr (es : List (ℕ × Blk k)) {x y : BVec k} (h : ∀ e ∈ es, x e.1 = y e.1) (s : Fin k → ℝ) : subRow es x s = subRow es y s := by
  rw [subRow_eq, subRow_eq, List.map_congr_left fun e he => by rw [h e he]]

theorem subRow_zero (es : List (ℕ × Blk k)) {x : BVec k} (h : ∀ e ∈ es, x e.1 = 0) (s : Fin k → ℝ) : subRow es x s = s := by
  rw [subRow_eq, List.map_congr_left fun e he => by rw [h e he, mulVec_zero]]
  simp

/-- with the inverse of the diagonal block the update replaces the values -/
theorem LBlock.upd_set {A : CSR (Blk k)} {B : LBlock k} (h : B.Repr A) (hi : B.dinv * B.diag = 1) (b x : BVec k) : B.upd b x = setAt B.dofs (B.dinv *ᵥ B.rhsLU x b) x := by
  rw [LBlock.upd, setAt_eq h.nodup, mulVec_sub, mulVec_mulVec, hi, one_mulVec]

theorem LBlock.Repr.upd_outside {A : CSR (Blk k)} {B : LBlock k} (_ : B.Repr A) (b x : BVec k) {j : ℕ} (hj : j ∉ B.dofs) : B.upd b x j = x j := addAt_outside _ _ _ hj

/-- all but the unknowns of the blocks stays -/
theorem foldl_upd_outside {A : CSR (Blk k)} {L : List (LBlock k)} (hr : ∀ B ∈ L, B.Repr A) (b x : BVec k) {j : ℕ} (hj : ∀ B ∈ L, j ∉ B.dofs) :
    L.foldl (fun x B => B.upd b x) x j = x j := by
  induction L generalizing x with
  | nil => rfl
  | cons B L ih =>
    rw [List.foldl_cons, ih (fun C hC => hr C (List.mem_cons_of_mem _ hC)) _ fun C hC => hj C (List.mem_cons_of_mem _ hC)]
    exact (hr B List.mem_cons_self).upd_outside b x (hj B List.mem_cons_self)

theorem foldr_upd_outside {A : CSR (Blk k)} {L : List (LBlock k)} (hr : ∀ B ∈ L, B.Repr A) (b x : BVec k) {j : ℕ} (hj : ∀ B ∈ L, j ∉ B.dofs) :
    L.foldr (fun B x => B.upd b x) x j = x j := by
  rw [← List.foldl_reverse]
  exact foldl_upd_outside (fun B hB => hr B (List.mem_reverse.1 hB)) b x fun B hB => hj B (List.mem_reverse.1 hB)

/-- the residual at the unknowns of a block vanishes after its update -/
theorem LBlock.upd_res {A : CSR (Blk k)} {B : LBlock k} (h : B.Repr A) (hi : B.dinv * B.diag = 1) (b x : BVec k) (p : Fin B.dofs.length) :
    (b - multRow A (B.upd b x)) B.dofs[p] = 0 := by
  have h1 := congrArg (fun f => fun c => f (p, c)) (h.rhs (B.upd b x) b)
  have h2 : (b - multRow A (B.upd b x)) B.dofs[p] = fun c => (B.rhsLU (B.upd b x) b - B.diag *ᵥ gather B.dofs (B.upd b x)) (p, c) := h1.symm
  rw [h2]
  have h3 : B.rhsLU (B.upd b x) b = B.rhsLU x b := by
    funext ⟨q, c⟩
    have hc := h.cols q
    rw [LBlock.rhsLU, LBlock.rhsLU]
    dsimp only
    rw [subRow_congr (B.low q) (y := x) fun e he => h.upd_outside b x (hc e (List.mem_append_left _ he)),
      subRow_congr (B.up q) (y := x) fun e he => h.upd_outside b x (hc e (List.mem_append_right _ he))]
  have h4 : gather B.dofs (B.upd b x) = B.dinv *ᵥ B.rhsLU x b := by
    funext ⟨q, c⟩
    rw [gather, LBlock.upd_set h hi]
    dsimp only
    rw [setAt_self h.nodup]
  have h5 : B.diag * B.dinv = 1 := mul_eq_one_comm.1 hi
  rw [h3, h4, mulVec_mulVec, h5, one_mulVec, sub_self]
  rfl

/-! ### forward with zero values at the unknowns of later blocks -/

theorem LBlock.fwZig_eq {A : CSR (Blk k)} {B : LBlock k} (h : B.Repr A) (hi : B.dinv * B.diag = 1) (b x : BVec k) (hz : ∀ j, ∀ e ∈ B.up j, x e.1 = 0) :
    B.fwZig b x = B.upd b x := by
  rw [LBlock.upd_set h hi, LBlock.fwZig]
  congr 2
  funext ⟨p, c⟩
  rw [LBlock.rhsL, LBlock.rhsLU, subRow_zero (B.up p) (hz p)]

/-! ### forward, saving `b - L x` -/

theorem savebL_outside {A : CSR (Blk k)} {L : List (LBlock k)} (hr : ∀ B ∈ L, B.Repr A) (b : BVec k) (s : BVec k × BVec k) {j : ℕ} (hj : ∀ B ∈ L, j ∉ B.dofs) :
    (L.foldl (fun s B => B.savebL b s) s).2 j = s.2 j := by
  induction L generalizing s with
  | nil => rfl
  | cons B L ih =>
    rw [List.foldl_cons, ih (fun C hC => hr C (List.mem_cons_of_mem _ hC)) _ fun C hC => hj C (List.mem_cons_of_mem _ hC)]
    exact setAt_outside (hr B List.mem_cons_self).nodup _ _ (hj B List.mem_cons_self)

theorem savebL_fold {A : CSR (Blk k)} {L : List (LBlock k)} (h : NOBlocks A L) (b x r : BVec k) :
    (L.foldl (fun s B => B.savebL b s) (x, r)).1 = L.foldl (fun x B => B.upd b x) x ∧
    ∀ B ∈ L, ∀ p : Fin B.dofs.length, (L.foldl (fun s B => B.savebL b s) (x, r)).2 B.dofs[p] = subRow (B.low p) (L.foldl (fun x B => B.upd b x) x) (b B.dofs[p]) := by
  induction L generalizing x r with
  | nil => exact ⟨rfl, by simp⟩
  | cons B L ih =>
    have hB := h.repr B List.mem_cons_self
    have hp := List.pairwise_cons.1 h.pw
    have e1 : B.savebL b (x, r) = (B.upd b x, setAt B.dofs (B.rhsL x b) r) := by
      rw [LBlock.upd_set hB (h.inv B List.mem_cons_self)]; rfl
    rw [List.foldl_cons, List.foldl_cons, e1]
    obtain ⟨i1, i2⟩ := ih h.tail (B.upd b x) (setAt B.dofs (B.rhsL x b) r)
    refine ⟨i1, fun C hC p => ?_⟩
    rcases List.mem_cons.1 hC with rfl | hC
    · rw [savebL_outside h.tail.repr _ _ (j := C.dofs[p]) fun D hD => (hp.1 D hD).1 _ (List.getElem_mem _)]
      dsimp only
      rw [setAt_self hB.nodup]
      show subRow (C.low p) x (b C.dofs[p]) = _
      refine subRow_congr _ (fun e he => ?_) _
      rw [foldl_upd_outside h.tail.repr _ _ fun D hD => (hp.1 D hD).2.1 p e he, hB.upd_outside _ _ (hB.cols p e (List.mem_append_left _ he))]
    · exact i2 C hC p

/-- the same with zero values at the unknowns of later blocks -/
theorem zigSavebL_fold {A : CSR (Blk k)} {L : List (LBlock k)} (h : NOBlocks A L) (b x r : BVec k) (hz : ∀ B ∈ L, ∀ j, ∀ e ∈ B.up j, x e.1 = 0) :
    L.foldl (fun s B => B.fwZigSavebL b s) (x, r) = L.foldl (fun s B => B.savebL b s) (x, r) := by
  induction L generalizing x r with
  | nil => rfl
  | cons B L ih =>
    have hB := h.repr B List.mem_cons_self
    have hp := List.pairwise_cons.1 h.pw
    have e1 : B.savebL b (x, r) = (B.upd b x, setAt B.dofs (B.rhsL x b) r) := by
      rw [LBlock.upd_set hB (h.inv B List.mem_cons_self)]; rfl
    have e2 : B.fwZigSavebL b (x, r) = (B.upd b x, setAt B.dofs (B.rhsL x b) r) := by
      rw [← LBlock.fwZig_eq hB (h.inv B List.mem_cons_self) b x (hz B List.mem_cons_self)]; rfl
    rw [List.foldl_cons, List.foldl_cons, e1, e2]
    refine ih h.tail _ _ fun C hC j e he => ?_
    rw [hB.upd_outside _ _ ((hp.1 C hC).2.2 j e he)]
    exact hz C (List.mem_cons_of_mem _ hC) j e he

/-! ### backward, with saved `b - L x` -/

theorem bwZig_fold {A : CSR (Blk k)} {L : List (LBlock k)} (h : NOBlocks A L) (b x r : BVec k)
    (hr : ∀ B ∈ L, ∀ p : Fin B.dofs.length, r B.dofs[p] = subRow (B.low p) x (b B.dofs[p])) :
    L.foldr (fun B s => (B.bwZig s.2 s.1, s.2)) (x, r) = (L.foldr (fun B x => B.upd b x) x, r) := by
  induction L with
  | nil => rfl
  | cons B L ih =>
    have hB := h.repr B List.mem_cons_self
    have hp := List.pairwise_cons.1 h.pw
    rw [List.foldr_cons, List.foldr_cons, ih h.tail fun C hC => hr C (List.mem_cons_of_mem _ hC)]
    refine Prod.ext ?_ rfl
    dsimp only
    rw [LBlock.upd_set hB (h.inv B List.mem_cons_self), LBlock.bwZig]
    congr 2
    funext ⟨p, c⟩
    rw [LBlock.rhsU, LBlock.rhsLU]
    dsimp only
    rw [hr B List.mem_cons_self p, subRow_congr (B.low p) (y := x) fun e he => foldr_upd_outside h.tail.repr _ _ fun D hD => (hp.1 D hD).2.1 p e he]

end NgsAMG.BlkGS
