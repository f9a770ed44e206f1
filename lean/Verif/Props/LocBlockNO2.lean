import Verif.Props.LocBlockNO

/-!
# C81: passes that keep the residual, for blocks without common unknowns
-/

namespace NgsAMG.BlkGS
open Matrix NgsAMG.GS NgsAMG.Spec

variable {k : ℕ}

theorem subVals_apply (es : List (ℕ × Blk k)) (u : Fin k → ℝ) (r : BVec k) (j : ℕ) :
    subVals es u r j = r j - (((es.filter fun e => e.1 = j).map Prod.snd).sum) *ᵥ u := by
  induction es generalizing r with
  | nil => simp [subVals]
  | cons e es ih =>
    rw [subVals, List.foldl_cons, ← subVals, ih]
    by_cases h : e.1 = j
    · subst h
      rw [Function.update_self, List.filter_cons_of_pos (by simp), List.map_cons, List.sum_cons, add_mulVec]; abel
    · rw [Function.update_of_ne (fun he => h he.symm), List.filter_cons_of_neg (by simpa using h)]

theorem foldVals_apply {n : ℕ} (rows : Fin n → List (ℕ × Blk k)) (u : Fin n × Fin k → ℝ) (l : List (Fin n)) (r : BVec k) (j : ℕ) :
    (l.foldl (fun r j => subVals (rows j) (fun c => u (j, c)) r) r) j =
      r j - (l.map fun p => (((rows p).filter fun e => e.1 = j).map Prod.snd).sum *ᵥ fun c => u (p, c)).sum := by
  induction l generalizing r with
  | nil => simp
  | cons p l ih => rw [List.foldl_cons, ih, subVals_apply, List.map_cons, List.sum_cons]; abel

theorem foldVals_outside {n : ℕ} (rows : Fin n → List (ℕ × Blk k)) (u : Fin n × Fin k → ℝ) (r : BVec k) {j : ℕ} (hj : ∀ p, ∀ e ∈ rows p, e.1 ≠ j) :
    ((List.finRange n).foldl (fun r j => subVals (rows j) (fun c => u (j, c)) r) r) j = r j := by
  rw [foldVals_apply]
  have : ∀ p, ((rows p).filter fun e => e.1 = j) = [] := fun p => List.filter_eq_nil_iff.2 fun e he => by simpa using hj p e he
  have h2 : (List.finRange n).map (fun p => (((rows p).filter fun e => e.1 = j).map Prod.snd).sum *ᵥ fun c => u (p, c)) = (List.finRange n).map fun _ => 0 :=
    List.map_congr_left fun p _ => by rw [this p]; simp
  rw [h2]
  simp

/-- the new residual: zero at the unknowns of the block, corrected with the column of the block at those of `P` -/
theorem res_step {A : CSR (Blk k)} (hA : A.WF) (hs : Symm A) (hsym : ∀ i j, (A.entry i j)ᵀ = A.entry i j) {B : LBlock k} (h : B.Repr A) (hi : B.dinv * B.diag = 1)
    (rows : Fin B.dofs.length → List (ℕ × Blk k)) (hcol : ∀ p, ∀ e ∈ rows p, e.1 ∉ B.dofs) (hin : ∀ d ∈ B.dofs, d < A.width) (P : ℕ → Prop)
    (hP : ∀ i, P i → i ∉ B.dofs ∧ ∀ p : Fin B.dofs.length, A.entry B.dofs[p] i = (((rows p).filter fun e => e.1 = i).map Prod.snd).sum)
    (b x r : BVec k) (hr : ∀ i, P i → r i = (b - multRow A x) i) (u : Fin B.dofs.length × Fin k → ℝ) (hu : B.upd b x = addAt B.dofs u x) (i : ℕ) (hPi : P i ∨ i ∈ B.dofs) :
    ((List.finRange B.dofs.length).foldl (fun r j => subVals (rows j) (fun c => u (j, c)) r) (setAt B.dofs 0 r)) i = (b - multRow A (B.upd b x)) i := by
  by_cases hd : i ∈ B.dofs
  · obtain ⟨p, hp⟩ := List.get_of_mem hd
    have hp' : B.dofs[p] = i := hp
    rw [foldVals_outside _ _ _ fun q e he hei => hcol q e he (hei ▸ hd), ← hp', setAt_self h.nodup, LBlock.upd_res h hi]
    rfl
  · have hPi' := hPi.resolve_right hd
    rw [foldVals_apply, setAt_outside h.nodup _ _ hd, hr i hPi']
    have h1 : (List.finRange B.dofs.length).map (fun p => (((rows p).filter fun e => e.1 = i).map Prod.snd).sum *ᵥ fun c => u (p, c)) =
        (List.finRange B.dofs.length).map fun p => (A.entry B.dofs[p] i)ᵀ *ᵥ fun c => u (p, c) :=
      List.map_congr_left fun p _ => by rw [← (hP i hPi').2 p, hsym]
    rw [h1, ← Fin.sum_univ_def, hu]
    have h2 : addAt B.dofs u x = x + addAt B.dofs u 0 := by
      funext j c
      rw [addAt_apply, Pi.add_apply, Pi.add_apply, addAt_apply]; simp
    have h3 : multRow A (addAt B.dofs u x) = multRow A x + multRow A (addAt B.dofs u 0) := by rw [h2]; exact A.lin.map_add _ _
    rw [h3, Pi.sub_apply, Pi.sub_apply, Pi.add_apply, ← sub_sub]
    congr 1
    rw [multRow_eq A hA, mulBlock]
    have h4 : ∀ j, addAt B.dofs u 0 j = ∑ p : Fin B.dofs.length, if B.dofs[p] = j then (fun c => u (p, c)) else 0 := by
      intro j; funext c
      rw [addAt_apply, Finset.sum_apply]
      simp only [Pi.zero_apply, zero_add]
      refine Finset.sum_congr rfl fun p _ => ?_
      split <;> rfl
    have h5 : ∀ j ∈ Finset.range A.width, A.entry i j *ᵥ addAt B.dofs u 0 j = ∑ p : Fin B.dofs.length, if B.dofs[p] = j then A.entry i B.dofs[p] *ᵥ (fun c => u (p, c)) else 0 := by
      intro j _
      rw [h4, Matrix.mulVec_sum]
      refine Finset.sum_congr rfl fun p _ => ?_
      split
      · next he => rw [he]
      · simp
    rw [Finset.sum_congr rfl h5, Finset.sum_comm]
    refine Finset.sum_congr rfl fun p _ => ?_
    have hm : B.dofs[p] ∈ Finset.range A.width := Finset.mem_range.2 (hin _ (List.getElem_mem _))
    rw [Finset.sum_ite_eq, if_pos hm, ← hs.2]

/-- the part of an entry in `low`, if there is none in `up` and the column is not in the block -/
theorem LBlock.Repr.entry_low {A : CSR (Blk k)} {B : LBlock k} (h : B.Repr A) (p : Fin B.dofs.length) {i : ℕ} (hi : i ∉ B.dofs) (hu : ∀ e ∈ B.up p, e.1 ≠ i) :
    A.entry B.dofs[p] i = (((B.low p).filter fun e => e.1 = i).map Prod.snd).sum := by
  have h1 : ((B.up p).filter fun e => e.1 = i) = [] := List.filter_eq_nil_iff.2 fun e he => by simpa using hu e he
  rw [h.entry_split p i, h1, if_neg hi]
  simp

theorem LBlock.Repr.entry_up {A : CSR (Blk k)} {B : LBlock k} (h : B.Repr A) (p : Fin B.dofs.length) {i : ℕ} (hi : i ∉ B.dofs) (hu : ∀ e ∈ B.low p, e.1 ≠ i) :
    A.entry B.dofs[p] i = (((B.up p).filter fun e => e.1 = i).map Prod.snd).sum := by
  have h1 : ((B.low p).filter fun e => e.1 = i) = [] := List.filter_eq_nil_iff.2 fun e he => by simpa using hu e he
  rw [h.entry_split p i, h1, if_neg hi]
  simp

theorem LBlock.saveRows_fst {A : CSR (Blk k)} {B : LBlock k} (h : B.Repr A) (hi : B.dinv * B.diag = 1) (rows : Fin B.dofs.length → List (ℕ × Blk k)) (b x r : BVec k) :
    (B.saveRows rows b (x, r)).1 = B.upd b x := by rw [LBlock.upd_set h hi]; rfl

/-- forward pass with residual: right at the unknowns of `P` and of the blocks visited -/
theorem saveLow_fold {A : CSR (Blk k)} (hA : A.WF) (hs : Symm A) (hsym : ∀ i j, (A.entry i j)ᵀ = A.entry i j) {L : List (LBlock k)} (h : NOBlocks A L)
    (hin : ∀ B ∈ L, ∀ d ∈ B.dofs, d < A.width) (P : ℕ → Prop) (hP : ∀ i, P i → ∀ B ∈ L, i ∉ B.dofs ∧ ∀ p, ∀ e ∈ B.up p, e.1 ≠ i)
    (b x r : BVec k) (hr : ∀ i, P i → r i = (b - multRow A x) i) :
    (L.foldl (fun s B => B.saveRows B.low b s) (x, r)).1 = L.foldl (fun x B => B.upd b x) x ∧
    ∀ i, (P i ∨ ∃ B ∈ L, i ∈ B.dofs) → (L.foldl (fun s B => B.saveRows B.low b s) (x, r)).2 i = (b - multRow A (L.foldl (fun x B => B.upd b x) x)) i := by
  induction L generalizing x r P with
  | nil => exact ⟨rfl, fun i hi => hr i (hi.resolve_right (by simp))⟩
  | cons B L ih =>
    have hB := h.repr B List.mem_cons_self
    have hI := h.inv B List.mem_cons_self
    have hp := List.pairwise_cons.1 h.pw
    have hu : B.upd b x = addAt B.dofs (B.dinv *ᵥ B.rhsLU x b - gather B.dofs x) x := by rw [LBlock.upd_set hB hI, setAt_eq hB.nodup]
    have e1 : (B.saveRows B.low b (x, r)) = (B.upd b x, (B.saveRows B.low b (x, r)).2) := Prod.ext (LBlock.saveRows_fst hB hI _ b x r) rfl
    rw [List.foldl_cons, List.foldl_cons, e1]
    have hstep := ih h.tail (fun C hC => hin C (List.mem_cons_of_mem _ hC)) (fun i => P i ∨ i ∈ B.dofs) ?_ (B.upd b x) (B.saveRows B.low b (x, r)).2 ?_
    · refine ⟨hstep.1, fun i hi => hstep.2 i ?_⟩
      rcases hi with hi | ⟨C, hC, hi⟩
      · exact Or.inl (Or.inl hi)
      · rcases List.mem_cons.1 hC with rfl | hC
        · exact Or.inl (Or.inr hi)
        · exact Or.inr ⟨C, hC, hi⟩
    · intro i hi C hC
      rcases hi with hi | hi
      · exact hP i hi C (List.mem_cons_of_mem _ hC)
      · exact ⟨(hp.1 C hC).1 i hi, fun p e he hei => (hp.1 C hC).2.2 p e he (hei ▸ hi)⟩
    · intro i hi
      refine res_step hA hs hsym hB hI B.low (fun p e he => hB.cols p e (List.mem_append_left _ he)) (hin B List.mem_cons_self) P ?_ b x r hr _ hu i hi
      intro i hi
      exact ⟨(hP i hi B List.mem_cons_self).1, fun p => hB.entry_low p (hP i hi B List.mem_cons_self).1 ((hP i hi B List.mem_cons_self).2 p)⟩

/-- backward pass with residual from saved `b - L x` -/
theorem subUSaveL_fold {A : CSR (Blk k)} (hA : A.WF) (hs : Symm A) (hsym : ∀ i j, (A.entry i j)ᵀ = A.entry i j) {L : List (LBlock k)} (h : NOBlocks A L)
    (hin : ∀ B ∈ L, ∀ d ∈ B.dofs, d < A.width) (b x r : BVec k) (hr : ∀ B ∈ L, ∀ p : Fin B.dofs.length, r B.dofs[p] = subRow (B.low p) x (b B.dofs[p])) :
    (L.foldr (fun B s => B.subUSaveL s) (x, r)).1 = L.foldr (fun B x => B.upd b x) x ∧
    (∀ i, (∃ B ∈ L, i ∈ B.dofs) → (L.foldr (fun B s => B.subUSaveL s) (x, r)).2 i = (b - multRow A (L.foldr (fun B x => B.upd b x) x)) i) ∧
    ∀ i, (∀ B ∈ L, i ∉ B.dofs ∧ ∀ p, ∀ e ∈ B.up p, e.1 ≠ i) → (L.foldr (fun B s => B.subUSaveL s) (x, r)).2 i = r i := by
  induction L with
  | nil => exact ⟨rfl, by simp, fun _ _ => rfl⟩
  | cons B L ih =>
    have hB := h.repr B List.mem_cons_self
    have hI := h.inv B List.mem_cons_self
    have hp := List.pairwise_cons.1 h.pw
    obtain ⟨i1, i2, i3⟩ := ih h.tail (fun C hC => hin C (List.mem_cons_of_mem _ hC)) fun C hC => hr C (List.mem_cons_of_mem _ hC)
    rw [List.foldr_cons, List.foldr_cons]
    generalize hx2 : L.foldr (fun B x => B.upd b x) x = x2 at *
    generalize hst : L.foldr (fun B s => B.subUSaveL s) (x, r) = st at *
    obtain ⟨x2', r2⟩ := st
    dsimp only at i1 i2 i3
    subst i1
    have hx : ∀ p : Fin B.dofs.length, ∀ e ∈ B.low p, x2' e.1 = x e.1 := by
      intro p e he
      rw [← hx2, foldr_upd_outside h.tail.repr _ _ fun D hD => (hp.1 D hD).2.1 p e he]
    have hrB : ∀ p : Fin B.dofs.length, r2 B.dofs[p] = subRow (B.low p) x2' (b B.dofs[p]) := by
      intro p
      rw [i3 B.dofs[p] fun C hC => ⟨(hp.1 C hC).1 _ (List.getElem_mem _), fun q e he hei => (hp.1 C hC).2.2 q e he (hei ▸ List.getElem_mem _)⟩, hr B List.mem_cons_self p]
      exact (subRow_congr _ (hx p) _).symm
    have hrhs : B.rhsU x2' r2 = B.rhsLU x2' b := by
      funext ⟨p, c⟩
      rw [LBlock.rhsU, LBlock.rhsLU]
      dsimp only
      rw [hrB p]
    have hu : B.upd b x2' = addAt B.dofs (B.dinv *ᵥ B.rhsLU x2' b - gather B.dofs x2') x2' := by rw [LBlock.upd_set hB hI, setAt_eq hB.nodup]
    refine ⟨?_, ?_, ?_⟩
    · rw [LBlock.upd_set hB hI, ← hrhs]; rfl
    · rintro i ⟨C, hC, hi⟩
      show ((List.finRange B.dofs.length).foldl (fun r j => subVals (B.up j) (fun c => (B.dinv *ᵥ B.rhsU x2' r2 - gather B.dofs x2') (j, c)) r) (setAt B.dofs 0 r2)) i = _
      rw [hrhs]
      refine res_step hA hs hsym hB hI B.up (fun p e he => hB.cols p e (List.mem_append_right _ he)) (hin B List.mem_cons_self)
        (fun i => ∃ C ∈ L, i ∈ C.dofs) ?_ b x2' r2 i2 _ hu i ?_
      · rintro i ⟨D, hD, hi⟩
        have hn : i ∉ B.dofs := fun hiB => (hp.1 D hD).1 i hiB hi
        exact ⟨hn, fun p => hB.entry_up p hn fun e he hei => (hp.1 D hD).2.1 p e he (hei ▸ hi)⟩
      · rcases List.mem_cons.1 hC with rfl | hC
        · exact Or.inr hi
        · exact Or.inl ⟨C, hC, hi⟩
    · intro i hi
      show ((List.finRange B.dofs.length).foldl (fun r j => subVals (B.up j) (fun c => (B.dinv *ᵥ B.rhsU x2' r2 - gather B.dofs x2') (j, c)) r) (setAt B.dofs 0 r2)) i = _
      have hiB := hi B List.mem_cons_self
      rw [foldVals_outside _ _ _ fun p e he => hiB.2 p e he, setAt_outside hB.nodup _ _ hiB.1]
      exact i3 i fun C hC => hi C (List.mem_cons_of_mem _ hC)

/-! ### the first step: the working vector holds old values -/

/-- each column of `low` is one of `P` or of an earlier block -/
def Cov (P : ℕ → Prop) : List (LBlock k) → Prop
  | [] => True
  | B :: L => (∀ j, ∀ e ∈ B.low j, P e.1) ∧ Cov (fun i => P i ∨ i ∈ B.dofs) L

theorem cov_of {A : CSR (Blk k)} {L : List (LBlock k)} (h : NOBlocks A L) (P : ℕ → Prop) (hc : ∀ B ∈ L, ∀ j, ∀ e ∈ B.low j, P e.1 ∨ ∃ C ∈ L, e.1 ∈ C.dofs) : Cov P L := by
  induction L generalizing P with
  | nil => trivial
  | cons B L ih =>
    have hp := List.pairwise_cons.1 h.pw
    refine ⟨fun j e he => ?_, ih h.tail _ fun C hC j e he => ?_⟩
    · rcases hc B List.mem_cons_self j e he with hPe | ⟨C, hC, hm⟩
      · exact hPe
      · exfalso
        rcases List.mem_cons.1 hC with rfl | hC
        · exact (h.repr C List.mem_cons_self).cols j e (List.mem_append_left _ he) hm
        · exact (hp.1 C hC).2.1 j e he hm
    · rcases hc C (List.mem_cons_of_mem _ hC) j e he with hPe | ⟨D, hD, hm⟩
      · exact Or.inl (Or.inl hPe)
      · rcases List.mem_cons.1 hD with rfl | hD
        · exact Or.inl (Or.inr hm)
        · exact Or.inr ⟨D, hD, hm⟩

theorem agree_set {dofs : List ℕ} (hn : dofs.Nodup) (u : Fin dofs.length × Fin k → ℝ) {x y : BVec k} {P : ℕ → Prop} (h : ∀ i, P i → x i = y i) :
    ∀ i, P i ∨ i ∈ dofs → setAt dofs u x i = setAt dofs u y i := by
  intro i hi
  by_cases hd : i ∈ dofs
  · obtain ⟨p, hp⟩ := List.get_of_mem hd
    have hp' : dofs[p] = i := hp
    rw [← hp', setAt_self hn, setAt_self hn]
  · rw [setAt_outside hn _ _ hd, setAt_outside hn _ _ hd, h i (hi.resolve_right hd)]

/-- the first forward pass with residual does not depend on the old values, and gives what a start from zero gives -/
theorem zigSaveU_fold {A : CSR (Blk k)} {L : List (LBlock k)} (h : NOBlocks A L) (P : ℕ → Prop) (hc : Cov P L) (b x y r : BVec k) (hxy : ∀ i, P i → x i = y i)
    (hy : ∀ B ∈ L, (∀ d ∈ B.dofs, y d = 0) ∧ ∀ j, ∀ e ∈ B.up j, y e.1 = 0) :
    (∀ i, (P i ∨ ∃ B ∈ L, i ∈ B.dofs) → (L.foldl (fun s B => B.fwZigSaveU b s) (x, r)).1 i = (L.foldl (fun s B => B.saveRows B.low b s) (y, r)).1 i) ∧
    (∀ i, (∀ B ∈ L, i ∉ B.dofs) → (L.foldl (fun s B => B.fwZigSaveU b s) (x, r)).1 i = x i) ∧
    (L.foldl (fun s B => B.fwZigSaveU b s) (x, r)).2 = (L.foldl (fun s B => B.saveRows B.low b s) (y, r)).2 := by
  induction L generalizing x y r P with
  | nil => exact ⟨fun i hi => hxy i (hi.resolve_right (by simp)), fun _ _ => rfl, rfl⟩
  | cons B L ih =>
    have hB := h.repr B List.mem_cons_self
    have hp := List.pairwise_cons.1 h.pw
    have h1 : B.rhsL x b = B.rhsLU y b := by
      funext ⟨p, c⟩
      rw [LBlock.rhsL, LBlock.rhsLU]
      dsimp only
      rw [subRow_zero (B.up p) ((hy B List.mem_cons_self).2 p), subRow_congr (B.low p) (y := y) fun e he => hxy _ (hc.1 p e he)]
    have h2 : gather B.dofs y = 0 := by
      funext ⟨p, c⟩
      rw [gather]
      dsimp only
      rw [(hy B List.mem_cons_self).1 B.dofs[p] (List.getElem_mem _)]; rfl
    have e2 : B.saveRows B.low b (y, r) = (setAt B.dofs (B.dinv *ᵥ B.rhsLU y b) y, (B.fwZigSaveU b (x, r)).2) := by
      rw [LBlock.saveRows, LBlock.fwZigSaveU]
      dsimp only
      rw [h1, h2, sub_zero]
    have e1 : B.fwZigSaveU b (x, r) = (setAt B.dofs (B.dinv *ᵥ B.rhsLU y b) x, (B.fwZigSaveU b (x, r)).2) := by
      rw [← h1]; rfl
    rw [List.foldl_cons, List.foldl_cons, e1, e2]
    obtain ⟨i1, i2, i3⟩ := ih h.tail (fun i => P i ∨ i ∈ B.dofs) hc.2 (setAt B.dofs (B.dinv *ᵥ B.rhsLU y b) x) (setAt B.dofs (B.dinv *ᵥ B.rhsLU y b) y)
      (B.fwZigSaveU b (x, r)).2 (agree_set hB.nodup _ hxy) fun C hC => ⟨fun d hd => by
        rw [setAt_outside hB.nodup _ _ fun hdB => (hp.1 C hC).1 d hdB hd]
        exact (hy C (List.mem_cons_of_mem _ hC)).1 d hd, fun j e he => by
        rw [setAt_outside hB.nodup _ _ ((hp.1 C hC).2.2 j e he)]
        exact (hy C (List.mem_cons_of_mem _ hC)).2 j e he⟩
    refine ⟨fun i hi => i1 i ?_, fun i hi => ?_, i3⟩
    · rcases hi with hi | ⟨C, hC, hi⟩
      · exact Or.inl (Or.inl hi)
      · rcases List.mem_cons.1 hC with rfl | hC
        · exact Or.inl (Or.inr hi)
        · exact Or.inr ⟨C, hC, hi⟩
    · rw [i2 i fun C hC => hi C (List.mem_cons_of_mem _ hC)]
      exact setAt_outside hB.nodup _ _ (hi B List.mem_cons_self)

/-- the same for the first forward pass that saves `b - L x` -/
theorem zigSavebL_stale {A : CSR (Blk k)} {L : List (LBlock k)} (h : NOBlocks A L) (P : ℕ → Prop) (hc : Cov P L) (b x y r : BVec k) (hxy : ∀ i, P i → x i = y i) :
    (∀ i, (P i ∨ ∃ B ∈ L, i ∈ B.dofs) → (L.foldl (fun s B => B.fwZigSavebL b s) (x, r)).1 i = (L.foldl (fun s B => B.fwZigSavebL b s) (y, r)).1 i) ∧
    (∀ i, (∀ B ∈ L, i ∉ B.dofs) → (L.foldl (fun s B => B.fwZigSavebL b s) (x, r)).1 i = x i) ∧
    (L.foldl (fun s B => B.fwZigSavebL b s) (x, r)).2 = (L.foldl (fun s B => B.fwZigSavebL b s) (y, r)).2 := by
  induction L generalizing x y r P with
  | nil => exact ⟨fun i hi => hxy i (hi.resolve_right (by simp)), fun _ _ => rfl, rfl⟩
  | cons B L ih =>
    have hB := h.repr B List.mem_cons_self
    have h1 : B.rhsL x b = B.rhsL y b := by
      funext ⟨p, c⟩
      rw [LBlock.rhsL, LBlock.rhsL]
      dsimp only
      rw [subRow_congr (B.low p) (y := y) fun e he => hxy _ (hc.1 p e he)]
    have e1 : B.fwZigSavebL b (x, r) = (setAt B.dofs (B.dinv *ᵥ B.rhsL y b) x, setAt B.dofs (B.rhsL y b) r) := by rw [← h1]; rfl
    have e2 : B.fwZigSavebL b (y, r) = (setAt B.dofs (B.dinv *ᵥ B.rhsL y b) y, setAt B.dofs (B.rhsL y b) r) := rfl
    rw [List.foldl_cons, List.foldl_cons, e1, e2]
    obtain ⟨i1, i2, i3⟩ := ih h.tail (fun i => P i ∨ i ∈ B.dofs) hc.2 _ _ (setAt B.dofs (B.rhsL y b) r) (agree_set hB.nodup _ hxy)
    refine ⟨fun i hi => i1 i ?_, fun i hi => ?_, i3⟩
    · rcases hi with hi | ⟨C, hC, hi⟩
      · exact Or.inl (Or.inl hi)
      · rcases List.mem_cons.1 hC with rfl | hC
        · exact Or.inl (Or.inr hi)
        · exact Or.inr ⟨C, hC, hi⟩
    · rw [i2 i fun C hC => hi C (List.mem_cons_of_mem _ hC)]
      exact setAt_outside hB.nodup _ _ (hi B List.mem_cons_self)

end NgsAMG.BlkGS
