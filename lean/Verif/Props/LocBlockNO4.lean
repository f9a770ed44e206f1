import Verif.Props.LocBlockNO3

/-!
# C81: `Smooth`, `SmoothK`, `SmoothSymmK`, `SmoothBack`, `SmoothBackK` of `BSmoother2` for blocks without common unknowns
-/

namespace NgsAMG.BlkGS
open Matrix NgsAMG.GS NgsAMG.Spec

variable {k : ℕ}

theorem stepsZig_some {σ : Type} (f : Bool → σ → Option σ) (h : Bool → σ → σ) (hf : ∀ z s, f z s = some (h z s)) (n : ℕ) (z : Bool) (s : σ) :
    stepsZig f (n + 1) z s = some (times (h false) n (h z s)) := by
  induction n generalizing z s with
  | zero => rw [stepsZig, hf, Option.bind_some, stepsZig, times]
  | succ n ih => rw [stepsZig, hf, Option.bind_some, ih, times]

theorem times_fst {σ τ : Type} (h : σ × τ → σ × τ) (g : σ → σ) (hg : ∀ s, (h s).1 = g s.1) (n : ℕ) (s : σ × τ) : (times h n s).1 = times g n s.1 := by
  induction n generalizing s with
  | zero => rfl
  | succ n ih => rw [times, times, ih, hg]

theorem times_inv {σ : Type} (h : σ → σ) (I : σ → Prop) (hI : ∀ s, I (h s)) (n : ℕ) (s : σ) : I (times h n (h s)) := by
  induction n generalizing s with
  | zero => exact hI s
  | succ n ih => rw [times]; exact ih _

theorem times_succ' {σ : Type} (h : σ → σ) (n : ℕ) (s : σ) : times h n (h s) = times h (n + 1) s := rfl

/-- all blocks, one after the other -/
theorem pass_all {σ : Type} {S : LSm k} {Gs : List (List (LBlock k))} (hG : S.Grouped Gs) (rev : Bool) (f : σ → LBlock k → σ) (s : σ) :
    pass S S.all rev f s = some ((if rev then S.blocks.reverse else S.blocks).foldl f s) := by
  obtain ⟨h1, h2⟩ := all_blocks hG
  rw [h1, pass_eq hG 0 _ (by rw [Nat.zero_add]), h2]

/-- the symmetric step without residual -/
theorem symm_step {A : CSR (Blk k)} {L : List (LBlock k)} (h : NOBlocks A L) (b : BVec k) (z : Bool) (s : BVec k × BVec k) (hz : z = true → s.1 = 0) :
    (L.reverse.foldl (fun s B => (B.bwZig s.2 s.1, s.2)) (L.foldl (fun s B => if z then B.fwZigSavebL b s else B.savebL b s) s)).1 =
      (L ++ L.reverse).foldl (fun x B => B.upd b x) s.1 := by
  obtain ⟨x, r⟩ := s
  have h1 : L.foldl (fun s B => if z then B.fwZigSavebL b s else B.savebL b s) (x, r) = L.foldl (fun s B => B.savebL b s) (x, r) := by
    cases z
    · rfl
    · have h2 := zigSavebL_fold h b x r fun B _ j e _ => congrFun (hz rfl) e.1
      exact h2
  obtain ⟨i1, i2⟩ := savebL_fold h b x r
  rw [h1, List.foldl_reverse]
  generalize hst : L.foldl (fun s B => B.savebL b s) (x, r) = st at i1 i2 ⊢
  obtain ⟨x', r'⟩ := st
  dsimp only at i1 i2
  subst i1
  rw [bwZig_fold h b _ r' i2, List.foldl_append, List.foldl_reverse]

/-- blocks with all unknowns -/
def Covers (n : ℕ) (L : List (LBlock k)) : Prop := (∀ j < n, ∃ B ∈ L, j ∈ B.dofs) ∧ ∀ B ∈ L, ∀ d ∈ B.dofs, d < n

theorem cov_full {A : CSR (Blk k)} (hA : A.WF) (hs : Symm A) {L : List (LBlock k)} (h : NOBlocks A L) (hc : Covers A.height L) : Cov (fun _ => False) L := by
  refine cov_of h _ fun B hB j e he => Or.inr (hc.1 _ ?_)
  rw [hs.1]
  have hm : e ∈ A.row B.dofs[j] := ((h.repr B hB).rows j).mem_iff.2 (List.mem_append_left _ (List.mem_append_left _ he))
  exact hA.inRange _ e hm

theorem ext_height {x y : BVec k} (n : ℕ) (h1 : ∀ i < n, x i = y i) (h2 : ∀ i, n ≤ i → x i = y i) : x = y := by
  funext i
  by_cases h : i < n
  · exact h1 i h
  · exact h2 i (by omega)

/-- the symmetric step with residual -/
theorem symmCR_step {A : CSR (Blk k)} (hA : A.WF) (hs : Symm A) (hsym : ∀ i j, (A.entry i j)ᵀ = A.entry i j) {L : List (LBlock k)} (h : NOBlocks A L)
    (hc : Covers A.height L) (b : BVec k) (s : BVec k × BVec k) :
    let s' := L.reverse.foldl (fun s B => B.subUSaveL s) (L.foldl (fun s B => B.savebL b s) s)
    s'.1 = (L ++ L.reverse).foldl (fun x B => B.upd b x) s.1 ∧ ∀ i < A.height, s'.2 i = (b - multRow A s'.1) i := by
  intro s'
  obtain ⟨x, r⟩ := s
  obtain ⟨i1, i2⟩ := savebL_fold h b x r
  have hs' : s' = L.foldr (fun B s => B.subUSaveL s) (L.foldl (fun s B => B.savebL b s) (x, r)) := List.foldl_reverse
  rw [hs']
  generalize hst : L.foldl (fun s B => B.savebL b s) (x, r) = st at i1 i2 ⊢
  obtain ⟨x', r'⟩ := st
  dsimp only at i1 i2
  subst i1
  obtain ⟨j1, j2, -⟩ := subUSaveL_fold hA hs hsym h (fun B hB d hd => hs.1 ▸ hc.2 B hB d hd) b _ r' i2
  refine ⟨?_, fun i hi => ?_⟩
  · rw [j1, List.foldl_append, List.foldl_reverse]
  · rw [j1]
    exact j2 i (hc.1 i hi)

/-- the first symmetric step with residual: what is in the working vector does not matter -/
theorem symmCR_first {A : CSR (Blk k)} (hA : A.WF) (hs : Symm A) {L : List (LBlock k)} (h : NOBlocks A L) (hc : Covers A.height L) (b w r : BVec k)
    (hw : ∀ i, A.height ≤ i → w i = 0) : L.foldl (fun s B => B.fwZigSavebL b s) (w, r) = L.foldl (fun s B => B.savebL b s) (0, r) := by
  rw [← zigSavebL_fold h b 0 r fun _ _ _ _ _ => rfl]
  obtain ⟨i1, i2, i3⟩ := zigSavebL_stale h _ (cov_full hA hs h hc) b w 0 r fun _ hf => hf.elim
  obtain ⟨-, j2, -⟩ := zigSavebL_stale h _ (cov_full hA hs h hc) b 0 0 r fun _ hf => hf.elim
  refine Prod.ext (ext_height A.height (fun i hi => i1 i (Or.inr (hc.1 i hi))) fun i hi => ?_) i3
  have hn : ∀ B ∈ L, i ∉ B.dofs := fun B hB hd => absurd (hc.2 B hB i hd) (by omega)
  rw [i2 i hn, j2 i hn, hw i hi]; rfl

/-- the forward step with residual -/
theorem cr_step {A : CSR (Blk k)} (hA : A.WF) (hs : Symm A) (hsym : ∀ i j, (A.entry i j)ᵀ = A.entry i j) {L : List (LBlock k)} (h : NOBlocks A L)
    (hc : Covers A.height L) (b : BVec k) (s : BVec k × BVec k) :
    let s' := L.foldl (fun s B => B.saveRows B.low b s) s
    s'.1 = L.foldl (fun x B => B.upd b x) s.1 ∧ ∀ i < A.height, s'.2 i = (b - multRow A s'.1) i := by
  intro s'
  obtain ⟨x, r⟩ := s
  obtain ⟨i1, i2⟩ := saveLow_fold hA hs hsym h (fun B hB d hd => hs.1 ▸ hc.2 B hB d hd) (fun _ => False) (fun _ hf => hf.elim) b x r fun _ hf => hf.elim
  refine ⟨i1, fun i hi => ?_⟩
  rw [i2 i (Or.inr (hc.1 i hi)), show s'.1 = _ from i1]

theorem cr_first {A : CSR (Blk k)} (hA : A.WF) (hs : Symm A) {L : List (LBlock k)} (h : NOBlocks A L) (hc : Covers A.height L) (b w r : BVec k)
    (hw : ∀ i, A.height ≤ i → w i = 0) : L.foldl (fun s B => B.fwZigSaveU b s) (w, r) = L.foldl (fun s B => B.saveRows B.low b s) (0, r) := by
  have hz : ∀ B ∈ L, (∀ d ∈ B.dofs, (0 : BVec k) d = 0) ∧ ∀ j, ∀ e ∈ B.up j, (0 : BVec k) e.1 = 0 := fun _ _ => ⟨fun _ _ => rfl, fun _ _ _ => rfl⟩
  obtain ⟨i1, i2, i3⟩ := zigSaveU_fold h _ (cov_full hA hs h hc) b w 0 r (fun _ hf => hf.elim) hz
  refine Prod.ext (ext_height A.height (fun i hi => i1 i (Or.inr (hc.1 i hi))) fun i hi => ?_) i3
  have hn : ∀ B ∈ L, i ∉ B.dofs := fun B hB hd => absurd (hc.2 B hB i hd) (by omega)
  rw [i2 i hn, hw i hi]
  have : ∀ (M : List (LBlock k)) (s : BVec k × BVec k), (∀ B ∈ M, B.Repr A ∧ i ∉ B.dofs) → (M.foldl (fun s B => B.saveRows B.low b s) s).1 i = s.1 i := by
    intro M
    induction M with
    | nil => intro s _; rfl
    | cons B M ih =>
      intro s hM
      rw [List.foldl_cons, ih _ fun C hC => hM C (List.mem_cons_of_mem _ hC)]
      exact setAt_outside (hM B List.mem_cons_self).1.nodup _ _ (hM B List.mem_cons_self).2
  rw [this L _ fun B hB => ⟨h.repr B hB, hn B hB⟩]; rfl

end NgsAMG.BlkGS
