import Verif.Model.BlockGS
import Verif.Spec.BlockGS
import Verif.Props.GaussSeidel
import Verif.Props.SortedArray

/-!
# C77: the block Gauss-Seidel smoother
-/

namespace NgsAMG.BlkGS
open Matrix NgsAMG.GS NgsAMG.Spec

variable {k : ℕ}

/-- the blocks as the specification has them -/
def BBlock.toSpec (B : BBlock k) : (dofs : List ℕ) × Matrix (Fin dofs.length × Fin k) (Fin dofs.length × Fin k) ℝ := ⟨B.dofs, B.dinv⟩

theorem addAt_aux (dofs : List ℕ) (u : Fin dofs.length × Fin k → ℝ) (l : List (Fin dofs.length)) (x : BVec k) (j : ℕ) (c : Fin k) :
    (l.foldl (fun x j => Function.update x dofs[j] (x dofs[j] + fun c => u (j, c))) x) j c =
      x j c + (l.map fun p => if dofs[p] = j then u (p, c) else 0).sum := by
  induction l generalizing x with
  | nil => simp
  | cons p l ih =>
    rw [List.foldl_cons, ih, List.map_cons, List.sum_cons]
    by_cases h : dofs[p] = j
    · subst h
      rw [Function.update_self, if_pos rfl]
      simp only [Pi.add_apply]
      ring
    · rw [Function.update_of_ne (fun e => h e.symm), if_neg h]; ring

theorem addAt_apply (dofs : List ℕ) (u : Fin dofs.length × Fin k → ℝ) (x : BVec k) (j : ℕ) (c : Fin k) :
    addAt dofs u x j c = x j c + ∑ p : Fin dofs.length, if dofs[p] = j then u (p, c) else 0 := by
  unfold addAt
  rw [addAt_aux, Fin.sum_univ_def]

theorem addAt_outside (dofs : List ℕ) (u : Fin dofs.length × Fin k → ℝ) (x : BVec k) {j : ℕ} (hj : j ∉ dofs) : addAt dofs u x j = x j := by
  funext c
  rw [addAt_apply, Finset.sum_eq_zero, add_zero]
  intro p _
  rw [if_neg]
  rintro rfl
  exact hj (List.getElem_mem _)

theorem addAt_self {dofs : List ℕ} (hn : dofs.Nodup) (u : Fin dofs.length × Fin k → ℝ) (x : BVec k) (p : Fin dofs.length) :
    addAt dofs u x dofs[p] = x dofs[p] + fun c => u (p, c) := by
  funext c
  rw [addAt_apply, Finset.sum_eq_single p]
  · simp
  · intro q _ hq
    rw [if_neg]
    intro h
    exact hq (Fin.ext ((List.Nodup.getElem_inj_iff hn).mp h))
  · intro h; exact absurd (Finset.mem_univ p) h

/-- the correction of a block as a linear map -/
noncomputable def corrOf (B : BBlock k) : BVec k →ₗ[ℝ] BVec k where
  toFun r := fun j c => ∑ p : Fin B.dofs.length, if B.dofs[p] = j then (B.dinv *ᵥ fun q => r B.dofs[q.1] q.2) (p, c) else 0
  map_add' r s := by
    funext j c
    simp only [Pi.add_apply, ← Finset.sum_add_distrib]
    refine Finset.sum_congr rfl fun p _ => ?_
    split
    · rw [show (fun q : Fin B.dofs.length × Fin k => r B.dofs[q.1] q.2 + s B.dofs[q.1] q.2) =
        (fun q => r B.dofs[q.1] q.2) + fun q => s B.dofs[q.1] q.2 from rfl, mulVec_add]; rfl
    · simp
  map_smul' a r := by
    funext j c
    simp only [Pi.smul_apply, RingHom.id_apply, smul_eq_mul, Finset.mul_sum]
    refine Finset.sum_congr rfl fun p _ => ?_
    split
    · rw [show (fun q : Fin B.dofs.length × Fin k => a * r B.dofs[q.1] q.2) = a • (fun q => r B.dofs[q.1] q.2) from rfl, mulVec_smul]; rfl
    · simp

theorem addAt_corr (B : BBlock k) (r x : BVec k) : addAt B.dofs (B.dinv *ᵥ fun q => r B.dofs[q.1] q.2) x = x + corrOf B r := by
  funext j c
  rw [addAt_apply]; rfl

theorem stepRHS_corr (A : CSR (Blk k)) (b x : BVec k) (B : BBlock k) : stepRHS A b x B = Sweep.corr A.lin (corrOf B) x b := by
  unfold stepRHS hupRHS Sweep.corr
  rw [← addAt_corr]; rfl

theorem stepRHS_spec (A : CSR (Blk k)) (hA : A.WF) (b x : BVec k) (B : BBlock k) : stepRHS A b x B = blockRow A.width A.entry B.dofs B.dinv b x := by
  funext j c
  rw [stepRHS, addAt_apply, blockRow]
  congr 1
  refine Finset.sum_congr rfl fun p _ => ?_
  split
  · unfold hupRHS
    rw [← multRow_eq A hA]
    rfl
  · rfl

theorem foldl_sweep (A : CSR (Blk k)) (L : List (BBlock k)) (x b : BVec k) : L.foldl (stepRHS A b) x = Sweep.sweep A.lin corrOf L x b := by
  unfold Sweep.sweep
  congr 1
  funext x B
  exact stepRHS_corr A b x B

theorem foldl_spec (A : CSR (Blk k)) (hA : A.WF) (L : List (BBlock k)) (x b : BVec k) :
    L.foldl (stepRHS A b) x = blockSweep A.width A.entry (L.map BBlock.toSpec) x b := by
  unfold blockSweep
  rw [List.foldl_map]
  congr 1
  funext x B
  exact stepRHS_spec A hA b x B

theorem addRows_apply (A : CSR (Blk k)) (dofs : List ℕ) (u : Fin dofs.length × Fin k → ℝ) (l : List (Fin dofs.length)) (r : BVec k) (j : ℕ) :
    (l.foldl (fun r j => addRowTransToVector A dofs[j] (fun c => -u (j, c)) r) r) j =
      r j - (l.map fun p => (A.entry dofs[p] j)ᵀ *ᵥ fun c => u (p, c)).sum := by
  induction l generalizing r with
  | nil => simp
  | cons p l ih =>
    rw [List.foldl_cons, ih, CSR.addRowTrans_apply, List.map_cons, List.sum_cons]
    rw [show (fun c => -u (p, c)) = -(fun c => u (p, c)) from rfl, mulVec_neg]
    abel

/-- the step with residual keeps `res = b - A x` -/
theorem stepRES_spec (A : CSR (Blk k)) (hA : A.WF) (hs : Symm A) (b x : BVec k) (B : BBlock k) (hin : ∀ d ∈ B.dofs, d < A.height) :
    stepRES A (x, b - multRow A x) B = (stepRHS A b x B, b - multRow A (stepRHS A b x B)) := by
  have h1 : (B.dinv *ᵥ fun p => (b - multRow A x) B.dofs[p.1] p.2) = hupRHS A b x B := rfl
  unfold stepRES
  simp only
  rw [h1]
  refine Prod.ext rfl ?_
  dsimp only
  funext j
  rw [addRows_apply, ← Fin.sum_univ_def]
  have h2 : stepRHS A b x B = x + fun j c => ∑ p : Fin B.dofs.length, if B.dofs[p] = j then hupRHS A b x B (p, c) else 0 := by
    funext j c; rw [stepRHS, addAt_apply]; rfl
  have h3 : multRow A (stepRHS A b x B) = multRow A x + multRow A (fun j c => ∑ p : Fin B.dofs.length, if B.dofs[p] = j then hupRHS A b x B (p, c) else 0) := by
    rw [h2]; exact A.lin.map_add _ _
  rw [h3]
  simp only [Pi.sub_apply, Pi.add_apply]
  rw [← sub_sub]
  congr 1
  rw [multRow_eq A hA]
  unfold mulBlock
  have h4 : ∀ i, A.entry j i *ᵥ (fun c => ∑ p : Fin B.dofs.length, if B.dofs[p] = i then hupRHS A b x B (p, c) else 0) =
      ∑ p : Fin B.dofs.length, if B.dofs[p] = i then A.entry j i *ᵥ (fun c => hupRHS A b x B (p, c)) else 0 := by
    intro i
    rw [show (fun c => ∑ p : Fin B.dofs.length, if B.dofs[p] = i then hupRHS A b x B (p, c) else 0) =
      ∑ p : Fin B.dofs.length, (if B.dofs[p] = i then (fun c => hupRHS A b x B (p, c)) else 0) from ?_]
    · rw [← Matrix.toLin'_apply, map_sum]
      refine Finset.sum_congr rfl fun p _ => ?_
      split
      · rfl
      · simp
    · funext c
      rw [Finset.sum_apply]
      refine Finset.sum_congr rfl fun p _ => ?_
      split <;> rfl
  simp only [h4]
  rw [Finset.sum_comm]
  refine Finset.sum_congr rfl fun p _ => ?_
  rw [Finset.sum_ite_eq, if_pos]
  · rw [hs.2 j]
  · rw [Finset.mem_range, ← hs.1]
    exact hin _ (List.getElem_mem _)

theorem foldl_RES (A : CSR (Blk k)) (hA : A.WF) (hs : Symm A) (L : List (BBlock k)) (hin : ∀ B ∈ L, ∀ d ∈ B.dofs, d < A.height) (b x : BVec k) :
    L.foldl (stepRES A) (x, b - multRow A x) = (L.foldl (stepRHS A b) x, b - multRow A (L.foldl (stepRHS A b) x)) := by
  induction L generalizing x with
  | nil => rfl
  | cons B L ih =>
    rw [List.foldl_cons, stepRES_spec A hA hs b x B (hin B List.mem_cons_self), List.foldl_cons]
    exact ih (fun B' h => hin B' (List.mem_cons_of_mem _ h)) _

/-- what the constructor makes: `blocks` sorted, with the inverses; without shared memory parallelisation -/
theorem mk_blocks {inv : ∀ n : ℕ, Matrix (Fin n × Fin k) (Fin n × Fin k) ℝ → Matrix (Fin n × Fin k) (Fin n × Fin k) ℝ} {color : List (List ℕ) → ℕ × List ℕ}
    {A : CSR (Blk k)} {blocks : List (List ℕ)} {par : Bool} {md : Option (ℕ → Blk k)} {S : BSm k} (h : mkBSm inv color A blocks par md = some S) :
    S.mat = A ∧ S.blocks = (blocks.map fun b => b.insertionSort (· ≤ ·)).map fun dofs => ⟨dofs, inv _ (diagOf A md dofs)⟩ := by
  unfold mkBSm at h
  dsimp only at h
  split at h
  · obtain ⟨e, -, rfl⟩ := Option.map_eq_some_iff.mp h
    exact ⟨rfl, rfl⟩
  · cases h
    exact ⟨rfl, rfl⟩

/-- the sequential smoother is always built -/
theorem mk_seq (inv : ∀ n : ℕ, Matrix (Fin n × Fin k) (Fin n × Fin k) ℝ → Matrix (Fin n × Fin k) (Fin n × Fin k) ℝ) (color : List (List ℕ) → ℕ × List ℕ)
    (A : CSR (Blk k)) (blocks : List (List ℕ)) (md : Option (ℕ → Blk k)) : ∃ S, mkBSm inv color A blocks false md = some S ∧ S.colors = none := by
  exact ⟨_, rfl, rfl⟩

/-- without replaced diagonal, the matrix that is inverted is the diagonal block of `A` -/
theorem diagOf_none (A : CSR (Blk k)) (hA : A.WF) (dofs : List ℕ) : diagOf A none dofs = diagBlock A.entry dofs := by
  funext p q
  simp only [diagOf, diagBlock, CSR.lookup_eq_entry A hA]

/-- with replaced diagonal, only the diagonal entries differ -/
theorem diagOf_some (A : CSR (Blk k)) (hA : A.WF) (d : ℕ → Blk k) (dofs : List ℕ) (hn : dofs.Nodup) :
    diagOf A (some d) dofs = diagBlock (fun i j => if i = j then d i else A.entry i j) dofs := by
  funext p q
  simp only [diagOf, diagBlock, CSR.lookup_eq_entry A hA]
  by_cases h : p.1 = q.1
  · rw [if_pos h, if_pos (by congr 1)]
  · rw [if_neg h, if_neg]
    intro e
    exact h (Fin.ext ((List.Nodup.getElem_inj_iff hn).mp e))

theorem times_sweep {V ι : Type*} [AddCommGroup V] [Module ℝ V] (A : V →ₗ[ℝ] V) (P : ι → V →ₗ[ℝ] V) (L : List ι) (n : ℕ) (x b : V) :
    times (fun x => Sweep.sweep A P L x b) n x = Sweep.sweep A P (List.replicate n L).flatten x b := by
  induction n generalizing x with
  | zero => rfl
  | succ n ih => rw [times, ih, List.replicate_succ, List.flatten_cons, Sweep.sweep_append]

theorem times_fold {σ ι : Type*} (f : σ → ι → σ) (L : List ι) (n : ℕ) (s : σ) :
    times (fun s => L.foldl f s) n s = (List.replicate n L).flatten.foldl f s := by
  induction n generalizing s with
  | zero => rfl
  | succ n ih => rw [times, ih, List.replicate_succ, List.flatten_cons, List.foldl_append]

/-- **C77 (sweep).** `n` steps of the smoother are `n` sweeps of block Gauss-Seidel over the blocks in their order (backwards: in reversed order). -/
theorem smoothImpl_correct (S : BSm k) (hA : S.mat.WF) (steps : ℕ) (rev : Bool) (x b : BVec k) :
    smoothImpl S steps rev x b = blockSweep S.mat.width S.mat.entry ((List.replicate steps (order S rev)).flatten.map BBlock.toSpec) x b := by
  unfold smoothImpl
  rw [times_fold, foldl_spec _ hA]

/-- **C77 (residual version).** The version that updates the residual computes the same iterate, and leaves `res = b - A x`. -/
theorem smoothRES_correct (S : BSm k) (hA : S.mat.WF) (hs : Symm S.mat) (steps : ℕ) (rev : Bool) (hin : ∀ B ∈ order S rev, ∀ d ∈ B.dofs, d < S.mat.height)
    (x b : BVec k) : smoothRES S steps rev x (b - mulBlock S.mat.width S.mat.entry x) =
      (smoothImpl S steps rev x b, b - mulBlock S.mat.width S.mat.entry (smoothImpl S steps rev x b)) := by
  unfold smoothRES smoothImpl
  rw [times_fold, times_fold, ← multRow_eq _ hA, ← multRow_eq _ hA, foldl_RES _ hA hs]
  intro B hB
  obtain ⟨l, hl, hB⟩ := List.mem_flatten.mp hB
  rw [List.eq_of_mem_replicate hl] at hB
  exact hin B hB

/-- **C77 (contract).** With truthful flags, `Smooth` and `SmoothBack` are one sweep, and if asked for they leave `res = b - A x`. -/
theorem smooth_correct (S : BSm k) (hA : S.mat.WF) (hs : Symm S.mat) (back : Bool) (hin : ∀ B ∈ order S back, ∀ d ∈ B.dofs, d < S.mat.height)
    (x b res : BVec k) (ru ur xz : Bool) (ht : Truthful S.mat.width S.mat.entry x b res ru xz) :
    (smooth S back x b res ru ur xz).1 = blockSweep S.mat.width S.mat.entry ((order S back).map BBlock.toSpec) x b ∧
    (ur = true → (smooth S back x b res ru ur xz).2 = b - mulBlock S.mat.width S.mat.entry (smooth S back x b res ru ur xz).1) := by
  have h1 := smoothImpl_correct S hA 1 back x b
  have hl : (List.replicate 1 (order S back)).flatten = order S back := by simp
  rw [hl] at h1
  unfold smooth
  by_cases hur : ur = true
  · have hr : (if ru = true then smoothRES S 1 back x res else smoothRES S 1 back x (calcResiduum S.mat x b xz)) =
        smoothRES S 1 back x (b - mulBlock S.mat.width S.mat.entry x) := by
      split
      · rename_i h; rw [ht.1 h]
      · unfold calcResiduum
        split
        · rename_i h; rw [ht.2 h, ← multRow_eq _ hA, show multRow S.mat 0 = 0 from S.mat.lin.map_zero, sub_zero]
        · rw [multRow_eq _ hA]
    rw [if_pos hur, hr, smoothRES_correct S hA hs 1 back hin]
    exact ⟨h1, fun _ => rfl⟩
  · rw [if_neg hur]
    exact ⟨h1, fun h => absurd h hur⟩

/-- **C77 (frame).** Only unknowns in blocks are changed. -/
theorem smoothImpl_frame (S : BSm k) (steps : ℕ) (rev : Bool) (x b : BVec k) (j : ℕ) (hj : ∀ B ∈ order S rev, j ∉ B.dofs) :
    smoothImpl S steps rev x b j = x j := by
  unfold smoothImpl
  induction steps generalizing x with
  | zero => rfl
  | succ n ih =>
    rw [times, ih]
    clear ih
    generalize order S rev = L at hj
    induction L generalizing x with
    | nil => rfl
    | cons B L ih =>
      rw [List.foldl_cons, ih _ (fun B' h => hj B' (List.mem_cons_of_mem _ h))]
      exact addAt_outside _ _ _ (hj B List.mem_cons_self)

/-- **C77 (fixed point).** -/
theorem smoothImpl_fixed (S : BSm k) (hA : S.mat.WF) (steps : ℕ) (rev : Bool) (x : BVec k) :
    smoothImpl S steps rev x (mulBlock S.mat.width S.mat.entry x) = x := by
  unfold smoothImpl
  rw [times_fold, foldl_sweep, ← multRow_eq _ hA]
  exact Sweep.sweep_fixed _ _

end NgsAMG.BlkGS
