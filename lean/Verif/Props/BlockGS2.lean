import Verif.Props.BlockGS
import Verif.Props.GaussSeidel4

/-!
# C77: backward sweep, energy
-/

namespace NgsAMG.BlkGS
open Matrix NgsAMG.GS NgsAMG.Spec

variable {k : ℕ}

/-- the part of a vector that belongs to the unknowns `dofs` -/
def restr (dofs : List ℕ) (r : BVec k) : Fin dofs.length × Fin k → ℝ := fun q => r dofs[q.1] q.2

theorem ip_corr (n : ℕ) (B : BBlock k) (hin : ∀ d ∈ B.dofs, d < n) (r v : BVec k) :
    ip n (corrOf B r) v = (B.dinv *ᵥ restr B.dofs r) ⬝ᵥ restr B.dofs v := by
  unfold ip dotProduct
  simp only [corrOf, LinearMap.coe_mk, AddHom.coe_mk, Finset.sum_mul, ite_mul, zero_mul]
  rw [Finset.sum_congr rfl fun j _ => Finset.sum_comm, Finset.sum_comm, Fintype.sum_prod_type]
  refine Finset.sum_congr rfl fun p _ => ?_
  rw [Finset.sum_comm]
  refine Finset.sum_congr rfl fun c _ => ?_
  have hm : B.dofs[p] ∈ Finset.range n := Finset.mem_range.mpr (hin _ (List.getElem_mem _))
  rw [Finset.sum_ite_eq, if_pos hm]
  rfl

theorem corr_selfadj (n : ℕ) (B : BBlock k) (hin : ∀ d ∈ B.dofs, d < n) (hsym : B.dinvᵀ = B.dinv) (u v : BVec k) :
    ip n (corrOf B u) v = ip n u (corrOf B v) := by
  rw [ip_corr n B hin, ip_symm n u, ip_corr n B hin, dotProduct_comm, dotProduct_mulVec, ← mulVec_transpose, hsym]

theorem restr_lin (A : CSR (Blk k)) (hA : A.WF) (B : BBlock k) (hin : ∀ d ∈ B.dofs, d < A.width) (r : BVec k) :
    restr B.dofs (A.lin (corrOf B r)) = diagBlock A.entry B.dofs *ᵥ (B.dinv *ᵥ restr B.dofs r) := by
  funext p
  show multRow A (corrOf B r) B.dofs[p.1] p.2 = _
  rw [multRow_eq A hA]
  unfold mulBlock
  rw [Finset.sum_apply]
  simp only [mulVec, dotProduct, corrOf, LinearMap.coe_mk, AddHom.coe_mk, Finset.mul_sum, mul_ite, mul_zero]
  rw [Finset.sum_congr rfl fun j _ => Finset.sum_comm, Finset.sum_comm, Fintype.sum_prod_type]
  refine Finset.sum_congr rfl fun q _ => ?_
  rw [Finset.sum_comm]
  refine Finset.sum_congr rfl fun c _ => ?_
  have hm : B.dofs[q] ∈ Finset.range A.width := Finset.mem_range.mpr (hin _ (List.getElem_mem _))
  rw [Finset.sum_ite_eq, if_pos hm]
  simp only [diagBlock, restr, Finset.mul_sum]

/-- what the inverse of a block has to satisfy: symmetric, and `⟨M D v, D v⟩ ≤ 2 ⟨v, D v⟩` for the diagonal block `M` -/
def InvOK {ι : Type*} [Fintype ι] (M D : Matrix ι ι ℝ) : Prop := Dᵀ = D ∧ ∀ v, M *ᵥ (D *ᵥ v) ⬝ᵥ (D *ᵥ v) ≤ 2 * (v ⬝ᵥ (D *ᵥ v))

/-- the inverse of a positive definite block -/
theorem invOK_inv {ι : Type*} [Fintype ι] [DecidableEq ι] {M : Matrix ι ι ℝ} (hM : M.PosDef) : InvOK M M⁻¹ := by
  have hdet : IsUnit M.det := (Matrix.isUnit_iff_isUnit_det M).1 hM.isUnit
  have hsym : M⁻¹ᵀ = M⁻¹ := by
    have := hM.isHermitian.inv
    rwa [IsHermitian, conjTranspose_eq_transpose_of_trivial] at this
  refine ⟨hsym, fun v => ?_⟩
  rw [mulVec_mulVec, Matrix.mul_nonsing_inv _ hdet, one_mulVec]
  have hpos : 0 ≤ v ⬝ᵥ (M⁻¹ *ᵥ v) := by
    have h := hM.inv.posSemidef.dotProduct_mulVec_nonneg v
    simpa using h
  linarith

/-- a pseudo inverse `D` of `M` that is positive semidefinite: `D M D = D` -/
theorem invOK_pinv {ι : Type*} [Fintype ι] {M D : Matrix ι ι ℝ} (hsym : Dᵀ = D) (h : D * M * D = D) (hpos : ∀ v, 0 ≤ v ⬝ᵥ (D *ᵥ v)) : InvOK M D := by
  refine ⟨hsym, fun v => ?_⟩
  have h1 : M *ᵥ (D *ᵥ v) ⬝ᵥ (D *ᵥ v) = v ⬝ᵥ (D *ᵥ v) := by
    rw [dotProduct_mulVec, ← mulVec_transpose, hsym, mulVec_mulVec, mulVec_mulVec, h, dotProduct_comm]
  rw [h1]
  have := hpos v
  linarith

theorem sweep_adj (A : CSR (Blk k)) (hA : A.WF) (hs : Symm A) (L : List (BBlock k)) (hin : ∀ B ∈ L, ∀ d ∈ B.dofs, d < A.height)
    (hsym : ∀ B ∈ L, B.dinvᵀ = B.dinv) (b c : BVec k) :
    ip A.width (Sweep.sweep A.lin corrOf L 0 b) c = ip A.width b (Sweep.sweep A.lin corrOf L.reverse 0 c) := by
  induction L generalizing b c with
  | nil => simp [Sweep.sweep_nil, ip]
  | cons B L ih =>
    have hB : B ∈ B :: L := List.mem_cons_self
    have hadj : ∀ u v, ip A.width (corrOf B u) v = ip A.width u (corrOf B v) :=
      corr_selfadj _ B (fun d hd => by rw [← hs.1]; exact hin B hB d hd) (hsym B hB)
    have hl := lin_selfadj A hA hs
    rw [Sweep.sweep_cons_zero, List.reverse_cons, Sweep.sweep_snoc, Sweep.corr]
    have e1 : ∀ u v w : BVec k, ip A.width (u + v) w = ip A.width u w + ip A.width v w := fun u v w => (ipForm A.width).add_left u v w
    have e2 : ∀ u v w : BVec k, ip A.width u (v + w) = ip A.width u v + ip A.width u w := fun u v w => (ipForm A.width).add_right u v w
    have e3 : ∀ u v w : BVec k, ip A.width (u - v) w = ip A.width u w - ip A.width v w := fun u v w => (ipForm A.width).sub_left u v w
    have e4 : ∀ u v w : BVec k, ip A.width u (v - w) = ip A.width u v - ip A.width u w := fun u v w => (ipForm A.width).sub_right u v w
    rw [e1, e2, ih (fun B' h => hin B' (List.mem_cons_of_mem _ h)) (fun B' h => hsym B' (List.mem_cons_of_mem _ h)), e3, map_sub, e4, hadj b c, hl, hadj b]
    ring

/-- **C77 (adjoint).** The backward sweep is the adjoint of the forward sweep (symmetric inverses, blocks may overlap). -/
theorem smoothBack_adjoint (S : BSm k) (hA : S.mat.WF) (hs : Symm S.mat) (hn : S.colors = none) (hin : ∀ B ∈ S.blocks, ∀ d ∈ B.dofs, d < S.mat.height)
    (hsym : ∀ B ∈ S.blocks, B.dinvᵀ = B.dinv) (steps : ℕ) (b c : BVec k) :
    ip S.mat.width (smoothImpl S steps false 0 b) c = ip S.mat.width b (smoothImpl S steps true 0 c) := by
  have horder : order S true = (order S false).reverse := by unfold order; rw [hn]; simp
  unfold smoothImpl
  rw [times_fold, times_fold, foldl_sweep, foldl_sweep, horder]
  have hrev : (List.replicate steps (order S false).reverse).flatten = ((List.replicate steps (order S false)).flatten).reverse := by
    rw [List.reverse_flatten, List.map_replicate, List.reverse_replicate]
  rw [hrev]
  have hmem : ∀ B ∈ (List.replicate steps (order S false)).flatten, B ∈ S.blocks := by
    intro B hB
    obtain ⟨l, hl, hB⟩ := List.mem_flatten.mp hB
    rw [List.eq_of_mem_replicate hl] at hB
    unfold order at hB; rw [hn] at hB; simpa using hB
  exact sweep_adj S.mat hA hs _ (fun B hB => hin B (hmem B hB)) (fun B hB => hsym B (hmem B hB)) b c

/-- **C77 (energy).** A sweep (either direction) does not increase the energy of the error, if the inverses fit to the blocks. -/
theorem smooth_energy (S : BSm k) (hA : S.mat.WF) (hs : Symm S.mat) (rev : Bool) (hin : ∀ B ∈ order S rev, ∀ d ∈ B.dofs, d < S.mat.height)
    (hd : ∀ B ∈ order S rev, InvOK (diagBlock S.mat.entry B.dofs) B.dinv) (steps : ℕ) (x xs : BVec k) :
    energy S.mat.width S.mat.entry (xs - smoothImpl S steps rev x (mulBlock S.mat.width S.mat.entry xs)) ≤ energy S.mat.width S.mat.entry (xs - x) := by
  unfold smoothImpl
  rw [times_fold, foldl_sweep, ← multRow_eq _ hA]
  have h := Sweep.sweep_energy (A := S.mat.lin) (P := corrOf) (ipForm S.mat.width) (fun u v => lin_selfadj S.mat hA hs u v) (fun u v => ip_symm _ u v)
    (List.replicate steps (order S rev)).flatten ?_ x xs
  · have e : ∀ u : BVec k, energy S.mat.width S.mat.entry u = ip S.mat.width (S.mat.lin u) u := by
      intro u; unfold energy; rw [← multRow_eq _ hA]; rfl
    rw [e, e]
    exact h
  · intro B hB r
    obtain ⟨l, hl, hB⟩ := List.mem_flatten.mp hB
    rw [List.eq_of_mem_replicate hl] at hB
    have hw : ∀ d ∈ B.dofs, d < S.mat.width := fun d hd => by rw [← hs.1]; exact hin B hB d hd
    show ip _ (S.mat.lin (corrOf B r)) (corrOf B r) ≤ 2 * ip _ r (corrOf B r)
    rw [ip_symm _ (S.mat.lin _), ip_corr _ B hw, restr_lin _ hA B hw, ip_symm _ r, ip_corr _ B hw, dotProduct_comm, dotProduct_comm _ (restr B.dofs r)]
    exact (hd B hB).2 _

/-- the matrix is symmetric positive definite: the energy of every vector that is not zero is positive -/
def SPD (n : ℕ) (A : ℕ → ℕ → Blk k) : Prop := ∀ u : BVec k, (∃ i < n, u i ≠ 0) → 0 < energy n A u

theorem restr_embed {dofs : List ℕ} (hn : dofs.Nodup) (v : Fin dofs.length × Fin k → ℝ) : restr dofs (addAt dofs v 0) = v := by
  funext q
  show addAt dofs v 0 dofs[q.1] q.2 = v q
  rw [addAt_self hn]
  simp

/-- the diagonal blocks of a symmetric positive definite matrix are positive definite -/
theorem posDef_block (A : CSR (Blk k)) (hA : A.WF) (hs : Symm A) (hp : SPD A.width A.entry) {dofs : List ℕ} (hn : dofs.Nodup) (hin : ∀ d ∈ dofs, d < A.width) :
    (diagBlock A.entry dofs).PosDef := by
  refine Matrix.PosDef.of_dotProduct_mulVec_pos ?_ ?_
  · rw [IsHermitian, conjTranspose_eq_transpose_of_trivial]
    funext p q
    show A.entry dofs[q.1] dofs[p.1] q.2 p.2 = A.entry dofs[p.1] dofs[q.1] p.2 q.2
    rw [hs.2 dofs[q.1] dofs[p.1]]; rfl
  · intro v hv
    let B : BBlock k := ⟨dofs, 1⟩
    have h1 : restr dofs (addAt dofs v 0) = v := restr_embed hn v
    have h2 := restr_lin A hA B hin (addAt dofs v 0)
    have h3 := ip_corr A.width B hin (addAt dofs v 0) (A.lin (corrOf B (addAt dofs v 0)))
    have h4 : corrOf B (addAt dofs v 0) = addAt dofs v 0 := by
      have := addAt_corr B (addAt dofs v 0) 0
      rw [zero_add] at this
      rw [← this]
      show addAt dofs ((1 : Matrix _ _ ℝ) *ᵥ restr dofs (addAt dofs v 0)) 0 = _
      rw [h1, one_mulVec]
    have h5 : 0 < energy A.width A.entry (addAt dofs v 0) := by
      apply hp
      obtain ⟨q, hq⟩ := Function.ne_iff.mp hv
      refine ⟨dofs[q.1], hin _ (List.getElem_mem _), fun h => hq ?_⟩
      rw [← h1]
      show addAt dofs v 0 dofs[q.1] q.2 = 0
      rw [h]; rfl
    rw [h2, h4] at h3
    have h6 : energy A.width A.entry (addAt dofs v 0) = ip A.width (addAt dofs v 0) (A.lin (addAt dofs v 0)) := by
      unfold energy; rw [← multRow_eq _ hA, ip_symm]; rfl
    rw [h6, h3] at h5
    have h7 : restr B.dofs (addAt dofs v 0) = v := h1
    rw [h7] at h5
    simp only [B, one_mulVec] at h5
    simpa using h5

/-- **C77 (energy, exact inverses).** For a symmetric positive definite matrix and `CalcInverse`, whatever the blocks are. -/
theorem smooth_energy_spd (S : BSm k) (hA : S.mat.WF) (hs : Symm S.mat) (hp : SPD S.mat.width S.mat.entry) (rev : Bool)
    (hin : ∀ B ∈ order S rev, B.dofs.Nodup ∧ ∀ d ∈ B.dofs, d < S.mat.height) (hd : ∀ B ∈ order S rev, B.dinv = (diagBlock S.mat.entry B.dofs)⁻¹)
    (steps : ℕ) (x xs : BVec k) :
    energy S.mat.width S.mat.entry (xs - smoothImpl S steps rev x (mulBlock S.mat.width S.mat.entry xs)) ≤ energy S.mat.width S.mat.entry (xs - x) := by
  refine smooth_energy S hA hs rev (fun B hB => (hin B hB).2) (fun B hB => ?_) steps x xs
  rw [hd B hB]
  exact invOK_inv (posDef_block S.mat hA hs hp (hin B hB).1 fun d hd => by rw [← hs.1]; exact (hin B hB).2 d hd)

/-- one correction with the exact inverse: the energy goes down, or nothing happens because the residual of the block is zero -/
theorem corr_strict (A : CSR (Blk k)) (hA : A.WF) (hs : Symm A) (hp : SPD A.width A.entry) (B : BBlock k) (hn : B.dofs.Nodup) (hin : ∀ d ∈ B.dofs, d < A.width)
    (hd : B.dinv = (diagBlock A.entry B.dofs)⁻¹) (x xs : BVec k) :
    (restr B.dofs (A.lin (xs - x)) = 0 ∧ Sweep.corr A.lin (corrOf B) x (A.lin xs) = x) ∨
      ip A.width (A.lin (xs - Sweep.corr A.lin (corrOf B) x (A.lin xs))) (xs - Sweep.corr A.lin (corrOf B) x (A.lin xs)) < ip A.width (A.lin (xs - x)) (xs - x) := by
  have hpd := posDef_block A hA hs hp hn hin
  have hdet : IsUnit (diagBlock A.entry B.dofs).det := (Matrix.isUnit_iff_isUnit_det _).1 hpd.isUnit
  set e := xs - x with he
  set v := restr B.dofs (A.lin e) with hv
  by_cases h0 : v = 0
  · left
    refine ⟨h0, ?_⟩
    unfold Sweep.corr
    have h1 : A.lin xs - A.lin x = A.lin e := by rw [he, map_sub]
    rw [h1]
    have h2 : corrOf B (A.lin e) = 0 := by
      have := addAt_corr B (A.lin e) 0
      rw [zero_add] at this
      rw [← this]
      show addAt B.dofs (B.dinv *ᵥ v) 0 = 0
      rw [h0, mulVec_zero]
      funext j c
      rw [addAt_apply]; simp
    rw [h2, add_zero]
  · right
    have h1 : xs - Sweep.corr A.lin (corrOf B) x (A.lin xs) = e - corrOf B (A.lin e) := by
      simp only [Sweep.corr, he, map_sub]; abel
    rw [h1]
    have e3 : ∀ u v w : BVec k, ip A.width (u - v) w = ip A.width u w - ip A.width v w := fun u v w => (ipForm A.width).sub_left u v w
    have e4 : ∀ u v w : BVec k, ip A.width u (v - w) = ip A.width u v - ip A.width u w := fun u v w => (ipForm A.width).sub_right u v w
    clear_value e
    rw [map_sub, e3, e4 (A.lin e) e, e4 (A.lin (corrOf B (A.lin e))) e]
    have h2 : ip A.width (A.lin e) (corrOf B (A.lin e)) = (B.dinv *ᵥ v) ⬝ᵥ v := by rw [ip_symm, ip_corr _ B hin]
    have h3 : ip A.width (A.lin (corrOf B (A.lin e))) e = (B.dinv *ᵥ v) ⬝ᵥ v := by rw [lin_selfadj A hA hs, ip_corr _ B hin]
    have h4 : ip A.width (A.lin (corrOf B (A.lin e))) (corrOf B (A.lin e)) = (B.dinv *ᵥ v) ⬝ᵥ v := by
      rw [ip_symm, ip_corr _ B hin, restr_lin A hA B hin, hd, ← hv, mulVec_mulVec _ (diagBlock A.entry B.dofs), Matrix.mul_nonsing_inv _ hdet, one_mulVec]
    rw [h2, h3, h4]
    have h5 : 0 < (B.dinv *ᵥ v) ⬝ᵥ v := by
      rw [hd, dotProduct_comm]
      have := hpd.inv.dotProduct_mulVec_pos h0
      simpa using this
    linarith

theorem sweep_strict (A : CSR (Blk k)) (hA : A.WF) (hs : Symm A) (hp : SPD A.width A.entry) (L : List (BBlock k))
    (hin : ∀ B ∈ L, B.dofs.Nodup ∧ ∀ d ∈ B.dofs, d < A.width) (hd : ∀ B ∈ L, B.dinv = (diagBlock A.entry B.dofs)⁻¹) (x xs : BVec k) :
    ((∀ B ∈ L, restr B.dofs (A.lin (xs - x)) = 0) ∧ Sweep.sweep A.lin corrOf L x (A.lin xs) = x) ∨
      ip A.width (A.lin (xs - Sweep.sweep A.lin corrOf L x (A.lin xs))) (xs - Sweep.sweep A.lin corrOf L x (A.lin xs)) < ip A.width (A.lin (xs - x)) (xs - x) := by
  induction L generalizing x with
  | nil => left; exact ⟨by simp, rfl⟩
  | cons B L ih =>
    rw [Sweep.sweep_cons]
    have h1 := corr_strict A hA hs hp B (hin B List.mem_cons_self).1 (hin B List.mem_cons_self).2 (hd B List.mem_cons_self) x xs
    have h2 := ih (fun B' h => hin B' (List.mem_cons_of_mem _ h)) (fun B' h => hd B' (List.mem_cons_of_mem _ h)) (Sweep.corr A.lin (corrOf B) x (A.lin xs))
    rcases h1 with ⟨h1, h1'⟩ | h1
    · rw [h1'] at h2 ⊢
      rcases h2 with ⟨h2, h2'⟩ | h2
      · left
        refine ⟨fun B' hB' => ?_, h2'⟩
        rcases List.mem_cons.mp hB' with rfl | h
        · exact h1
        · exact h2 B' h
      · exact Or.inr h2
    · right
      rcases h2 with ⟨-, h2⟩ | h2
      · rw [h2]; exact h1
      · exact h2.trans h1

/-- **C77 (strict decrease).** If in addition every unknown is in a block, the energy of the error becomes strictly smaller, unless the error is zero. -/
theorem smooth_energy_lt (S : BSm k) (hA : S.mat.WF) (hs : Symm S.mat) (hp : SPD S.mat.width S.mat.entry) (rev : Bool)
    (hin : ∀ B ∈ order S rev, B.dofs.Nodup ∧ ∀ d ∈ B.dofs, d < S.mat.height) (hd : ∀ B ∈ order S rev, B.dinv = (diagBlock S.mat.entry B.dofs)⁻¹)
    (hcov : ∀ i < S.mat.height, ∃ B ∈ order S rev, i ∈ B.dofs) (x xs : BVec k) (hne : ∃ i < S.mat.width, xs i ≠ x i) :
    energy S.mat.width S.mat.entry (xs - smoothImpl S 1 rev x (mulBlock S.mat.width S.mat.entry xs)) < energy S.mat.width S.mat.entry (xs - x) := by
  have e : ∀ u : BVec k, energy S.mat.width S.mat.entry u = ip S.mat.width (S.mat.lin u) u := by
    intro u; unfold energy; rw [← multRow_eq _ hA]; rfl
  have h := sweep_strict S.mat hA hs hp (order S rev) (fun B hB => ⟨(hin B hB).1, fun d hd => by rw [← hs.1]; exact (hin B hB).2 d hd⟩) hd x xs
  have h1 : smoothImpl S 1 rev x (mulBlock S.mat.width S.mat.entry xs) = Sweep.sweep S.mat.lin corrOf (order S rev) x (S.mat.lin xs) := by
    unfold smoothImpl
    rw [times_fold, foldl_sweep, ← multRow_eq _ hA]
    simp only [List.replicate_one, List.flatten_cons, List.flatten_nil, List.append_nil]
    rfl
  rw [h1, e, e]
  rcases h with ⟨h, -⟩ | h
  · exfalso
    have hz : ∀ i < S.mat.width, S.mat.lin (xs - x) i = 0 := by
      intro i hi
      obtain ⟨B, hB, hi⟩ := hcov i (by rw [hs.1]; exact hi)
      obtain ⟨p, hp', rfl⟩ := List.getElem_of_mem hi
      funext c
      exact congrFun (h B hB) (⟨p, hp'⟩, c)
    have hpos := hp (xs - x) (by
      obtain ⟨i, hi, hne⟩ := hne
      exact ⟨i, hi, by rw [Pi.sub_apply]; exact sub_ne_zero.mpr hne⟩)
    rw [e] at hpos
    unfold ip at hpos
    rw [Finset.sum_eq_zero] at hpos
    · exact lt_irrefl _ hpos
    · intro i hi
      rw [hz i (Finset.mem_range.mp hi), zero_dotProduct]
  · exact h

/-- an example: the matrix of three unknowns on a line -/
def exM : CSR (Blk 1) where
  height := 3
  width := 3
  row i := if i = 0 then [(0, sc 2), (1, sc (-1))] else if i = 1 then [(0, sc (-1)), (1, sc 2), (2, sc (-1))] else if i = 2 then [(1, sc (-1)), (2, sc 2)] else []

theorem exM_wf : exM.WF where
  sorted i := by unfold exM; dsimp only; split_ifs <;> simp
  inRange i e h := by unfold exM at h ⊢; dsimp only at h ⊢; split_ifs at h <;> simp at h <;> rcases h with h | h | h <;> simp_all
  outside i h := by
    have h' : 3 ≤ i := h
    have a : i ≠ 0 := by omega
    have b : i ≠ 1 := by omega
    have c : i ≠ 2 := by omega
    simp [exM, a, b, c]

theorem exM_entry (i j : ℕ) : exM.entry i j =
    if i < 3 ∧ j < 3 then (if i = j then sc 2 else if i = j + 1 ∨ j = i + 1 then sc (-1) else 0) else 0 := by
  unfold CSR.entry exM
  dsimp only
  by_cases h0 : i = 0
  · subst h0
    by_cases a : j = 0
    · subst a; simp
    by_cases b : j = 1
    · subst b; simp
    have a' : ¬ 0 = j := fun h => a h.symm
    have b' : ¬ 1 = j := fun h => b h.symm
    simp [a', b', b]
  by_cases h1 : i = 1
  · subst h1
    by_cases a : j = 0
    · subst a; simp
    by_cases b : j = 1
    · subst b; simp
    by_cases c : j = 2
    · subst c; simp
    have a' : ¬ 0 = j := fun h => a h.symm
    have b' : ¬ 1 = j := fun h => b h.symm
    have c' : ¬ 2 = j := fun h => c h.symm
    have : ¬ j < 3 := by omega
    simp [a', b', c', this]
  by_cases h2 : i = 2
  · subst h2
    by_cases a : j = 1
    · subst a; simp
    by_cases b : j = 2
    · subst b; simp
    have a' : ¬ 1 = j := fun h => a h.symm
    have b' : ¬ 2 = j := fun h => b h.symm
    by_cases c : j < 3
    · have : j = 0 := by omega
      subst this; simp
    · simp [a', b', c]
  · have : ¬ i < 3 := by omega
    simp [h0, h1, h2, this]

theorem exM_symm : Symm exM := by
  refine ⟨rfl, fun i j => ?_⟩
  rw [exM_entry, exM_entry]
  split_ifs <;> first | rfl | omega | simp

theorem exM_spd : SPD exM.width exM.entry := by
  intro u ⟨i, hi, hu⟩
  have h : energy exM.width exM.entry u = u 0 0 ^ 2 + (u 0 0 - u 1 0) ^ 2 + (u 1 0 - u 2 0) ^ 2 + u 2 0 ^ 2 := by
    unfold energy ip mulBlock
    simp only [show exM.width = 3 from rfl, Finset.sum_range_succ, Finset.sum_range_zero, exM_entry]
    simp [sc, mulVec, dotProduct]
    ring
  rw [h]
  by_contra hc
  push Not at hc
  have a0 : u 0 0 = 0 := by nlinarith [sq_nonneg (u 0 0), sq_nonneg (u 0 0 - u 1 0), sq_nonneg (u 1 0 - u 2 0), sq_nonneg (u 2 0)]
  have a2 : u 2 0 = 0 := by nlinarith [sq_nonneg (u 0 0), sq_nonneg (u 0 0 - u 1 0), sq_nonneg (u 1 0 - u 2 0), sq_nonneg (u 2 0)]
  have a1 : u 1 0 = 0 := by nlinarith [sq_nonneg (u 0 0), sq_nonneg (u 0 0 - u 1 0), sq_nonneg (u 1 0 - u 2 0), sq_nonneg (u 2 0)]
  apply hu
  funext c
  fin_cases c
  have hi' : i < 3 := hi
  have : i = 0 ∨ i = 1 ∨ i = 2 := by omega
  rcases this with rfl | rfl | rfl
  · exact a0
  · exact a1
  · exact a2

/-- two overlapping blocks, exact inverses -/
noncomputable def exS : BSm 1 := ⟨exM, [⟨[0, 1], (diagBlock exM.entry [0, 1])⁻¹⟩, ⟨[1, 2], (diagBlock exM.entry [1, 2])⁻¹⟩], none⟩

/-- the example is what the constructor makes (one of the blocks is given in the wrong order) -/
theorem exS_mk (color : List (List ℕ) → ℕ × List ℕ) : mkBSm (fun _ M => M⁻¹) color exM [[1, 0], [1, 2]] false none = some exS := by
  have h1 : [1, 0].insertionSort (· ≤ ·) = [0, 1] := by decide
  have h2 : [1, 2].insertionSort (· ≤ ·) = [1, 2] := by decide
  unfold mkBSm exS
  simp only [List.map_cons, List.map_nil, h1, h2, diagOf_none exM exM_wf]
  rfl

/-- the hypotheses of C77 hold for it -/
example (rev : Bool) (x xs : BVec 1) (h : ∃ i < 3, xs i ≠ x i) : energy 3 exM.entry (xs - smoothImpl exS 1 rev x (mulBlock 3 exM.entry xs)) < energy 3 exM.entry (xs - x) := by
  have hmem : ∀ B ∈ order exS rev, B = exS.blocks[0] ∨ B = exS.blocks[1] := by
    intro B hB
    cases rev <;> simpa [order, exS, or_comm] using hB
  refine smooth_energy_lt exS exM_wf exM_symm exM_spd rev ?_ ?_ ?_ x xs h
  · intro B hB
    rcases hmem B hB with rfl | rfl
    · exact ⟨by simp [exS], by simp [exS, exM]⟩
    · exact ⟨by simp [exS], by simp [exS, exM]⟩
  · intro B hB
    rcases hmem B hB with rfl | rfl <;> rfl
  · intro i hi
    have hi' : i < 3 := hi
    have h0 : exS.blocks[0] ∈ order exS rev := by cases rev <;> simp [order, exS]
    have h1 : exS.blocks[1] ∈ order exS rev := by cases rev <;> simp [order, exS]
    by_cases h2 : i = 2
    · exact ⟨_, h1, by simp [exS, h2]⟩
    · refine ⟨_, h0, ?_⟩
      have : i = 0 ∨ i = 1 := by omega
      simpa [exS] using this

end NgsAMG.BlkGS
