import Verif.Props.AMGPC1
import Verif.Spec.PseudoInverse
import Verif.Spec.JacobiOK

/-! Towards C92: Gauss-Seidel and block Gauss-Seidel objects as sweeps of self-adjoint corrections that do not increase the energy. -/

namespace NgsAMG.PC
open Matrix Sm NgsAMG.GS NgsAMG.Spec Sweep

/-- positive semidefinite -/
def PSD {k : ℕ} (n : ℕ) (A : ℕ → ℕ → Blk k) : Prop := ∀ u, 0 ≤ energy n A u

/-- positive definite on vectors that live on the unknowns `S` -/
def SPDOn {k : ℕ} (n : ℕ) (A : ℕ → ℕ → Blk k) (S : ℕ → Prop) : Prop := ∀ u : BVec k, (∀ i, ¬ S i → u i = 0) → (∃ i < n, u i ≠ 0) → 0 < energy n A u

theorem PInv.invOK {ι : Type*} [Fintype ι] [DecidableEq ι] {M D : Matrix ι ι ℝ} (h : PInv M D) : BlkGS.InvOK M D := BlkGS.invOK_pinv h.symm h.pinv h.pos

theorem PInv.strict {ι : Type*} [Fintype ι] [DecidableEq ι] {M D : Matrix ι ι ℝ} (h : PInv M D) (hM : M.PosDef) {v : ι → ℝ} (hv : v ≠ 0) :
    D *ᵥ v ≠ 0 ∧ M *ᵥ (D *ᵥ v) ⬝ᵥ (D *ᵥ v) < 2 * (v ⬝ᵥ (D *ᵥ v)) := by
  have hD := h.inv hM
  have hu : M * D = 1 := by rw [hD]; exact Matrix.mul_nonsing_inv _ ((Matrix.isUnit_iff_isUnit_det _).1 hM.isUnit)
  have h1 : M *ᵥ (D *ᵥ v) = v := by rw [mulVec_mulVec, hu, one_mulVec]
  have h2 : D *ᵥ v ≠ 0 := fun h0 => hv (by rw [← h1, h0, mulVec_zero])
  refine ⟨h2, ?_⟩
  rw [h1]
  have : 0 < v ⬝ᵥ (D *ᵥ v) := by
    have := hM.inv.dotProduct_mulVec_pos hv
    rw [← hD] at this
    simpa using this
  linarith

variable {k : ℕ}

/-- the pair of routines of a smoother are sweeps over a list of corrections and over the reversed list; corrections are self-adjoint and do not increase the energy, and a vector that
does not vanish on `S` is seen by one of them if the matrix is positive definite there -/
def IsSweep (full : Bool) (A : CSR (Blk k)) (S : ℕ → Prop) (F G : Step (BVec k)) : Prop :=
  ∃ (ι : Type) (P : ι → BVec k →ₗ[ℝ] BVec k) (L : List ι),
    Contract' full A.lin F (sweep A.lin P L) ∧ Contract' full A.lin G (sweep A.lin P L.reverse) ∧
    (∀ i ∈ L, ∀ u v, ipForm A.width (P i u) v = ipForm A.width u (P i v)) ∧ (∀ i ∈ L, Good (ipForm A.width) A.lin (P i)) ∧
    (SPDOn A.width A.entry S → ∀ b : BVec k, (∃ j < A.width, S j ∧ b j ≠ 0) →
      (∃ i ∈ L, P i b ≠ 0) ∧ ∀ i ∈ L, P i b = 0 ∨ ipForm A.width (A.lin (P i b)) (P i b) < 2 * ipForm A.width b (P i b))

theorem IsSweep.proxy {full : Bool} {A : CSR (Blk k)} {S : ℕ → Prop} {F G : Step (BVec k)} (h : IsSweep full A S F G) (n : ℤ) (symm : Bool) :
    IsSweep full A S (proxySmooth F G n symm) (proxySmoothBack F G n symm) := by
  obtain ⟨ι, P, L, hF, hG, ha, hg, hs⟩ := h
  obtain ⟨L', hm, h1, h2⟩ := proxy_sweep full A.lin P L F G hF hG n symm
  refine ⟨ι, P, L', h1, h2, fun i hi => ha i ((hm i).1 hi), fun i hi => hg i ((hm i).1 hi), fun hp b hb => ?_⟩
  obtain ⟨⟨i, hi, hne⟩, hd⟩ := hs hp b hb
  exact ⟨⟨i, (hm i).2 hi, hne⟩, fun i hi => hd i ((hm i).1 hi)⟩

/-! ### diagonal blocks -/

theorem psd_block (A : CSR (Blk k)) (hA : A.WF) (hs : Symm A) (hp : PSD A.width A.entry) {dofs : List ℕ} (hn : dofs.Nodup) (hin : ∀ d ∈ dofs, d < A.width) :
    (diagBlock A.entry dofs).PosSemidef := by
  refine Matrix.PosSemidef.of_dotProduct_mulVec_nonneg ?_ ?_
  · rw [IsHermitian, conjTranspose_eq_transpose_of_trivial]
    funext p q
    show A.entry dofs[q.1] dofs[p.1] q.2 p.2 = A.entry dofs[p.1] dofs[q.1] p.2 q.2
    rw [hs.2 dofs[q.1] dofs[p.1]]; rfl
  · intro v
    let B : BlkGS.BBlock k := ⟨dofs, 1⟩
    have h1 : BlkGS.restr dofs (BlkGS.addAt dofs v 0) = v := BlkGS.restr_embed hn v
    have h2 := BlkGS.restr_lin A hA B hin (BlkGS.addAt dofs v 0)
    have h3 := BlkGS.ip_corr A.width B hin (BlkGS.addAt dofs v 0) (A.lin (BlkGS.corrOf B (BlkGS.addAt dofs v 0)))
    have h4 : BlkGS.corrOf B (BlkGS.addAt dofs v 0) = BlkGS.addAt dofs v 0 := by
      have := BlkGS.addAt_corr B (BlkGS.addAt dofs v 0) 0
      rw [zero_add] at this
      rw [← this]
      show BlkGS.addAt dofs ((1 : Matrix _ _ ℝ) *ᵥ BlkGS.restr dofs (BlkGS.addAt dofs v 0)) 0 = _
      rw [h1, one_mulVec]
    have h5 := hp (BlkGS.addAt dofs v 0)
    rw [h2, h4] at h3
    have h6 : energy A.width A.entry (BlkGS.addAt dofs v 0) = ip A.width (BlkGS.addAt dofs v 0) (A.lin (BlkGS.addAt dofs v 0)) := by
      unfold energy; rw [← multRow_eq _ hA, ip_symm]; rfl
    rw [h6, h3] at h5
    have h7 : BlkGS.restr B.dofs (BlkGS.addAt dofs v 0) = v := h1
    rw [h7] at h5
    simp only [B, one_mulVec] at h5
    simpa using h5

theorem posDef_blockOn (A : CSR (Blk k)) (hA : A.WF) (hs : Symm A) {S : ℕ → Prop} (hp : SPDOn A.width A.entry S) {dofs : List ℕ} (hn : dofs.Nodup)
    (hin : ∀ d ∈ dofs, d < A.width ∧ S d) : (diagBlock A.entry dofs).PosDef := by
  refine Matrix.PosDef.of_dotProduct_mulVec_pos ?_ ?_
  · rw [IsHermitian, conjTranspose_eq_transpose_of_trivial]
    funext p q
    show A.entry dofs[q.1] dofs[p.1] q.2 p.2 = A.entry dofs[p.1] dofs[q.1] p.2 q.2
    rw [hs.2 dofs[q.1] dofs[p.1]]; rfl
  · intro v hv
    let B : BlkGS.BBlock k := ⟨dofs, 1⟩
    have hin' : ∀ d ∈ B.dofs, d < A.width := fun d hd => (hin d hd).1
    have h1 : BlkGS.restr dofs (BlkGS.addAt dofs v 0) = v := BlkGS.restr_embed hn v
    have h2 := BlkGS.restr_lin A hA B hin' (BlkGS.addAt dofs v 0)
    have h3 := BlkGS.ip_corr A.width B hin' (BlkGS.addAt dofs v 0) (A.lin (BlkGS.corrOf B (BlkGS.addAt dofs v 0)))
    have h4 : BlkGS.corrOf B (BlkGS.addAt dofs v 0) = BlkGS.addAt dofs v 0 := by
      have := BlkGS.addAt_corr B (BlkGS.addAt dofs v 0) 0
      rw [zero_add] at this
      rw [← this]
      show BlkGS.addAt dofs ((1 : Matrix _ _ ℝ) *ᵥ BlkGS.restr dofs (BlkGS.addAt dofs v 0)) 0 = _
      rw [h1, one_mulVec]
    have h5 : 0 < energy A.width A.entry (BlkGS.addAt dofs v 0) := by
      apply hp
      · intro i hi
        have : i ∉ dofs := fun h => hi (hin i h).2
        rw [BlkGS.addAt_outside dofs v 0 this]; rfl
      · obtain ⟨q, hq⟩ := Function.ne_iff.mp hv
        refine ⟨dofs[q.1], hin' _ (List.getElem_mem _), fun h => hq ?_⟩
        rw [← h1]
        show BlkGS.addAt dofs v 0 dofs[q.1] q.2 = 0
        rw [h]; rfl
    rw [h2, h4] at h3
    have h6 : energy A.width A.entry (BlkGS.addAt dofs v 0) = ip A.width (BlkGS.addAt dofs v 0) (A.lin (BlkGS.addAt dofs v 0)) := by
      unfold energy; rw [← multRow_eq _ hA, ip_symm]; rfl
    rw [h6, h3] at h5
    have h7 : BlkGS.restr B.dofs (BlkGS.addAt dofs v 0) = v := h1
    rw [h7] at h5
    simp only [B, one_mulVec] at h5
    simpa using h5

/-- a vector with one entry -/
def single (i : ℕ) (v : Fin k → ℝ) : BVec k := fun j => if j = i then v else 0

theorem energy_single (A : CSR (Blk k)) {i : ℕ} (hi : i < A.width) (v : Fin k → ℝ) : energy A.width A.entry (single i v) = v ⬝ᵥ (A.entry i i *ᵥ v) := by
  unfold energy ip
  rw [Finset.sum_eq_single i]
  · have : mulBlock A.width A.entry (single i v) i = A.entry i i *ᵥ v := by
      unfold mulBlock
      rw [Finset.sum_eq_single i]
      · simp [single]
      · intro j _ hj; simp [single, hj]
      · intro h; exact absurd (Finset.mem_range.2 hi) h
    rw [this]
    simp [single, dotProduct_comm]
  · intro j _ hj; simp [single, hj]
  · intro h; exact absurd (Finset.mem_range.2 hi) h

theorem psd_entry (A : CSR (Blk k)) (hs : Symm A) (hp : PSD A.width A.entry) {i : ℕ} (hi : i < A.width) : (A.entry i i).PosSemidef := by
  refine Matrix.PosSemidef.of_dotProduct_mulVec_nonneg ?_ ?_
  · rw [IsHermitian, conjTranspose_eq_transpose_of_trivial]; exact (hs.2 i i).symm
  · intro v
    have := hp (single i v)
    rw [energy_single A hi] at this
    simpa using this

theorem posDef_entryOn (A : CSR (Blk k)) (hs : Symm A) {S : ℕ → Prop} (hp : SPDOn A.width A.entry S) {i : ℕ} (hi : i < A.width) (hS : S i) : (A.entry i i).PosDef := by
  refine Matrix.PosDef.of_dotProduct_mulVec_pos ?_ ?_
  · rw [IsHermitian, conjTranspose_eq_transpose_of_trivial]; exact (hs.2 i i).symm
  · intro v hv
    have := hp (single i v) (fun j hj => by
      have : j ≠ i := fun h => hj (h ▸ hS)
      simp [single, this]) ⟨i, hi, by simpa [single] using hv⟩
    rw [energy_single A hi] at this
    simpa using this

/-! ### Gauss-Seidel -/

theorem locCorr_forms (A : CSR (Blk k)) (hA : A.WF) (d : ℕ → Blk k) {i : ℕ} (hi : i < A.width) (r : BVec k) :
    ipForm A.width (A.lin (locCorr d i r)) (locCorr d i r) = (A.entry i i *ᵥ (d i *ᵥ r i)) ⬝ᵥ (d i *ᵥ r i) ∧ ipForm A.width r (locCorr d i r) = r i ⬝ᵥ (d i *ᵥ r i) := by
  constructor
  · show ip A.width _ _ = _
    rw [ip, Finset.sum_eq_single i]
    · have : A.lin (locCorr d i r) i = A.entry i i *ᵥ (d i *ᵥ r i) := by
        change rowTimesVector A i _ = _
        rw [CSR.rowTimesVector_dense A hA, Finset.sum_eq_single i]
        · simp [locCorr]
        · intro m _ hm; simp [locCorr, hm]
        · intro h; exact absurd (Finset.mem_range.2 hi) h
      rw [this]; simp [locCorr]
    · intro m _ hm; simp [locCorr, hm]
    · intro h; exact absurd (Finset.mem_range.2 hi) h
  · show ip A.width _ _ = _
    rw [ip, Finset.sum_eq_single i]
    · simp [locCorr]
    · intro m _ hm; simp [locCorr, hm]
    · intro h; exact absurd (Finset.mem_range.2 hi) h

theorem gs_sweep (inv : Blk k → Blk k) (A : CSR (Blk k)) (hA : A.WF) (hs : Symm A) (free : Option (ℕ → Bool))
    (hinv : ∀ i < A.height, isFree free i = true → PInv (A.entry i i) (inv (A.entry i i))) :
    IsSweep true A (fun i => isFree free i = true) ((GSS3.mk' inv A none free).smooth false) ((GSS3.mk' inv A none free).smooth true) := by
  obtain ⟨d, hd⟩ : ∃ d : ℕ → Blk k, d = fun i => if isFree free i then inv (A.entry i i) else 0 := ⟨_, rfl⟩
  obtain ⟨L, hL⟩ : ∃ L, L = freeRows A.height 0 A.height (fun i => isFree free i = true) := ⟨_, rfl⟩
  have hmem : ∀ i, i ∈ L ↔ i < A.height ∧ isFree free i = true := by
    intro i
    rw [hL]
    simp [freeRows]
  have hdi : ∀ i ∈ L, i < A.width ∧ PInv (A.entry i i) (d i) := by
    intro i hi
    obtain ⟨h1, h2⟩ := (hmem i).1 hi
    refine ⟨hs.1 ▸ h1, ?_⟩
    have := hinv i h1 h2
    rw [hd]; simp only [h2, if_true]; exact this
  have hc : ∀ bw, Contract' true A.lin ((GSS3.mk' inv A none free).smooth bw) (sweep A.lin (locCorr d) (if bw then L.reverse else L)) := by
    intro bw x b res ru ur xz ht _
    have hlin : ∀ x, A.lin x = mulBlock A.width A.entry x := fun x => multRow_eq A hA x
    have := smooth_contract inv A hA hs none free x b res bw ru ur xz ⟨fun h => by rw [← hlin]; exact ht.1 h, ht.2⟩
    simp only [Option.map_none, Option.getD_none] at this
    rw [← hL, ← hd, gsSweep_eq A hA, foldl_updateRow] at this
    refine ⟨this.1, fun h => ?_⟩
    rw [this.2 h, this.1, hlin]
  refine ⟨ℕ, locCorr d, L, hc false, hc true, ?_, ?_, ?_⟩
  · intro i hi u v
    exact locCorr_selfadj A.width d i (hdi i hi).2.symm u v
  · intro i hi r
    obtain ⟨h1, h2⟩ := hdi i hi
    obtain ⟨e1, e2⟩ := locCorr_forms A hA d h1 r
    rw [e1, e2]
    exact (PInv.invOK h2).2 (r i)
  · intro hp b hb
    have hz : ∀ i, locCorr d i b = 0 ↔ d i *ᵥ b i = 0 := by
      intro i
      constructor
      · intro h
        have := congrFun h i
        simpa [locCorr] using this
      · intro h
        funext j
        by_cases hj : j = i
        · simp [locCorr, hj, h]
        · simp [locCorr, hj]
    have key : ∀ i ∈ L, b i ≠ 0 → locCorr d i b ≠ 0 ∧ ipForm A.width (A.lin (locCorr d i b)) (locCorr d i b) < 2 * ipForm A.width b (locCorr d i b) := by
      intro i hi hbi
      obtain ⟨h1, h2⟩ := hdi i hi
      obtain ⟨e1, e2⟩ := locCorr_forms A hA d h1 b
      have := PInv.strict h2 (posDef_entryOn A hs hp h1 ((hmem i).1 hi).2) hbi
      rw [e1, e2]
      exact ⟨fun h => this.1 ((hz i).1 h), this.2⟩
    obtain ⟨j, hj, hS, hbj⟩ := hb
    refine ⟨⟨j, (hmem j).2 ⟨hs.1 ▸ hj, hS⟩, (key j ((hmem j).2 ⟨hs.1 ▸ hj, hS⟩) hbj).1⟩, fun i hi => ?_⟩
    by_cases hbi : b i = 0
    · left; rw [hz, hbi, mulVec_zero]
    · right; exact (key i hi hbi).2

/-! ### block Gauss-Seidel -/

theorem smooth2_outside (inv : BlkGS.Inverter k) (A : CSR (Blk k)) (hA : A.WF) (blocks : List (List ℕ)) (hb : ∀ dofs ∈ blocks, dofs.Nodup ∧ ∀ d ∈ dofs, d < A.height)
    {S : BlkGS.LSm k} (hS : BlkGS.mkLSm inv A [blocks] false none = some S) (bw : Bool) (x b res : BVec k) {j : ℕ} (hj : A.height ≤ j) {x' res' : BVec k} {xz : Bool}
    (h : BlkGS.smooth2 S 1 bw false x b res 0 0 false true xz = some (x', res')) : res' j = (b - mulBlock A.width A.entry x') j := by
  obtain ⟨S', hS', hno, hG, hbl⟩ := BlkGS.mkLSm_grouped inv A [blocks] none
  rw [hS] at hS'
  obtain rfl := Option.some.inj hS'
  rw [BlkGS.smooth2, if_neg (by rw [hno]; simp), BlkGS.smoothWO] at h
  simp only [Bool.false_and, Bool.false_eq_true, if_false, if_true, Option.map_eq_some_iff, Prod.mk.injEq] at h
  obtain ⟨y, _, rfl, rfl⟩ := h
  have hfl : ([blocks] : List (List (List ℕ))).flatten = blocks := by simp
  rw [hfl] at hbl
  have hr : ∀ B ∈ S.blocks, B.Repr A := by
    intro B hB
    rw [hbl] at hB
    obtain ⟨dofs, hd, rfl⟩ := List.mem_map.1 hB
    exact BlkGS.setFrom_repr inv A hA none dofs (hb dofs hd).1
  rw [BlkGS.multAddSys_apply hr]
  have h7 : S.mult j = 0 := by
    rw [BlkGS.LSm.mult, hbl, List.countP_map, List.countP_eq_zero]
    intro dofs hd
    have : j ∈ (BlkGS.setFrom inv A none dofs).dofs ↔ j ∈ dofs := List.mem_insertionSort (r := (· ≤ ·))
    simp only [Function.comp_apply, this, decide_eq_true_eq]
    intro h
    have := (hb dofs hd).2 j h
    omega
  rw [h7, Pi.sub_apply, ← multRow_eq A hA]
  have h8 : multRow A y j = 0 := by
    show rowTimesVector A j y = 0
    rw [CSR.rowTimesVector_dense A hA]
    refine Finset.sum_eq_zero fun m _ => ?_
    rw [CSR.entry_outside A hA (Or.inl hj), zero_mulVec]
  rw [h8]; simp

theorem corrOf_forms (A : CSR (Blk k)) (hA : A.WF) (B : BlkGS.BBlock k) (hin : ∀ d ∈ B.dofs, d < A.width) (r : BVec k) :
    ipForm A.width (A.lin (BlkGS.corrOf B r)) (BlkGS.corrOf B r) =
      (diagBlock A.entry B.dofs *ᵥ (B.dinv *ᵥ BlkGS.restr B.dofs r)) ⬝ᵥ (B.dinv *ᵥ BlkGS.restr B.dofs r) ∧
    ipForm A.width r (BlkGS.corrOf B r) = BlkGS.restr B.dofs r ⬝ᵥ (B.dinv *ᵥ BlkGS.restr B.dofs r) := by
  constructor
  · show ip A.width _ _ = _
    rw [ip_symm, BlkGS.ip_corr _ B hin, BlkGS.restr_lin A hA B hin, dotProduct_comm]
  · show ip A.width _ _ = _
    rw [ip_symm, BlkGS.ip_corr _ B hin, dotProduct_comm]

theorem bgs_sweep (inv : BlkGS.Inverter k) (A : CSR (Blk k)) (hA : A.WF) (hs : Symm A) (blocks : List (List ℕ)) (full : Bool)
    (hb : ∀ dofs ∈ blocks, dofs.Nodup ∧ ∀ d ∈ dofs, d < A.height)
    (hfull : full = true → ∀ j < A.height, blocks.countP (j ∈ ·) = 1)
    (hinv : ∀ dofs : List ℕ, dofs.Nodup → (∀ d ∈ dofs, d < A.height) → PInv (diagBlock A.entry dofs) (inv _ (diagBlock A.entry dofs))) :
    ∃ S, BlkGS.mkLSm inv A [blocks] false none = some S ∧
      IsSweep full A (fun i => ∃ dofs ∈ blocks, i ∈ dofs) ((Smoother.bgs S).step false) ((Smoother.bgs S).step true) := by
  obtain ⟨S, hS, hno, hG, hbl⟩ := BlkGS.mkLSm_grouped inv A [blocks] none
  refine ⟨S, hS, ?_⟩
  have hfl : ([blocks] : List (List (List ℕ))).flatten = blocks := by simp
  obtain ⟨L, hL⟩ : ∃ L : List (BlkGS.BBlock k), L = blocks.map fun dofs => ⟨(BlkGS.specBlock inv A none dofs).1, (BlkGS.specBlock inv A none dofs).2⟩ := ⟨_, rfl⟩
  have hLB : ∀ B ∈ L, B.dofs.Nodup ∧ (∀ d ∈ B.dofs, d < A.width ∧ ∃ dofs ∈ blocks, d ∈ dofs) ∧ PInv (diagBlock A.entry B.dofs) B.dinv := by
    intro B hB
    rw [hL] at hB
    obtain ⟨dofs, hd, rfl⟩ := List.mem_map.1 hB
    have hperm := List.perm_insertionSort (· ≤ ·) dofs
    have hn : (dofs.insertionSort (· ≤ ·)).Nodup := hperm.nodup_iff.2 (hb dofs hd).1
    have hin : ∀ d ∈ dofs.insertionSort (· ≤ ·), d < A.height := fun d h => (hb dofs hd).2 d (hperm.mem_iff.1 h)
    refine ⟨hn, fun d h => ⟨hs.1 ▸ hin d h, dofs, hd, hperm.mem_iff.1 h⟩, ?_⟩
    exact hinv _ hn hin
  have hcov : ∀ i, (∃ dofs ∈ blocks, i ∈ dofs) → ∃ B ∈ L, i ∈ B.dofs := by
    rintro i ⟨dofs, hd, hi⟩
    refine ⟨_, by rw [hL]; exact List.mem_map.2 ⟨dofs, hd, rfl⟩, ?_⟩
    exact (List.perm_insertionSort (· ≤ ·) dofs).mem_iff.2 hi
  have hc : ∀ bw, Contract' full A.lin ((Smoother.bgs S).step bw) (sweep A.lin BlkGS.corrOf (if bw then L.reverse else L)) := by
    intro bw x b res ru ur xz ht hfu
    have hlin : ∀ x, A.lin x = mulBlock A.width A.entry x := fun x => multRow_eq A hA x
    obtain ⟨S', hS', res', h1, h2, h3⟩ := BlkGS.smooth2_correct_partial inv A hA hs [blocks] none (by rw [hfl]; exact hb) 1 bw false x b res 0 0 ru ur xz
      ⟨fun h => by rw [← hlin]; exact ht.1 h, ht.2⟩
    rw [hS] at hS'
    obtain rfl := Option.some.inj hS'
    rw [hfl] at h1 h2
    have hx : blockSweep A.width A.entry (List.replicate 1 (BlkGS.sweepOrder (blocks.map (BlkGS.specBlock inv A none)) bw false)).flatten x b =
        sweep A.lin BlkGS.corrOf (if bw then L.reverse else L) x b := by
      rw [BlkGS.blockSweep_sweep A hA]
      congr 1
      rw [hL]
      cases bw <;> simp [BlkGS.sweepOrder, List.map_reverse, Function.comp_def]
    rw [hx] at h1 h2
    show ((BlkGS.smooth2 S 1 bw false x b res 0 0 ru ur xz).getD (x, res)).1 = _ ∧ _
    have hstep : (Smoother.bgs S).step bw x b res ru ur xz = (sweep A.lin BlkGS.corrOf (if bw then L.reverse else L) x b, res') := by
      show (BlkGS.smooth2 S 1 bw false x b res 0 0 ru ur xz).getD (x, res) = _
      rw [h1]; rfl
    rw [hstep, h1]
    refine ⟨rfl, fun hur => ?_⟩
    show res' = _
    rw [hlin]
    have hcase : ru = true ∨ ∀ j < A.height, blocks.countP (j ∈ ·) = 1 := by
      rcases hfu with h | h | h
      · exact Or.inr (hfull h)
      · exact Or.inl h
      · rw [h] at hur; cases hur
    funext j
    by_cases hj : ru = true ∨ j < A.height
    · exact h2 hur hcase j hj
    · push Not at hj
      have hru : ru = false := by simpa using hj.1
      subst hru hur
      exact smooth2_outside inv A hA blocks hb hS bw x b res hj.2 h1
  refine ⟨BlkGS.BBlock k, BlkGS.corrOf, L, hc false, hc true, ?_, ?_, ?_⟩
  · intro B hB u v
    exact BlkGS.corr_selfadj A.width B (fun d hd => ((hLB B hB).2.1 d hd).1) (hLB B hB).2.2.symm u v
  · intro B hB r
    obtain ⟨e1, e2⟩ := corrOf_forms A hA B (fun d hd => ((hLB B hB).2.1 d hd).1) r
    rw [e1, e2]
    exact (PInv.invOK (hLB B hB).2.2).2 _
  · intro hp b hbn
    have key : ∀ B ∈ L, BlkGS.restr B.dofs b ≠ 0 → BlkGS.corrOf B b ≠ 0 ∧
        ipForm A.width (A.lin (BlkGS.corrOf B b)) (BlkGS.corrOf B b) < 2 * ipForm A.width b (BlkGS.corrOf B b) := by
      intro B hB hr
      obtain ⟨h1, h2, h3⟩ := hLB B hB
      have hin : ∀ d ∈ B.dofs, d < A.width := fun d hd => (h2 d hd).1
      obtain ⟨e1, e2⟩ := corrOf_forms A hA B hin b
      obtain ⟨g1, g2⟩ := PInv.strict h3 (posDef_blockOn A hA hs hp h1 h2) hr
      rw [← e1, ← e2] at g2
      refine ⟨fun h => ?_, g2⟩
      rw [h, map_zero] at g2
      have z : ipForm A.width b (0 : BVec k) = 0 := map_zero _
      rw [z] at g2
      simp at g2
    obtain ⟨j, hj, hS', hbj⟩ := hbn
    obtain ⟨B, hB, hjB⟩ := hcov j hS'
    refine ⟨⟨B, hB, (key B hB fun h0 => hbj ?_).1⟩, fun B hB => ?_⟩
    · obtain ⟨p, hp', rfl⟩ := List.getElem_of_mem hjB
      funext c
      exact congrFun h0 (⟨p, hp'⟩, c)
    · by_cases hr : BlkGS.restr B.dofs b = 0
      · left
        have := BlkGS.addAt_corr B b 0
        rw [zero_add] at this
        rw [← this]
        show BlkGS.addAt B.dofs (B.dinv *ᵥ BlkGS.restr B.dofs b) 0 = 0
        rw [hr, mulVec_zero]
        funext j c
        rw [BlkGS.addAt_apply]; simp
      · right; exact (key B hB hr).2

/-! ### Jacobi -/

theorem jacobi_sweep (inv : Blk k → Blk k) (A : CSR (Blk k)) (hA : A.WF) (hs : Symm A) (free : Option (ℕ → Bool))
    (hj : JacobiOK 0.9 A.width A.entry (fun i => isFree free i = true))
    (hinv : ∀ i < A.height, isFree free i = true → PInv (A.entry i i) (inv (A.entry i i))) :
    IsSweep true A (fun i => isFree free i = true) ((Smoother.jacobi A fun i => if isFree free i then inv (A.lookup i i) else 0).step false)
      ((Smoother.jacobi A fun i => if isFree free i then inv (A.lookup i i) else 0).step true) := by
  obtain ⟨d, hd⟩ : ∃ d : ℕ → Blk k, d = fun i => if isFree free i then inv (A.lookup i i) else 0 := ⟨_, rfl⟩
  rw [← hd]
  have hdi : ∀ i < A.width, isFree free i = true → PInv (A.entry i i) (d i) := by
    intro i hi hf
    rw [hd]; simp only [hf, if_true]; rw [CSR.lookup_eq_entry A hA]
    exact hinv i (hs.1 ▸ hi) hf
  have hd0 : ∀ i, ¬ isFree free i = true → d i = 0 := by
    intro i hf
    rw [hd]; simp only [if_neg hf]
  have happ : ∀ (r : BVec k) i, i < A.width → diagLin d A.height r i = d i *ᵥ r i := by
    intro r i hi
    show (if i < A.height then _ else _) = _
    rw [if_pos (hs.1 ▸ hi)]
  have hnull : ∀ (r : BVec k) i, ¬ isFree free i = true → diagLin d A.height r i = 0 := by
    intro r i hf
    show (if i < A.height then _ else _) = _
    rw [hd0 i hf, zero_mulVec]; simp
  have hform : ∀ r : BVec k, ip A.width r (diagLin d A.height r) = ∑ i ∈ Finset.range A.width, diagLin d A.height r i ⬝ᵥ (A.entry i i *ᵥ diagLin d A.height r i) := by
    intro r
    refine Finset.sum_congr rfl fun i hi => ?_
    have hi' := Finset.mem_range.1 hi
    rw [happ r i hi']
    by_cases hf : isFree free i = true
    · have h := hdi i hi' hf
      have e : A.entry i i *ᵥ (d i *ᵥ r i) ⬝ᵥ (d i *ᵥ r i) = r i ⬝ᵥ (d i *ᵥ r i) := by
        rw [dotProduct_mulVec, ← mulVec_transpose, h.symm, mulVec_mulVec, mulVec_mulVec, h.pinv, dotProduct_comm]
      rw [dotProduct_comm (d i *ᵥ r i) (A.entry i i *ᵥ _), e]
    · rw [hd0 i hf, zero_mulVec]; simp
  have hen : ∀ u : BVec k, ip A.width (A.lin u) u = energy A.width A.entry u := by
    intro u; unfold energy; rw [← multRow_eq _ hA]; rfl
  have hz : ∀ u : BVec k, (¬ ∃ i < A.width, u i ≠ 0) → ∀ v : BVec k, ip A.width v u = 0 := by
    intro u hu v
    push Not at hu
    refine Finset.sum_eq_zero fun i hi => ?_
    rw [hu i (Finset.mem_range.1 hi), dotProduct_zero]
  have hsc : ∀ (c e : ℝ) (u v : BVec k), ip A.width (c • u) (e • v) = c * e * ip A.width u v := by
    intro c e u v
    have h1 : ipForm A.width (c • u) (e • v) = c * (e * ipForm A.width u v) := by
      rw [map_smul (ipForm A.width (c • u)), map_smul (ipForm A.width), LinearMap.smul_apply, smul_eq_mul, smul_eq_mul]; ring
    rw [mul_assoc]; exact h1
  have hsc2 : ∀ (e : ℝ) (u v : BVec k), ip A.width u (e • v) = e * ip A.width u v := by
    intro e u v
    have h1 : ipForm A.width u (e • v) = e * ipForm A.width u v := by rw [map_smul, smul_eq_mul]
    exact h1
  have hgood : ∀ r : BVec k, (∃ i < A.width, diagLin d A.height r i ≠ 0) →
      ipForm A.width (A.lin (((0.9 : ℝ) • diagLin d A.height) r)) (((0.9 : ℝ) • diagLin d A.height) r) < 2 * ipForm A.width r (((0.9 : ℝ) • diagLin d A.height) r) := by
    intro r hne
    show ip A.width (A.lin ((0.9 : ℝ) • diagLin d A.height r)) ((0.9 : ℝ) • diagLin d A.height r) < 2 * ip A.width r ((0.9 : ℝ) • diagLin d A.height r)
    rw [map_smul, hsc, hsc2, hform, hen]
    have := hj (diagLin d A.height r) (hnull r) hne
    norm_num at this ⊢
    linarith
  have hc : ∀ back, Contract' true A.lin ((Smoother.jacobi A d).step back) (sweep A.lin (fun _ : Unit => (0.9 : ℝ) • diagLin d A.height) [()]) := by
    intro back
    rw [contract'_true]
    exact richardson_contract A.lin (diagLin d A.height) 0.9
  refine ⟨Unit, fun _ => (0.9 : ℝ) • diagLin d A.height, [()], hc false, hc true, ?_, ?_, ?_⟩
  · intro _ _ u v
    show ip A.width ((0.9 : ℝ) • diagLin d A.height u) v = ip A.width u ((0.9 : ℝ) • diagLin d A.height v)
    unfold ip
    refine Finset.sum_congr rfl fun i hi => ?_
    have hi' := Finset.mem_range.1 hi
    rw [Pi.smul_apply, Pi.smul_apply, happ u i hi', happ v i hi', smul_dotProduct, dotProduct_smul]
    congr 1
    by_cases hf : isFree free i = true
    · rw [dotProduct_mulVec, ← mulVec_transpose, (hdi i hi' hf).symm]
    · rw [hd0 i hf, zero_mulVec, zero_mulVec]; simp
  · intro _ _ r
    by_cases hne : ∃ i < A.width, diagLin d A.height r i ≠ 0
    · exact (hgood r hne).le
    · have h1 := hz _ hne
      show ip A.width (A.lin ((0.9 : ℝ) • diagLin d A.height r)) ((0.9 : ℝ) • diagLin d A.height r) ≤ 2 * ip A.width r ((0.9 : ℝ) • diagLin d A.height r)
      rw [hsc2, hsc2, h1, h1]; simp
  · intro hp b ⟨j, hj', hfj, hbj⟩
    have h := hdi j hj' hfj
    have hst := PInv.strict h (posDef_entryOn A hs hp hj' hfj) hbj
    have hne : ∃ i < A.width, diagLin d A.height b i ≠ 0 := ⟨j, hj', by rw [happ b j hj']; exact hst.1⟩
    refine ⟨⟨(), by simp, fun h0 => ?_⟩, fun _ _ => Or.inr (hgood b hne)⟩
    have := hgood b hne
    rw [show ((0.9 : ℝ) • diagLin d A.height) b = 0 from h0, map_zero] at this
    have z : ipForm A.width b (0 : BVec k) = 0 := map_zero _
    rw [z] at this
    simp at this

end NgsAMG.PC
