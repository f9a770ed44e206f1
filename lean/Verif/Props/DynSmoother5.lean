import Verif.Props.DynSmoother4

/-! C83: `DynBlockSmoother`. -/

namespace NgsAMG.DynBlock
open Matrix NgsAMG.GS NgsAMG.Spec NgsAMG.BlkGS

theorem classesIn_all (S : DSm) (fr : Option (ℕ → Bool)) : classesIn S fr (List.range S.A.blocks.length) = classesOf S.A fr := by
  rw [classesIn, classesOf]
  congr 1
  refine List.ext_getElem (by simp) fun k h1 h2 => ?_
  have hk : k < S.A.blocks.length := by simpa using h1
  simp [freeNr, List.getElem?_eq_getElem hk]

theorem blockSweep_rhs (n : ℕ) (M : ℕ → ℕ → Blk 1) (L : List (SBlock 1)) (x b b' : BVec 1) (h : ∀ B ∈ L, ∀ i ∈ B.1, b i = b' i) : blockSweep n M L x b = blockSweep n M L x b' := by
  induction L generalizing x with
  | nil => rfl
  | cons B L ih =>
    rw [blockSweep, blockSweep, List.foldl_cons, List.foldl_cons]
    have e : blockRow n M B.1 B.2 b x = blockRow n M B.1 B.2 b' x := by
      funext j c
      simp only [blockRow]
      congr 1
      refine Finset.sum_congr rfl fun p _ => ?_
      split
      · refine Finset.sum_congr rfl fun q _ => ?_
        have := h B List.mem_cons_self B.1[q.1] (List.getElem_mem _)
        simp only [Pi.sub_apply, this]
      · rfl
    rw [e]
    exact ih _ fun B hB => h B (List.mem_cons_of_mem _ hB)

/-- the flags handed to `Smooth` are true statements about the vectors -/
def Flags (A : CSR ℝ) (x b res : ℕ → ℝ) (ru xz : Bool) : Prop :=
  (ru = true → ∀ i < A.height, res i = b i - matVec A x i) ∧ (xz = true → ∀ i < A.width, x i = 0)

/-- a sweep over the classes `Fs` -/
noncomputable def classSweep (A : CSR ℝ) (md : Option (ℕ → ℝ)) (omega : ℝ) (Fs : List (List ℕ)) (back : Bool) (x b : ℕ → ℝ) : BVec 1 :=
  blockSweep A.width (dense A) ((if back then Fs.reverse else Fs).map (dynBlock A md omega)) (up1 x) (up1 b)

/-- **C83.** For a symmetric matrix whose non-empty rows have a diagonal entry, and any conversion to the dynamic block format: whatever the uninitialised buffer holds, the constructor
succeeds if the diagonal blocks are invertible, and `Smooth` (`SmoothBack`) is one forward (backward) sweep of textbook block Gauss-Seidel with damping `omega`. The blocks are the classes of
free rows with the same columns; they and their order depend on the matrix only. If asked for, the residual is `b - A x` afterwards, otherwise it is not touched.
Excluded (see `dynSmooth_empty_undefined`): empty rows when there are no free dofs and a residual is asked for. -/
theorem dynSmooth_correct_partial {inv : SInv} (hinv : Inverts inv) (A : CSR ℝ) (hA : A.WF) (hs : SymmR A) (hd : HasDiag A) (rb cb : Blocking) (hc : Consistent A rb cb)
    (order : List ℕ) (ho : SortedBy A rb order) (md : Option (ℕ → ℝ)) (fr : Option (ℕ → Bool)) (hdet : DetOK A md fr) (omega : ℝ) :
    ∃ D Fs, finalize A rb cb order = some D ∧ RowClasses A (freeB fr) Fs ∧ ∀ dp0, ∃ S, mkDSm inv D md fr omega dp0 = some S ∧
      ∀ (back : Bool) (x b res : ℕ → ℝ) (ru ur xz : Bool), Flags A x b res ru xz → (fr = none → ur = true → ∀ i < A.height, cols A i ≠ []) →
        ∃ x' res', dsmooth S back x b res ru ur xz = some (x', res') ∧ up1 x' = classSweep A md omega Fs back x b ∧
          (ur = true → ∀ i < A.height, res' i = b i - matVec A x' i) ∧ (ur = false → res' = res) := by
  obtain ⟨D, hD, hok⟩ := finalize_ok A hA rb cb hc order ho
  refine ⟨D, classesOf D fr, hD, hok.classes fr, fun dp0 => ?_⟩
  obtain ⟨S, hS, hSD, hobj⟩ := mkDSm_ok hinv hA hd hok md fr hdet omega dp0
  refine ⟨S, hS, ?_⟩
  intro back x b res ru ur xz hfl hemp
  have hids : ∀ k ∈ List.range S.A.blocks.length, k < S.A.blocks.length := fun k hk => List.mem_range.1 hk
  have hcl : classesIn S fr (List.range S.A.blocks.length) = classesOf D fr := by rw [classesIn_all, hSD]
  obtain ⟨x', h1, h2⟩ := itRHS_spec hA hobj (List.range S.A.blocks.length) hids back x b
  rw [hcl] at h2
  have hresid : ∀ (r : ℕ → ℝ), (∀ i < A.height, r i = b i - matVec A x i) → ur = true → ∃ x' res', smoothRes S back (x, r) = some (x', res') ∧
      up1 x' = classSweep A md omega (classesOf D fr) back x b ∧ ∀ i < A.height, res' i = b i - matVec A x' i := by
    intro r hr hur
    obtain ⟨y, g1, g2⟩ := itRes_spec hA hs hobj (List.range S.A.blocks.length) hids (fun h => hemp h hur) back x (fun i => r i + matVec A x i)
    have e : (fun i => r i + matVec A x i - matVec A x i) = r := by funext i; ring
    rw [e] at g1
    have hbb : ∀ i < A.height, r i + matVec A x i = b i := fun i hi => by rw [hr i hi]; ring
    refine ⟨y, _, g1, ?_, ?_⟩
    · rw [g2, hcl]
      refine blockSweep_rhs _ _ _ _ _ _ ?_
      intro B hB i hi
      obtain ⟨F, hF, rfl⟩ := List.mem_map.1 hB
      have hF' : F ∈ classesOf D fr := by
        cases back
        · exact hF
        · exact List.mem_reverse.1 hF
      funext c
      exact hbb i (((hok.classes fr).cover i).1 ⟨F, hF', hi⟩).1
    · intro i hi
      beta_reduce
      rw [hbb i hi]
  rw [dsmooth]
  cases ur with
  | false =>
    refine ⟨x', res, ?_, h2, fun h => (Bool.false_ne_true h).elim, fun _ => rfl⟩
    rw [if_neg (by simp), smoothRHS, h1]
    rfl
  | true =>
    rw [if_pos rfl]
    cases ru with
    | true =>
      obtain ⟨y, r, g1, g2, g3⟩ := hresid res (hfl.1 rfl) rfl
      exact ⟨y, r, g1, g2, fun _ => g3, fun h => (Bool.false_ne_true h.symm).elim⟩
    | false =>
      rw [if_pos (by rfl)]
      cases xz with
      | true =>
        have hx0 := hfl.2 rfl
        obtain ⟨y, r, g1, g2, g3⟩ := hresid b (fun i _ => by
          have : matVec A x i = 0 := Finset.sum_eq_zero fun j hj => by rw [hx0 j (Finset.mem_range.1 hj), mul_zero]
          rw [this, sub_zero]) rfl
        exact ⟨y, r, g1, g2, fun _ => g3, fun h => (Bool.false_ne_true h.symm).elim⟩
      | false =>
        rw [if_pos (by rfl)]
        refine ⟨x', fun i => if i < A.height then b i + -1 * matVec A x' i else b i, ?_, h2, fun _ => ?_, fun h => (Bool.false_ne_true h.symm).elim⟩
        · rw [smoothRHS, h1, Option.bind_some, multAdd, hSD, hok.mult]
          rfl
        · intro i hi
          beta_reduce
          rw [if_pos hi]
          ring

/-- C83: the constructor and the sweeps do not depend on the order in which the unstable sort leaves rows with the same columns, nor on the blockings -/
theorem dynSmooth_order_irrelevant {A : CSR ℝ} {free : ℕ → Bool} {Fs Gs : List (List ℕ)} (hF : RowClasses A free Fs) (hG : RowClasses A free Gs) (md : Option (ℕ → ℝ))
    (omega : ℝ) (back : Bool) (x b : ℕ → ℝ) : classSweep A md omega Fs back x b = classSweep A md omega Gs back x b := by
  rw [rowClasses_unique hF hG]

theorem sym_inv_block {A : CSR ℝ} (hs : SymmR A) (md : Option (ℕ → ℝ)) (omega : ℝ) (F : List ℕ) : (dynBlock A md omega F).2ᵀ = (dynBlock A md omega F).2 := by
  show (omega • (diagBlock (denseMd A md) F)⁻¹)ᵀ = _
  rw [transpose_smul, transpose_nonsing_inv]
  congr 2
  funext p q
  show denseMd A md F[q.1] F[p.1] q.2 p.2 = denseMd A md F[p.1] F[q.1] p.2 q.2
  rw [denseMd_apply, denseMd_apply]
  cases md with
  | none => exact hs.2 _ _
  | some d =>
    simp only [mdE]
    by_cases h : F[q.1] = F[p.1]
    · rw [if_pos h, if_pos h.symm, h]
    · rw [if_neg h, if_neg (Ne.symm h)]
      exact hs.2 _ _

/-- C83: `SmoothBack` is the adjoint of `Smooth` -/
theorem dynSmooth_adjoint {A : CSR ℝ} (hA : A.WF) (hs : SymmR A) {free : ℕ → Bool} {Fs : List (List ℕ)} (hF : RowClasses A free Fs) (md : Option (ℕ → ℝ)) (omega : ℝ) (b c : ℕ → ℝ) :
    ip A.width (classSweep A md omega Fs false 0 b) (up1 c) = ip A.width (up1 b) (classSweep A md omega Fs true 0 c) := by
  have h := blockSweep_adjoint (lift A) (lift_wf hA) (lift_symm hs) (Fs.map (dynBlock A md omega)) (fun B hB => by
    obtain ⟨F, hFm, rfl⟩ := List.mem_map.1 hB
    exact ⟨fun d hd => ((hF.cover d).1 ⟨F, hFm, hd⟩).1, sym_inv_block hs md omega F⟩) (up1 b) (up1 c)
  rw [lift_entry, ← List.map_reverse] at h
  exact h

/-- C83: a vector that solves the system is not changed -/
theorem dynSmooth_fixed {A : CSR ℝ} (md : Option (ℕ → ℝ)) (omega : ℝ) (Fs : List (List ℕ)) (back : Bool) (x : ℕ → ℝ) : classSweep A md omega Fs back x (matVec A x) = up1 x := by
  rw [classSweep, ← mulBlock_up1 A.width A rfl x]
  exact blockSweep_fixed _ _ _ _

/-- C83: unknowns that are not free and unknowns of empty rows are not changed -/
theorem dynSmooth_frame {A : CSR ℝ} {free : ℕ → Bool} {Fs : List (List ℕ)} (hF : RowClasses A free Fs) (md : Option (ℕ → ℝ)) (omega : ℝ) (back : Bool) (x b : ℕ → ℝ) {j : ℕ}
    (hj : ¬ (j < A.height ∧ free j = true ∧ cols A j ≠ [])) : classSweep A md omega Fs back x b j = up1 x j := by
  have hout : ∀ F ∈ (if back then Fs.reverse else Fs), j ∉ F := by
    intro F hFm hjF
    have : F ∈ Fs := by
      cases back
      · exact hFm
      · exact List.mem_reverse.1 hFm
    exact hj ((hF.cover j).1 ⟨F, this, hjF⟩)
  rw [classSweep]
  generalize (if back then Fs.reverse else Fs) = L at hout
  generalize up1 x = v
  induction L generalizing v with
  | nil => rfl
  | cons F L ih =>
    rw [List.map_cons, blockSweep, List.foldl_cons]
    refine (ih (fun G hG => hout G (List.mem_cons_of_mem _ hG)) _).trans ?_
    funext c
    simp only [blockRow]
    rw [Finset.sum_eq_zero, add_zero]
    intro p _
    rw [if_neg]
    intro h
    exact hout F List.mem_cons_self (h ▸ List.getElem_mem _)

theorem invOK_smul {ι : Type*} [Fintype ι] [DecidableEq ι] {M : Matrix ι ι ℝ} (hM : M.PosDef) {w : ℝ} (h0 : 0 ≤ w) (h2 : w ≤ 2) : InvOK M (w • M⁻¹) := by
  have hi := invOK_inv hM
  have hpos : ∀ v : ι → ℝ, 0 ≤ v ⬝ᵥ (M⁻¹ *ᵥ v) := by
    intro v
    have h := hM.inv.posSemidef.dotProduct_mulVec_nonneg v
    simpa using h
  refine ⟨by rw [transpose_smul, hi.1], fun v => ?_⟩
  have hu : IsUnit M.det := by
    have := hM.isUnit
    exact (Matrix.isUnit_iff_isUnit_det M).1 this
  rw [smul_mulVec, mulVec_smul, mulVec_mulVec, Matrix.mul_nonsing_inv _ hu, one_mulVec, smul_dotProduct, dotProduct_smul]
  simp only [smul_eq_mul]
  nlinarith [hpos v, mul_nonneg h0 (hpos v), mul_nonneg (mul_nonneg h0 (sub_nonneg.2 h2)) (hpos v)]

/-- **C83, energy.** For an SPD matrix, without replaced diagonal and with damping between 0 and 2, a sweep in either direction does not increase the energy of the error -/
theorem dynSmooth_energy {A : CSR ℝ} (hA : A.WF) (hs : SymmR A) (hp : SPD A.width (dense A)) {free : ℕ → Bool} {Fs : List (List ℕ)} (hF : RowClasses A free Fs) {omega : ℝ}
    (h0 : 0 ≤ omega) (h2 : omega ≤ 2) (back : Bool) (x xs : ℕ → ℝ) :
    energy A.width (dense A) (up1 xs - classSweep A none omega Fs back x (matVec A xs)) ≤ energy A.width (dense A) (up1 xs - up1 x) := by
  have hp' : SPD (lift A).width (lift A).entry := by rw [lift_entry]; exact hp
  have h := blockSweep_energy (lift A) (lift_wf hA) (lift_symm hs) ((if back then Fs.reverse else Fs).map (dynBlock A none omega)) (fun B hB => by
    obtain ⟨F, hFm, rfl⟩ := List.mem_map.1 hB
    have hFm' : F ∈ Fs := by
      cases back
      · exact hFm
      · exact List.mem_reverse.1 hFm
    have hlt : ∀ d ∈ F, d < A.height := fun d hd => ((hF.cover d).1 ⟨F, hFm', hd⟩).1
    refine ⟨hlt, ?_⟩
    have hn : F.Nodup := by
      obtain ⟨i, hi⟩ := List.exists_mem_of_ne_nil F (hF.cls F hFm').1
      rw [(hF.cls F hFm').2 i hi]
      exact List.Nodup.filter _ List.nodup_range
    have hpd := posDef_block (lift A) (lift_wf hA) (lift_symm hs) hp' hn fun d hd => by
      rw [show (lift A).width = A.height from hs.1.symm]
      exact hlt d hd
    have hinv := invOK_smul hpd h0 h2
    rw [lift_entry] at hinv ⊢
    exact hinv) (up1 x) (up1 xs)
  rw [lift_entry, show (lift A).width = A.width from rfl, mulBlock_up1 A.width A rfl xs] at h
  exact h

theorem detOK_of_spd {A : CSR ℝ} (hA : A.WF) (hs : SymmR A) (hp : SPD A.width (dense A)) (fr : Option (ℕ → Bool)) : DetOK A none fr := by
  intro i _ _ _
  have hp' : SPD (lift A).width (lift A).entry := by rw [lift_entry]; exact hp
  have hn : (classOf A (freeB fr) i).Nodup := List.Nodup.filter _ List.nodup_range
  have hpd := posDef_block (lift A) (lift_wf hA) (lift_symm hs) hp' hn fun d hd => by
    rw [show (lift A).width = A.height from hs.1.symm]
    exact List.mem_range.1 (List.mem_filter.1 hd).1
  rw [lift_entry] at hpd
  exact (Matrix.isUnit_iff_isUnit_det _).1 hpd.isUnit

end NgsAMG.DynBlock
