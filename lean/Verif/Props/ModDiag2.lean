import Verif.Props.ModDiag
import Mathlib.Algebra.BigOperators.Field

/-! C52: with the modified diagonal a hybrid Gauss-Seidel call does not increase the energy of the error (scalar case). -/

namespace NgsAMG.ModDiag

open NgsAMG.DCC NgsAMG.Hybrid NgsAMG.Exch NgsAMG.GS NgsAMG.HybSm NgsAMG.Spec Matrix

variable {k : ℕ} {P : PD}

/-! ### couplings between processes -/

/-- the couplings of the global operator are bounded by the couplings of the processes -/
theorem couplings_le (A : ℕ → CSR (Blk k)) (g : ℕ) (l : Fin k) :
    (∑ h ∈ allDofs P, if P.owner g = P.owner h then 0 else
      ∑ m, |gop P A g h l m| / (√(gop P A g g l l) * √(gop P A h h m m))) ≤ strength P A g l := by
  have hst : strength P A g l = ∑ h ∈ allDofs P, if P.owner g = P.owner h then 0 else
      ∑ m, (∑ p ∈ Finset.range P.np, ∑ d ∈ Finset.range (P.ndof p), ∑ e ∈ Finset.range (P.ndof p),
        if P.glob p d = g ∧ P.glob p e = h then |(A p).entry d e l m| else 0) / (√(gop P A g g l l) * √(gop P A h h m m)) := by
    have e1 : ∀ h, (if P.owner g = P.owner h then (0 : ℝ) else
      ∑ m, (∑ p ∈ Finset.range P.np, ∑ d ∈ Finset.range (P.ndof p), ∑ e ∈ Finset.range (P.ndof p),
        if P.glob p d = g ∧ P.glob p e = h then |(A p).entry d e l m| else 0) / (√(gop P A g g l l) * √(gop P A h h m m))) =
        ∑ p ∈ Finset.range P.np, ∑ d ∈ Finset.range (P.ndof p), ∑ e ∈ Finset.range (P.ndof p), if P.glob p e = h then
          (if P.glob p d = g ∧ P.owner (P.glob p e) ≠ P.owner g then
      ∑ m, |(A p).entry d e l m| / (√(gop P A g g l l) * √(gop P A (P.glob p e) (P.glob p e) m m)) else 0) else 0 := by
      intro h
      by_cases ho : P.owner g = P.owner h
      · rw [if_pos ho]
        symm
        refine Finset.sum_eq_zero fun p _ => Finset.sum_eq_zero fun d _ => Finset.sum_eq_zero fun e _ => ?_
        by_cases hh : P.glob p e = h
        · rw [if_pos hh, if_neg]; rintro ⟨_, h2⟩; exact h2 (by rw [hh, ho])
        · rw [if_neg hh]
      · rw [if_neg ho]
        simp only [Finset.sum_div]
        rw [Finset.sum_comm]
        apply Finset.sum_congr rfl; intro p _
        rw [Finset.sum_comm]
        apply Finset.sum_congr rfl; intro d _
        rw [Finset.sum_comm]
        apply Finset.sum_congr rfl; intro e _
        by_cases hh : P.glob p e = h
        · subst hh
          by_cases hg : P.glob p d = g
          · simp [hg, Ne.symm ho]
          · simp [hg]
        · simp [hh]
    simp only [e1]
    rw [strength]
    symm
    rw [Finset.sum_comm]
    apply Finset.sum_congr rfl; intro p hp
    rw [Finset.sum_comm]
    apply Finset.sum_congr rfl; intro d hd
    rw [Finset.sum_comm]
    apply Finset.sum_congr rfl; intro e he
    rw [Finset.sum_ite_eq, if_pos (glob_mem (Finset.mem_range.1 hp) (Finset.mem_range.1 he))]
  rw [hst]
  apply Finset.sum_le_sum; intro h _
  by_cases ho : P.owner g = P.owner h
  · rw [if_pos ho, if_pos ho]
  · rw [if_neg ho, if_neg ho]
    apply Finset.sum_le_sum; intro m _
    apply div_le_div_of_nonneg_right _ (mul_nonneg (Real.sqrt_nonneg _) (Real.sqrt_nonneg _))
    rw [gop, Matrix.sum_apply]
    refine (Finset.abs_sum_le_sum_abs _ _).trans (Finset.sum_le_sum fun p _ => ?_)
    rw [Matrix.sum_apply]
    refine (Finset.abs_sum_le_sum_abs _ _).trans (Finset.sum_le_sum fun d _ => ?_)
    rw [Matrix.sum_apply]
    refine (Finset.abs_sum_le_sum_abs _ _).trans (Finset.sum_le_sum fun e _ => ?_)
    by_cases h' : P.glob p d = g ∧ P.glob p e = h
    · rw [if_pos h', if_pos h']
    · rw [if_neg h', if_neg h', Matrix.zero_apply, abs_zero]

theorem cross_le {A : ℕ → CSR (Blk k)} (hA : GSymm P A) (hpos : ∀ g ∈ allDofs P, ∀ l, 0 < gop P A g g l l) (δ : ℕ → Fin k → ℝ) :
    cross P A δ ≤ ∑ g ∈ allDofs P, ∑ l, strength P A g l * (gop P A g g l l * δ g l ^ 2) := by
  -- scaled couplings
  let c : ℕ → ℕ → Fin k → Fin k → ℝ := fun g h l m => |gop P A g h l m| / (√(gop P A g g l l) * √(gop P A h h m m))
  have csymm : ∀ g h l m, c g h l m = c h g m l := by
    intro g h l m
    show |gop P A g h l m| / _ = |gop P A h g m l| / _
    rw [hA g h, Matrix.transpose_apply, mul_comm]
  have cnn : ∀ g h l m, 0 ≤ c g h l m := fun g h l m => div_nonneg (abs_nonneg _) (mul_nonneg (Real.sqrt_nonneg _) (Real.sqrt_nonneg _))
  let q : ℕ → Fin k → ℝ := fun g l => gop P A g g l l * δ g l ^ 2
  have term : ∀ g ∈ allDofs P, ∀ h ∈ allDofs P, δ g ⬝ᵥ gop P A g h *ᵥ δ h ≤ ∑ l, ∑ m, (c g h l m * q g l + c g h l m * q h m) / 2 := by
    intro g hg h hh
    rw [dotProduct]
    apply Finset.sum_le_sum; intro l _
    rw [Matrix.mulVec, dotProduct, Finset.mul_sum]
    apply Finset.sum_le_sum; intro m _
    have p1 := hpos g hg l
    have p2 := hpos h hh m
    set a := √(gop P A g g l l) with ha
    set b := √(gop P A h h m m) with hb
    have a0 : 0 < a := Real.sqrt_pos.2 p1
    have b0 : 0 < b := Real.sqrt_pos.2 p2
    have a2 : gop P A g g l l = a ^ 2 := (Real.sq_sqrt p1.le).symm
    have b2 : gop P A h h m m = b ^ 2 := (Real.sq_sqrt p2.le).symm
    have e1 : gop P A g h l m * (δ g l * δ h m) ≤ |gop P A g h l m| * |δ g l * δ h m| := by
      rw [← abs_mul]; exact le_abs_self _
    have e2 : |gop P A g h l m| * |δ g l * δ h m| = c g h l m * (|a * δ g l| * |b * δ h m|) := by
      show _ = |gop P A g h l m| / (a * b) * _
      rw [abs_mul, abs_mul, abs_mul, abs_of_pos a0, abs_of_pos b0]
      field_simp
    have e3 : |a * δ g l| * |b * δ h m| ≤ (q g l + q h m) / 2 := by
      show _ ≤ (gop P A g g l l * δ g l ^ 2 + gop P A h h m m * δ h m ^ 2) / 2
      rw [a2, b2]
      have := sq_nonneg (|a * δ g l| - |b * δ h m|)
      have s1 := sq_abs (a * δ g l)
      have s2 := sq_abs (b * δ h m)
      nlinarith
    have e4 := mul_le_mul_of_nonneg_left e3 (cnn g h l m)
    calc δ g l * (gop P A g h l m * δ h m) = gop P A g h l m * (δ g l * δ h m) := by ring
      _ ≤ _ := e1
      _ = _ := e2
      _ ≤ _ := e4
      _ = _ := by ring
  have step1 : cross P A δ ≤ ∑ g ∈ allDofs P, ∑ h ∈ allDofs P, if P.owner g = P.owner h then 0 else
      ∑ l, ∑ m, (c g h l m * q g l + c g h l m * q h m) / 2 := by
    rw [cross]
    apply Finset.sum_le_sum; intro g hg
    apply Finset.sum_le_sum; intro h hh
    by_cases ho : P.owner g = P.owner h
    · rw [if_pos ho, if_pos ho]
    · rw [if_neg ho, if_neg ho]; exact term g hg h hh
  have step2 : (∑ g ∈ allDofs P, ∑ h ∈ allDofs P, if P.owner g = P.owner h then 0 else
      ∑ l, ∑ m, (c g h l m * q g l + c g h l m * q h m) / 2) =
      ∑ g ∈ allDofs P, ∑ h ∈ allDofs P, if P.owner g = P.owner h then 0 else ∑ l, ∑ m, c g h l m * q g l := by
    have sw : (∑ g ∈ allDofs P, ∑ h ∈ allDofs P, if P.owner g = P.owner h then (0 : ℝ) else ∑ l, ∑ m, c g h l m * q h m) =
        ∑ g ∈ allDofs P, ∑ h ∈ allDofs P, if P.owner g = P.owner h then 0 else ∑ l, ∑ m, c g h l m * q g l := by
      rw [Finset.sum_comm]
      apply Finset.sum_congr rfl; intro g _
      apply Finset.sum_congr rfl; intro h _
      by_cases ho : P.owner g = P.owner h
      · rw [if_pos ho, if_pos ho.symm]
      · rw [if_neg ho, if_neg (Ne.symm ho), Finset.sum_comm]
        apply Finset.sum_congr rfl; intro l _
        apply Finset.sum_congr rfl; intro m _
        rw [csymm]
    have half : ∀ g h, (if P.owner g = P.owner h then (0 : ℝ) else ∑ l, ∑ m, (c g h l m * q g l + c g h l m * q h m) / 2) =
        (if P.owner g = P.owner h then 0 else ∑ l, ∑ m, c g h l m * q g l) / 2 +
        (if P.owner g = P.owner h then 0 else ∑ l, ∑ m, c g h l m * q h m) / 2 := by
      intro g h
      by_cases ho : P.owner g = P.owner h
      · simp [ho]
      · simp only [if_neg ho, add_div, Finset.sum_add_distrib, ← Finset.sum_div]
    simp only [half]
    simp only [Finset.sum_add_distrib, ← Finset.sum_div]
    rw [sw]
    ring
  refine step1.trans (step2.le.trans ?_)
  apply Finset.sum_le_sum; intro g hg
  have e : ∀ h, (if P.owner g = P.owner h then (0 : ℝ) else ∑ l, ∑ m, c g h l m * q g l) =
      ∑ l, (if P.owner g = P.owner h then 0 else ∑ m, c g h l m) * q g l := by
    intro h
    by_cases ho : P.owner g = P.owner h
    · simp [ho]
    · simp only [if_neg ho, Finset.sum_mul]
  simp only [e]
  rw [Finset.sum_comm]
  apply Finset.sum_le_sum; intro l _
  rw [← Finset.sum_mul]
  exact mul_le_mul_of_nonneg_right (couplings_le A g l) (mul_nonneg (hpos g hg l).le (sq_nonneg _))

/-- the energy decreases if the diagonal blocks dominate their diagonals, as for scalars and for diagonal blocks -/
theorem energy_le (hP : P.WF) (A : ℕ → CSR (Blk k)) (hA : GSymm P A) (hpos : ∀ g ∈ allDofs P, ∀ l, 0 < gop P A g g l l)
    (hdom : ∀ g ∈ allDofs P, ∀ v, ∑ l, gop P A g g l l * v l ^ 2 ≤ v ⬝ᵥ gop P A g g *ᵥ v)
    (inv : Blk k → Blk k) (md : ℕ → ℕ → Blk k) (subset : ℕ → Option (ℕ → Bool)) (F : ℕ → Bool)
    (hF : ∀ p < P.np, ∀ d < P.ndof p, inSubset (subset p) d = F (P.glob p d)) (bw : Bool) {nls : ℤ} (hn : nls ≤ 1)
    (hmd : ∀ p < P.np, ∀ d < P.ndof p, P.owner (P.glob p d) = p → F (P.glob p d) = true →
      ∃ f, IsFactor f (strength P A (P.glob p d)) ∧ md p d = f • gop P A (P.glob p d) (P.glob p d))
    (hd : ∀ p < P.np, ∀ i, mast P p i → inSubset (subset p) i = true →
      (inv (md p i))ᵀ = inv (md p i) ∧ inv (md p i) * md p i * inv (md p i) = inv (md p i))
    (xs xh bh : ℕ → Fin k → ℝ) (hb : ∀ g ∈ allDofs P, bh g = gmul P A xs g) :
    let y := gsX P A inv md subset false bw nls xh bh
    genergy P A (xs - y) + 1 / 50 * (∑ g ∈ allDofs P, ∑ l, gop P A g g l l * (y g - xh g) l ^ 2) ≤ genergy P A (xs - xh) := by
  intro y
  have h1 := energy_change hP A hA inv md subset bw hn hd xs xh bh hb
  have h2 := cross_le hA hpos (y - xh)
  have h3 : (∑ g ∈ allDofs P, ∑ l, strength P A g l * (gop P A g g l l * (y - xh) g l ^ 2)) +
      1 / 50 * (∑ g ∈ allDofs P, ∑ l, gop P A g g l l * (y g - xh g) l ^ 2) ≤
      ∑ g ∈ allDofs P, (y - xh) g ⬝ᵥ ((2 : ℝ) • atM P md g - gop P A g g) *ᵥ (y - xh) g := by
    rw [Finset.mul_sum, ← Finset.sum_add_distrib]
    apply Finset.sum_le_sum; intro g hg
    obtain ⟨p, hp, d, hd', rfl⟩ := mem_allDofs.1 hg
    have ho := owner_spec hp (shares_glob hd')
    have hop : P.owner (P.glob p d) < P.np := by omega
    have hl := loc_spec ho.1
    set g := P.glob p d
    set o := P.owner g
    set i := P.loc o g
    by_cases hfr : F g = true
    · obtain ⟨f, hf, hmd'⟩ := hmd o hop i hl.1 (by rw [hl.2]) (by rw [hl.2]; exact hfr)
      rw [hl.2] at hf hmd'
      have hat : atM P md g = f • gop P A g g := hmd'
      have e21 : (2 : ℝ) • f • gop P A g g - gop P A g g = (2 * f - 1) • gop P A g g := by rw [sub_smul, one_smul, smul_smul]
      rw [hat, e21, Matrix.smul_mulVec, dotProduct_smul, smul_eq_mul, Finset.mul_sum, ← Finset.sum_add_distrib]
      have hf1 := hf.1
      refine le_trans ?_ (mul_le_mul_of_nonneg_left (hdom g hg _) (by linarith))
      rw [Finset.mul_sum]
      apply Finset.sum_le_sum; intro l _
      have hq : 0 ≤ gop P A g g l l * (y - xh) g l ^ 2 := mul_nonneg (hpos g hg l).le (sq_nonneg _)
      have hfl := hf.2.1 l
      have : strength P A g l + 1 / 50 ≤ 2 * f - 1 := by
        by_cases hs : strength P A g l ≤ 49 / 50
        · linarith
        · push Not at hs; linarith
      show _ * _ + 1 / 50 * (gop P A g g l l * (y - xh) g l ^ 2) ≤ _
      rw [← add_mul]
      exact mul_le_mul_of_nonneg_right this hq
    · have z : (y - xh) g = 0 := by
        have hyg : y g = xh g := by
          show gsX P A inv md subset false bw nls xh bh g = _
          rw [gsX]
          show gsSweep _ _ _ _ _ _ i = _
          rw [gsSweep_outside]
          · show xh (P.glob o i) = _; rw [hl.2]
          · intro hi
            have := ((mem_allRows_iff hop _ _ hn _).1 hi).2
            rw [hF o hop i hl.1, hl.2] at this
            exact hfr this
        rw [Pi.sub_apply, hyg, sub_self]
      have z' : y g - xh g = 0 := z
      rw [z, z']
      simp
  have h1' : genergy P A (xs - y) = genergy P A (xs - xh) -
      (∑ g ∈ allDofs P, (y - xh) g ⬝ᵥ ((2 : ℝ) • atM P md g - gop P A g g) *ᵥ (y - xh) g) + cross P A (y - xh) := h1
  linarith

/-! ### the scalar case -/

/-- a sweep that changes nothing has met no residual -/
theorem sweep_fix (n : ℕ) (B : ℕ → ℕ → Blk k) (d : ℕ → Blk k) (L : List ℕ) (hnd : L.Nodup) (x b : BVec k)
    (h : ∀ i ∈ L, gsSweep n B d L x b i = x i) : ∀ i ∈ L, d i *ᵥ (b i - mulBlock n B x i) = 0 := by
  induction L generalizing x with
  | nil => simp
  | cons i L ih =>
    obtain ⟨hi, hnd'⟩ := List.nodup_cons.1 hnd
    have h0 : d i *ᵥ (b i - mulBlock n B x i) = 0 := by
      have := h i List.mem_cons_self
      rw [show gsSweep n B d (i :: L) x b = gsSweep n B d L (gsRow n B d b x i) b from rfl, gsSweep_outside _ _ _ _ _ _ hi, gsRow,
        if_pos rfl] at this
      simpa using this
    have hx : gsRow n B d b x i = x := by rw [gsRow_eq, h0]; simp
    intro j hj
    rcases List.mem_cons.1 hj with rfl | hj
    · exact h0
    · refine ih hnd' x (fun m hm => ?_) j hj
      have := h m (List.mem_cons_of_mem _ hm)
      rwa [show gsSweep n B d (i :: L) x b = gsSweep n B d L (gsRow n B d b x i) b from rfl, hx] at this

/-- positive definite global operator -/
def PosDef (P : PD) (A : ℕ → CSR (Blk k)) : Prop := ∀ e : ℕ → Fin k → ℝ, (∃ g ∈ allDofs P, e g ≠ 0) → 0 < genergy P A e

theorem posDef_diag {A : ℕ → CSR (Blk k)} (h : PosDef P A) : ∀ g ∈ allDofs P, ∀ l, 0 < gop P A g g l l := by
  intro g hg l
  have := h (Pi.single g (Pi.single l 1)) ⟨g, hg, by
    rw [Pi.single_eq_same]; intro h0; have := congrFun h0 l; simp at this⟩
  rw [genergy, gip, Finset.sum_eq_single g, Pi.single_eq_same, dotProduct_comm, single_dotProduct, one_mul, gmul,
    Finset.sum_eq_single g, Pi.single_eq_same, Matrix.mulVec_single] at this
  · simpa using this
  · intro h' _ hne; rw [Pi.single_eq_of_ne hne, Matrix.mulVec_zero]
  · intro hn; exact absurd hg hn
  · intro h' _ hne; rw [Pi.single_eq_of_ne hne, dotProduct_zero]
  · intro hn; exact absurd hg hn

theorem blk1_inv (a : Blk 1) (h : a 0 0 ≠ 0) : (a⁻¹)ᵀ = a⁻¹ ∧ a⁻¹ * a * a⁻¹ = a⁻¹ ∧ ∀ v, a⁻¹ *ᵥ v = 0 → v = 0 := by
  have hu : IsUnit a.det := by rw [Matrix.det_fin_one]; exact isUnit_iff_ne_zero.2 h
  refine ⟨?_, ?_, ?_⟩
  · ext i j; rw [Subsingleton.elim i j, Matrix.transpose_apply]
  · rw [Matrix.nonsing_inv_mul _ hu, Matrix.one_mul]
  · intro v hv
    rw [← Matrix.one_mulVec v, ← Matrix.mul_nonsing_inv _ hu, ← Matrix.mulVec_mulVec, hv, Matrix.mulVec_zero]

/-- **C52**, scalar matrices: for every number of processes, sharing pattern, symmetric positive definite global matrix split by the
code, every consistent subset and settings of the constructor, in both directions and for every start: with the diagonals that the
processes computed (in any schedule) the energy of the error does not increase in a call (`xs` is the solution, the new iterate is that
of `hybridGS_correct`). -/
theorem hybridGS_energy_scalar (hP : P.WF) (A : ℕ → CSR (Blk 1)) (hA : GSymm P A) (hpd : PosDef P A)
    {M : ℕ → CSR (Blk 1)} {G : ℕ → Option (CSR (Blk 1))} (hMG : ∀ p < P.np, LocalSpec P A p (M p) (G p))
    (subset : ℕ → Option (ℕ → Bool)) (F : ℕ → Bool) (hF : ∀ p < P.np, ∀ d < P.ndof p, inSubset (subset p) d = F (P.glob p d))
    {n : ℕ} {s : St (Vars 1) (Msg 1)} (hr : Reach P.np (calcModDiag P G subset) (start M) n s)
    (hf : Final P.np (calcModDiag P G subset) s) (md : ℕ → ℕ → Blk 1) (hmd : ∀ p < P.np, usedDiag P M p (s.vec p) = some (md p))
    (overlap inThread : Bool) (nsteps : ℤ) (bw : Bool) (xs xh bh : ℕ → Fin 1 → ℝ) (hb : ∀ g ∈ allDofs P, bh g = gmul P A xs g) :
    let y := gsX P A (·⁻¹) md subset false bw (HybMat.hybridGSSmoother overlap inThread nsteps).numLocSteps xh bh
    genergy P A (xs - y) ≤ genergy P A (xs - xh) ∧
      ((∀ g, F g = true) → (∃ g ∈ allDofs P, xs g ≠ xh g) → genergy P A (xs - y) < genergy P A (xs - xh)) := by
  intro y
  have hpos := posDef_diag hpd
  have hn := gs_numLocSteps overlap inThread nsteps
  have hmd' : ∀ p < P.np, ∀ d < P.ndof p, P.owner (P.glob p d) = p → F (P.glob p d) = true →
      ∃ f, IsFactor f (strength P A (P.glob p d)) ∧ md p d = f • gop P A (P.glob p d) (P.glob p d) := by
    intro p hp
    obtain ⟨md', e1, e2⟩ := calcModDiag_correct hP hMG subset F hF hr hf p hp
    rw [hmd p hp] at e1
    cases e1
    exact e2
  have hne : ∀ p < P.np, ∀ i, mast P p i → inSubset (subset p) i = true → md p i 0 0 ≠ 0 := by
    intro p hp i hm hi
    obtain ⟨f, h1, h2⟩ := hmd' p hp i hm.1 hm.2 (by rw [← hF p hp i hm.1]; exact hi)
    rw [h2, Matrix.smul_apply, smul_eq_mul]
    have := hpos _ (glob_mem hp hm.1) 0
    have := h1.1
    positivity
  have hdom : ∀ g ∈ allDofs P, ∀ v, ∑ l, gop P A g g l l * v l ^ 2 ≤ v ⬝ᵥ gop P A g g *ᵥ v := by
    intro g _ v
    apply le_of_eq
    simp [dotProduct, Matrix.mulVec]
    ring
  have key := energy_le hP A hA hpos hdom (·⁻¹) md subset F hF bw hn hmd'
    (fun p hp i hm hi => ⟨(blk1_inv _ (hne p hp i hm hi)).1, (blk1_inv _ (hne p hp i hm hi)).2.1⟩) xs xh bh hb
  have key' : genergy P A (xs - y) + 1 / 50 * (∑ g ∈ allDofs P, ∑ l, gop P A g g l l * (y g - xh g) l ^ 2) ≤ genergy P A (xs - xh) := key
  have hnn : ∀ g ∈ allDofs P, 0 ≤ ∑ l, gop P A g g l l * (y g - xh g) l ^ 2 := fun g hg =>
    Finset.sum_nonneg fun l _ => mul_nonneg (hpos g hg l).le (sq_nonneg _)
  refine ⟨by have := Finset.sum_nonneg hnn; linarith, fun hall hex => ?_⟩
  by_contra hlt
  have hS : (∑ g ∈ allDofs P, ∑ l, gop P A g g l l * (y g - xh g) l ^ 2) = 0 :=
    le_antisymm (by linarith) (Finset.sum_nonneg hnn)
  have hy : ∀ g ∈ allDofs P, y g = xh g := by
    intro g hg
    have h1 := (Finset.sum_eq_zero_iff_of_nonneg hnn).1 hS g hg
    have h2 := (Finset.sum_eq_zero_iff_of_nonneg (fun l _ => mul_nonneg (hpos g hg l).le (sq_nonneg _))).1 h1
    funext l
    have h3 := h2 l (Finset.mem_univ l)
    rcases mul_eq_zero.1 h3 with h | h
    · exact absurd h (hpos g hg l).ne'
    · exact sub_eq_zero.1 (pow_eq_zero_iff (two_ne_zero)|>.1 h)
  -- then the residual vanishes
  have hres : ∀ g ∈ allDofs P, gmul P A (xs - xh) g = 0 := by
    intro g hg
    obtain ⟨p', hp', d', hd', rfl⟩ := mem_allDofs.1 hg
    have ho' := owner_spec hp' (shares_glob hd')
    have hp : P.owner (P.glob p' d') < P.np := by omega
    have hl := loc_spec ho'.1
    set p := P.owner (P.glob p' d') with hpdef
    set d := P.loc p (P.glob p' d') with hddef
    rw [← hl.2] at hg ⊢
    have ho : P.owner (P.glob p d) = p := by rw [hl.2]
    have hd : d < P.ndof p := hl.1
    have hsw := sweep_fix (P.ndof p) (blockOp P A p) (fun i => (md p i)⁻¹)
      (allRows P p (P.ndof p) (subset p) false bw (HybMat.hybridGSSmoother overlap inThread nsteps).numLocSteps)
      (allRows_nodup P p _ _ bw hn) (fun e => xh (P.glob p e)) (fun e => bh (P.glob p e) -
        ∑ h ∈ allDofs P, if P.owner (P.glob p e) = P.owner h then 0 else gop P A (P.glob p e) h *ᵥ xh h) (by
        intro i hi
        have hm := ((mem_allRows_iff hp _ _ hn _).1 hi).1
        have := hy _ (glob_mem hp hm.1)
        rw [← this]
        show _ = gsX P A (·⁻¹) md subset false bw _ xh bh (P.glob p i)
        rw [gsX]
        simp only [hm.2, loc_glob hP hp hm.1]) d ((mem_allRows_iff hp _ _ hn _).2 ⟨⟨hd, ho⟩, by rw [hF p hp d hd]; exact hall _⟩)
    have hz := (blk1_inv _ (hne p hp d ⟨hd, ho⟩ (by rw [hF p hp d hd]; exact hall _))).2.2 _ hsw
    rw [gmul_sub, Pi.sub_apply, ← hb _ hg, ← hz, sub_sub]
    congr 1
    have : mulBlock (P.ndof p) (blockOp P A p) (fun e => xh (P.glob p e)) d =
        ∑ h ∈ allDofs P, if P.owner h = p then gop P A (P.glob p d) h *ᵥ xh h else 0 := by
      rw [sum_owner hP _ hp, mulBlock]
      apply Finset.sum_congr rfl; intro e he
      rw [Finset.mem_range] at he
      by_cases hoe : P.owner (P.glob p e) = p
      · rw [blockOp, if_pos ⟨⟨hd, ho⟩, he, hoe⟩, if_pos hoe]
      · rw [blockOp, if_neg (fun h => hoe h.2.2), if_neg hoe, Matrix.zero_mulVec]
    rw [this, ← Finset.sum_add_distrib, gmul]
    apply Finset.sum_congr rfl; intro h _
    rw [ho]
    by_cases e : p = P.owner h
    · rw [if_pos e, if_pos e.symm, zero_add]
    · rw [if_neg e, if_neg (Ne.symm e), add_zero]
  obtain ⟨g, hg, hgne⟩ := hex
  have := hpd (xs - xh) ⟨g, hg, sub_ne_zero.2 hgne⟩
  rw [genergy, gip, Finset.sum_eq_zero fun g hg => by rw [hres g hg, zero_dotProduct]] at this
  exact lt_irrefl _ this

end NgsAMG.ModDiag
