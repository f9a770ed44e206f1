import Verif.Model.Elast
import Verif.Spec.RigidMotion
import Mathlib.LinearAlgebra.Matrix.PosDef
import Mathlib.Tactic.FieldSimp
import Mathlib.Tactic.LinearCombination
import Mathlib.Tactic.FinCases

/-! The transport of vertex unknowns in elasticity, the block products computed with it, and the replacement matrix
(C62 - C64). -/

namespace NgsAMG.Elast

open Matrix RigidMotion

variable {D R : ℕ}

/-! ### the elementary products -/

/-- the elementary functions compute the products their comments say -/
structure Laws (T : TOps D R) : Prop where
  smul : ∀ (a : ℝ) (t : Fin D → ℝ), T.skT (a • t) = a • T.skT t
  add : ∀ t t' : Fin D → ℝ, T.skT (t + t') = T.skT t + T.skT t'
  mt : ∀ {n : Type} (t : Fin D → ℝ) (M : Matrix n (Fin D) ℝ), T.mt t M = M * T.skT t
  ttm : ∀ {n : Type} (t : Fin D → ℝ) (M : Matrix (Fin D) n ℝ), T.ttm t M = (T.skT t)ᵀ * M
  ttmSymm : ∀ (t : Fin D → ℝ) (A : Matrix (Fin D) (Fin D) ℝ), Aᵀ = A →
    T.ttmSymm t (A * T.skT t) = (T.skT t)ᵀ * A * T.skT t

theorem laws2 : Laws ops2 where
  smul a t := by ext i j; fin_cases i <;> fin_cases j <;> simp [ops2]
  add t t' := by ext i j; fin_cases i <;> fin_cases j <;> simp [ops2]; ring
  mt t M := by ext i j; fin_cases j; simp [ops2, Matrix.mul_apply, Fin.sum_univ_two]; ring
  ttm t M := by ext i j; fin_cases i; simp [ops2, Matrix.mul_apply, Fin.sum_univ_two]; ring
  ttmSymm t A hA := by
    have h01 : A 1 0 = A 0 1 := by rw [← Matrix.transpose_apply A, hA]
    ext i j
    fin_cases i; fin_cases j
    simp [ops2, Matrix.mul_apply, Fin.sum_univ_two]
    ring

theorem laws3 : Laws ops3 where
  smul a t := by ext i j; fin_cases i <;> fin_cases j <;> simp [ops3]
  add t t' := by ext i j; fin_cases i <;> fin_cases j <;> simp [ops3] <;> ring
  mt t M := by ext i j; fin_cases j <;> simp [ops3, Matrix.mul_apply, Fin.sum_univ_three] <;> ring
  ttm t M := by ext i j; fin_cases i <;> simp [ops3, Matrix.mul_apply, Fin.sum_univ_three] <;> ring
  ttmSymm t A hA := by
    have h01 : A 1 0 = A 0 1 := by rw [← Matrix.transpose_apply A, hA]
    have h02 : A 2 0 = A 0 2 := by rw [← Matrix.transpose_apply A, hA]
    have h12 : A 2 1 = A 1 2 := by rw [← Matrix.transpose_apply A, hA]
    ext i j
    fin_cases i <;> fin_cases j <;>
      simp [ops3, Matrix.mul_apply, Fin.sum_univ_three, h01, h02, h12] <;> ring

theorem scaleIf_eq {m n : Type} (rs : ℝ) (X : Matrix m n ℝ) : scaleIf rs rs X = rs • X := by
  unfold scaleIf
  split
  · rfl
  · rename_i h
    have : rs = 1 := by simpa using h
    simp [this]

theorem scaleIf_sq {m n : Type} (rs : ℝ) (X : Matrix m n ℝ) : scaleIf rs (rs * rs) X = (rs * rs) • X := by
  unfold scaleIf
  split
  · rfl
  · rename_i h
    have : rs = 1 := by simpa using h
    simp [this]

variable {T : TOps D R}

/-- **C63** `MQ` multiplies by the transport matrix from the right -/
theorem mq_correct (L : Laws T) (q : TQ D) (E : TM D R) : mq T q E = E * setQ T 1 q := by
  ext i j
  unfold mq setQ
  rw [scaleIf_eq, L.mt]
  rcases j with j | j
  · simp [Matrix.mul_apply, Fintype.sum_sum_type, Matrix.one_apply]
  · simp [Matrix.mul_apply, Fintype.sum_sum_type, Matrix.one_apply]
    ring

/-- **C63** `QTM` multiplies by the transposed transport matrix from the left -/
theorem qtm_correct (L : Laws T) (q : TQ D) (E : TM D R) : qtm T q E = (setQ T 1 q)ᵀ * E := by
  ext i j
  unfold qtm setQ
  rw [scaleIf_eq, L.ttm]
  rcases i with i | i
  · simp [Matrix.mul_apply, Fintype.sum_sum_type, Matrix.one_apply]
  · simp [Matrix.mul_apply, Fintype.sum_sum_type, Matrix.one_apply]
    ring

/-- **C63** `QTMQ` computes `Qᵀ E Q` for symmetric `E` -/
theorem qtmq_correct (L : Laws T) (q : TQ D) (E : TM D R) (hE : Eᵀ = E) :
    qtmq T q E = (setQ T 1 q)ᵀ * E * setQ T 1 q := by
  have hb := fromBlocks_toBlocks E
  have ht : fromBlocks E.toBlocks₁₁ᵀ E.toBlocks₂₁ᵀ E.toBlocks₁₂ᵀ E.toBlocks₂₂ᵀ
      = fromBlocks E.toBlocks₁₁ E.toBlocks₁₂ E.toBlocks₂₁ E.toBlocks₂₂ := by
    rw [← fromBlocks_transpose, hb, hE]
  obtain ⟨hA, h21, h12, hC⟩ := fromBlocks_inj.mp ht
  unfold qtmq setQ
  dsimp only
  rw [scaleIf_eq, scaleIf_eq, scaleIf_sq, L.mt, L.ttm, L.ttmSymm _ _ hA]
  conv_rhs => rw [← hb]
  rw [fromBlocks_transpose, fromBlocks_multiply, fromBlocks_multiply, ← h12]
  congr 1
  · simp
  · simp [add_comm]
  · simp [Matrix.transpose_mul, hA, add_comm]
  · simp [Matrix.transpose_mul, Matrix.add_mul, Matrix.mul_assoc, smul_smul]
    abel

/-! ### rigid motions -/

/-- the rigid motion in both dimensions, in terms of the skew matrix -/
def motion (T : TOps D R) (p : Fin D → ℝ) (s : ℝ) (d : Fin D ⊕ Fin R → ℝ) (x : Fin D → ℝ) : Fin D → ℝ :=
  (fun k => d (Sum.inl k)) + T.skT (s • (x - p)) *ᵥ (fun k => d (Sum.inr k))

theorem motion_eq3 (p : Fin 3 → ℝ) (s : ℝ) (d : Fin 3 ⊕ Fin 3 → ℝ) (x : Fin 3 → ℝ) :
    motion ops3 p s d x = motion3 p s d x := by
  ext k
  fin_cases k <;>
    simp [motion, motion3, ops3, cross_apply, dotProduct, Fin.sum_univ_three] <;> ring

theorem motion_eq2 (p : Fin 2 → ℝ) (s : ℝ) (d : Fin 2 ⊕ Fin 1 → ℝ) (x : Fin 2 → ℝ) :
    motion ops2 p s d x = motion2 p s d x := by
  ext k
  fin_cases k <;> simp [motion, motion2, ops2, dotProduct] <;> ring

theorem setQ_mulVec (q : TQ D) (d : Fin D ⊕ Fin R → ℝ) :
    setQ T 1 q *ᵥ d = Sum.elim ((fun k => d (Sum.inl k)) + T.skT q.tang *ᵥ (fun k => d (Sum.inr k)))
      (fun k => q.rs * d (Sum.inr k)) := by
  conv_lhs => rw [← Sum.elim_comp_inl_inr d]
  rw [setQ, fromBlocks_mulVec]
  congr 1
  · simp [Function.comp_def]
  · ext k; simp [Matrix.smul_mulVec]

/-- the transported unknowns describe the same motion -/
theorem transport_motion (L : Laws T) (vi vj : VData D R) (hj : vj.rotScaling ≠ 0) (d : Fin D ⊕ Fin R → ℝ)
    (x : Fin D → ℝ) :
    motion T vj.pos vj.rotScaling (calcQHh T vi vj *ᵥ d) x = motion T vi.pos vi.rotScaling d x := by
  unfold motion calcQHh
  rw [setQ_mulVec]
  simp only [getQiToj, Sum.elim_inl, Sum.elim_inr]
  have h1 : (fun k => vi.rotScaling / vj.rotScaling * d (Sum.inr k))
      = (vi.rotScaling / vj.rotScaling) • (fun k => d (Sum.inr k)) := by ext; simp
  rw [h1, Matrix.mulVec_smul, L.smul, L.smul, L.smul]
  simp only [Matrix.smul_mulVec, smul_smul, div_mul_cancel₀ _ hj]
  have h2 : x - vi.pos = (vj.pos - vi.pos) + (x - vj.pos) := by abel
  rw [h2, L.add, Matrix.add_mulVec, smul_add]
  ext k
  simp
  ring

/-- different unknowns at a vertex describe different motions -/
def Faithful (T : TOps D R) : Prop :=
  ∀ w : Fin R → ℝ, (∀ t, T.skT t *ᵥ w = 0) → w = 0

theorem faithful2 : Faithful ops2 := by
  intro w h
  have := congrFun (h ![1, 0]) 1
  ext k
  fin_cases k
  simpa [ops2, Matrix.mulVec, dotProduct] using this

theorem faithful3 : Faithful ops3 := by
  intro w h
  have h0 := congrFun (h ![1, 0, 0]) 1
  have h1 := congrFun (h ![1, 0, 0]) 2
  have h2 := congrFun (h ![0, 1, 0]) 2
  simp [ops3, Matrix.mulVec, dotProduct, Fin.sum_univ_three] at h0 h1 h2
  ext k
  fin_cases k <;> simp [h0, h1, h2]

theorem motion_inj (L : Laws T) (F : Faithful T) (p : Fin D → ℝ) (s : ℝ) (hs : s ≠ 0) (d d' : Fin D ⊕ Fin R → ℝ)
    (h : ∀ x, motion T p s d x = motion T p s d' x) : d = d' := by
  have h0 : (fun k => d (Sum.inl k)) = fun k => d' (Sum.inl k) := by
    have hz : T.skT 0 = 0 := by simpa using L.smul 0 0
    have := h p
    simpa [motion, hz] using this
  have hw : (fun k => d (Sum.inr k)) - (fun k => d' (Sum.inr k)) = 0 := by
    apply F
    intro t
    have := h (p + s⁻¹ • t)
    unfold motion at this
    rw [h0, add_sub_cancel_left, smul_smul, mul_inv_cancel₀ hs, one_smul] at this
    have := add_left_cancel this
    rw [Matrix.mulVec_sub, this, sub_self]
  ext (k | k)
  · exact congrFun h0 k
  · have := congrFun hw k
    simpa [sub_eq_zero] using this

theorem transport_comp (L : Laws T) (va vb vc : VData D R) (hb : vb.rotScaling ≠ 0) :
    calcQHh T vb vc * calcQHh T va vb = calcQHh T va vc := by
  unfold calcQHh setQ
  rw [fromBlocks_multiply]
  simp only [getQiToj]
  congr 1
  · simp
  · rw [L.smul, L.smul, L.smul, show vc.pos - va.pos = (vb.pos - va.pos) + (vc.pos - vb.pos) by abel, L.add]
    simp [smul_smul, div_mul_cancel₀ _ hb]
  · simp
  · simp [smul_smul]
    congr 1
    field_simp

theorem transport_self (L : Laws T) (va : VData D R) (h : va.rotScaling ≠ 0) : calcQHh T va va = 1 := by
  have hz : T.skT 0 = 0 := by simpa using L.smul 0 0
  unfold calcQHh setQ
  simp [getQiToj, hz, div_self h, fromBlocks_one]

theorem transport_inv (L : Laws T) (va vb : VData D R) (ha : va.rotScaling ≠ 0) (hb : vb.rotScaling ≠ 0) :
    calcQHh T vb va * calcQHh T va vb = 1 := by
  rw [transport_comp L _ _ _ hb, transport_self L _ ha]

theorem calcMPData_scaling (vi vj : VData D R) (hi : 0 < vi.rotScaling) (hj : 0 < vj.rotScaling) :
    0 < (calcMPData vi vj).rotScaling := by
  simp only [calcMPData]
  have := Real.sqrt_pos.mpr hi
  have := Real.sqrt_pos.mpr hj
  positivity

/-- `CalcQs` transports to the mid-point of `CalcMPData` -/
theorem calcQs_eq (vi vj : VData D R) (hi : 0 < vi.rotScaling) (hj : 0 < vj.rotScaling) :
    calcQs T vi vj = (calcQHh T vi (calcMPData vi vj), calcQHh T vj (calcMPData vi vj)) := by
  have h1 := Real.sqrt_pos.mpr hi
  have h2 := Real.sqrt_pos.mpr hj
  unfold calcQs calcQHh
  have e1 : (getQijQji vi vj).1 = getQiToj vi (calcMPData vi vj) := by
    simp only [getQijQji, getQiToj, calcMPData]
    congr 1
    congr 1
    ext k
    simp
    ring
  have e2 : (getQijQji vi vj).2 = getQiToj vj (calcMPData vi vj) := by
    simp only [getQijQji, getQiToj, calcMPData]
    congr 1
    congr 1
    ext k
    simp
    ring
  rw [e1, e2]

theorem calcQij_eq (vi vj : VData D R) : calcQij T vi vj = (calcQs T vi vj).1 := rfl

theorem calcMPData_comm (vi vj : VData D R) (hi : 0 < vi.rotScaling) (hj : 0 < vj.rotScaling) :
    calcMPData vi vj = calcMPData vj vi := by
  have h1 := Real.sqrt_pos.mpr hi
  have h2 := Real.sqrt_pos.mpr hj
  simp only [calcMPData]
  congr 1
  · ext k
    simp
    field_simp
    ring
  · ring

/-- the two transports to the mid-point are inverse to each other -/
theorem calcQs_inv (L : Laws T) (vi vj : VData D R) (hi : 0 < vi.rotScaling) (hj : 0 < vj.rotScaling) :
    (calcQs T vi vj).1 * (calcQs T vi vj).2 = 1 := by
  have h1 := Real.sqrt_pos.mpr hi
  have h2 := Real.sqrt_pos.mpr hj
  have hsi := Real.mul_self_sqrt hi.le
  have hsj := Real.mul_self_sqrt hj.le
  unfold calcQs setQ
  rw [fromBlocks_multiply]
  simp only [getQijQji]
  rw [← fromBlocks_one]
  set a := Real.sqrt vi.rotScaling
  set b := Real.sqrt vj.rotScaling
  rw [← hsi, ← hsj]
  congr 1
  · simp
  · rw [L.smul, L.smul, L.smul, L.smul]
    have : (b * b) * (b / (a + b) - 1) + (b * b / (a * b)) * ((a * a) * (b / (a + b))) = 0 := by
      field_simp
      ring
    simp only [one_smul, Matrix.one_mul, one_mul, Matrix.mul_smul, Matrix.mul_one, smul_smul, ← add_smul]
    rw [this, zero_smul]
  · simp
  · simp only [Matrix.mul_smul, smul_smul, Matrix.mul_one, Matrix.zero_mul, zero_add, one_mul]
    have : b * b / (a * b) * (a * a / (a * b)) = 1 := by field_simp
    rw [this, one_smul]

end NgsAMG.Elast
