import Verif.Props.Elast
import Mathlib.Tactic.NormNum
import Mathlib.Algebra.Order.Star.Real
import Mathlib.Tactic.Positivity

/-! C62 - C64, the theorems a user of the elasticity energies relies on, in 2D and 3D. -/

namespace NgsAMG.Elast

open Matrix RigidMotion

variable {D R : ℕ} {T : TOps D R}

/-! ### C62: transport of the unknowns -/

/-- **C62**, 3D: transporting the unknowns from vertex `i` to vertex `j` does not change the rigid motion they describe, and
the unknowns at `j` are determined by that -/
theorem transport_rigid3 (vi vj : VData 3 3) (hj : vj.rotScaling ≠ 0) (d e : Fin 3 ⊕ Fin 3 → ℝ) :
    (∀ x, motion3 vj.pos vj.rotScaling e x = motion3 vi.pos vi.rotScaling d x) ↔ e = calcQHh ops3 vi vj *ᵥ d := by
  simp only [← motion_eq3]
  constructor
  · intro h
    refine motion_inj laws3 faithful3 vj.pos _ hj _ _ fun x => ?_
    rw [h, transport_motion laws3 _ _ hj]
  · rintro rfl x
    exact transport_motion laws3 _ _ hj _ _

/-- **C62**, 2D -/
theorem transport_rigid2 (vi vj : VData 2 1) (hj : vj.rotScaling ≠ 0) (d e : Fin 2 ⊕ Fin 1 → ℝ) :
    (∀ x, motion2 vj.pos vj.rotScaling e x = motion2 vi.pos vi.rotScaling d x) ↔ e = calcQHh ops2 vi vj *ᵥ d := by
  simp only [← motion_eq2]
  constructor
  · intro h
    refine motion_inj laws2 faithful2 vj.pos _ hj _ _ fun x => ?_
    rw [h, transport_motion laws2 _ _ hj]
  · rintro rfl x
    exact transport_motion laws2 _ _ hj _ _

/-- **C62**: the pair of transports of an edge meets in the mid-point, whichever end comes first, the transports are inverse
to each other, and `CalcInvQs` returns the inverses -/
theorem edge_transport (L : Laws T) (vi vj : VData D R) (hi : 0 < vi.rotScaling) (hj : 0 < vj.rotScaling) :
    calcQs T vi vj = (calcQHh T vi (calcMPData vi vj), calcQHh T vj (calcMPData vi vj)) ∧
    calcQij T vi vj = calcQHh T vi (calcMPData vi vj) ∧
    calcQs T vj vi = ((calcQs T vi vj).2, (calcQs T vi vj).1) ∧
    (calcInvQs T vi vj).1 * (calcQs T vi vj).1 = 1 ∧ (calcInvQs T vi vj).2 * (calcQs T vi vj).2 = 1 := by
  refine ⟨calcQs_eq vi vj hi hj, ?_, ?_, ?_, ?_⟩
  · rw [calcQij_eq, calcQs_eq vi vj hi hj]
  · rw [calcQs_eq vi vj hi hj, calcQs_eq vj vi hj hi, calcMPData_comm vi vj hi hj]
  · exact mul_eq_one_comm.mp (calcQs_inv L vi vj hi hj)
  · exact calcQs_inv L vi vj hi hj

/-- the vertices of the example: two vertices with different scalings -/
noncomputable def exV (k : Fin 2) : VData 3 3 :=
  ⟨![(k : ℕ), 1, 2], 1, ![(1 : ℝ), 4] k⟩

example : (calcQs ops3 (exV 0) (exV 1)).1 * (calcQs ops3 (exV 0) (exV 1)).2 = 1 ∧
    (calcQs ops3 (exV 0) (exV 1)).1 ≠ 1 := by
  have h4 : Real.sqrt 4 = 2 := by
    rw [show (4 : ℝ) = 2 ^ 2 by norm_num]
    exact Real.sqrt_sq (by norm_num)
  refine ⟨calcQs_inv laws3 _ _ (by simp [exV]) (by simp [exV]), fun h => ?_⟩
  have := congrFun (congrFun h (Sum.inr 0)) (Sum.inr 0)
  simp [calcQs, setQ, getQijQji, exV, h4] at this

/-! ### C63: the other products -/

/-- **C63**: 2D `QMQT` computes `Q E Qᵀ` for symmetric `E` -/
theorem qmqt_correct2 (junk : Matrix (Fin 2) (Fin 2) ℝ) (q : TQ 2) (E : TM 2 1) (hE : Eᵀ = E) :
    qmqt ops2 junk q E = setQ ops2 1 q * E * (setQ ops2 1 q)ᵀ := by
  have hs : ∀ i j, E i j = E j i := fun i j => by conv_lhs => rw [← hE, Matrix.transpose_apply]
  unfold qmqt setQ
  dsimp only
  rw [scaleIf_eq, scaleIf_sq]
  ext i j
  rcases i with i | i <;> rcases j with j | j <;> fin_cases i <;> fin_cases j <;>
    simp [ops2, Matrix.mul_apply, Fintype.sum_sum_type, Fin.sum_univ_two, toBlocks₁₁, toBlocks₁₂, toBlocks₂₂, vecHead, vecTail,
      hs (Sum.inr 0) (Sum.inl 0), hs (Sum.inr 0) (Sum.inl 1), hs (Sum.inl 1) (Sum.inl 0)] <;> ring

/-- the symmetric matrix of the counterexample -/
def exE : TM 3 3 := 1
/-- the transport of the counterexample -/
def exQ : TQ 3 := ⟨1, ![0, 0, 1]⟩

/-- **C63** fails for `QMQT` in 3D: whatever the scratch matrix contained, the off-diagonal block has the wrong sign -/
theorem qmqt_wrong3 (junk : Matrix (Fin 3) (Fin 3) ℝ) :
    exEᵀ = exE ∧ qmqt ops3 junk exQ exE ≠ setQ ops3 1 exQ * exE * (setQ ops3 1 exQ)ᵀ := by
  refine ⟨by simp [exE], fun h => ?_⟩
  have := congrFun (congrFun h (Sum.inl 0)) (Sum.inr 1)
  unfold qmqt at this
  rw [scaleIf_eq, scaleIf_sq] at this
  simp [exE, exQ, setQ, ops3, Matrix.mul_apply, Fintype.sum_sum_type, toBlocks₁₁, toBlocks₁₂,
    toBlocks₂₂, Matrix.one_apply] at this
  norm_num at this

/-- **C63** fails for `QMQT` in 3D: the result depends on uninitialised memory -/
theorem qmqt_undefined3 : ∃ junk junk', qmqt ops3 junk exQ exE ≠ qmqt ops3 junk' exQ exE := by
  refine ⟨0, fun _ _ => 1, fun h => ?_⟩
  have := congrFun (congrFun h (Sum.inl 2)) (Sum.inl 2)
  simp [qmqt, exE, exQ, ops3, toBlocks₁₁, toBlocks₁₂, toBlocks₂₂] at this

/-- **C63** fails for `SetQ(alpha, ..)`: the result is not `alpha` times the transport -/
theorem setQ_scaled_wrong : setQ ops3 (-1) exQ ≠ (-1 : ℝ) • setQ ops3 1 exQ := by
  intro h
  have := congrFun (congrFun h (Sum.inl 0)) (Sum.inr 1)
  simp [setQ, exQ, ops3] at this
  norm_num at this

/-- what holds: without an off-diagonal part it is -/
theorem setQ_scaled (L : Laws T) (alpha rs : ℝ) : setQ T alpha ⟨rs, 0⟩ = alpha • setQ T 1 ⟨rs, 0⟩ := by
  have hz : T.skT 0 = 0 := by simpa using L.smul 0 0
  simp [setQ, hz, fromBlocks_smul, smul_smul]

section legacy
variable [NeZero R]

theorem setQ_blocks (q : TQ D) : (setQ T 1 q).toBlocks₁₂ = T.skT q.tang ∧
    (setQ T 1 q) (Sum.inr 0) (Sum.inr 0) = q.rs := by
  constructor
  · simp [setQ]
  · simp [setQ]

omit [NeZero R] in
theorem QtMQ_blocks (q : TQ D) (A : Matrix (Fin D) (Fin D) ℝ) (B : Matrix (Fin D) (Fin R) ℝ)
    (B' : Matrix (Fin R) (Fin D) ℝ) (C : Matrix (Fin R) (Fin R) ℝ) :
    (setQ T 1 q)ᵀ * fromBlocks A B B' C * setQ T 1 q
      = fromBlocks A (A * T.skT q.tang + q.rs • B) ((T.skT q.tang)ᵀ * A + q.rs • B')
        ((T.skT q.tang)ᵀ * (A * T.skT q.tang + q.rs • B) + (q.rs • B') * T.skT q.tang + (q.rs * q.rs) • C) := by
  unfold setQ
  rw [fromBlocks_transpose, fromBlocks_multiply, fromBlocks_multiply]
  congr 1
  · simp
  · simp
  · simp
  · simp [Matrix.add_mul, Matrix.mul_add, Matrix.mul_assoc, smul_smul]
    abel

omit [NeZero R] in
theorem symm_blocks {E : TM D R} (hE : Eᵀ = E) :
    E.toBlocks₁₁ᵀ = E.toBlocks₁₁ ∧ E.toBlocks₂₁ = E.toBlocks₁₂ᵀ ∧ E.toBlocks₂₂ᵀ = E.toBlocks₂₂ := by
  have hb := fromBlocks_toBlocks E
  have ht : fromBlocks E.toBlocks₁₁ᵀ E.toBlocks₂₁ᵀ E.toBlocks₁₂ᵀ E.toBlocks₂₂ᵀ
      = fromBlocks E.toBlocks₁₁ E.toBlocks₁₂ E.toBlocks₂₁ E.toBlocks₂₂ := by
    rw [← fromBlocks_transpose, hb, hE]
  obtain ⟨hA, h21, h12, hC⟩ := fromBlocks_inj.mp ht
  exact ⟨hA, h12.symm, hC⟩

/-- **C63**: `AddQtMQ` adds `val Qᵀ M Q` for symmetric `M` -/
theorem addQtMQ_correct (val : ℝ) (aA M : TM D R) (q : TQ D) (hM : Mᵀ = M) :
    addQtMQ val aA (setQ T 1 q) M = aA + val • ((setQ T 1 q)ᵀ * M * setQ T 1 q) := by
  obtain ⟨hA, hB, -⟩ := symm_blocks hM
  conv_rhs => rw [← fromBlocks_toBlocks M, QtMQ_blocks, ← fromBlocks_toBlocks aA, fromBlocks_smul, fromBlocks_add]
  unfold addQtMQ
  rw [(setQ_blocks q).1, (setQ_blocks q).2]
  dsimp only
  congr 1
  rw [hB]
  simp [Matrix.transpose_mul, hA]

/-- **C63**: `QtMQ` replaces `M` by `Qᵀ M Q` for symmetric `M` -/
theorem qtMQ_correct (M : TM D R) (q : TQ D) (hM : Mᵀ = M) :
    qtMQ (setQ T 1 q) M = (setQ T 1 q)ᵀ * M * setQ T 1 q := by
  obtain ⟨hA, hB, -⟩ := symm_blocks hM
  conv_rhs => rw [← fromBlocks_toBlocks M, QtMQ_blocks]
  unfold qtMQ
  rw [(setQ_blocks q).1, (setQ_blocks q).2]
  dsimp only
  congr 1
  · rw [add_comm]
  · rw [hB]
    simp [Matrix.transpose_mul, hA, add_comm]
  · rw [add_comm]

/-- **C63**: `CalcMQ` computes `scal M Q` -/
theorem calcMQ_correct (scal : ℝ) (M : TM D R) (q : TQ D) :
    calcMQ scal M (setQ T 1 q) = scal • (M * setQ T 1 q) := by
  conv_rhs => rw [← fromBlocks_toBlocks M]
  unfold calcMQ
  rw [(setQ_blocks q).1, (setQ_blocks q).2]
  unfold setQ
  rw [fromBlocks_multiply, fromBlocks_smul]
  simp [add_comm]

/-- **C63**: `SetQtMQ` computes `val Qᵀ M Q` if both ends have the same scaling -/
theorem setQtMQ_partial (val : ℝ) (M : TM D R) (q : TQ D) (hM : Mᵀ = M) (hs : q.rs = 1) :
    setQtMQ val (setQ T 1 q) M = val • ((setQ T 1 q)ᵀ * M * setQ T 1 q) := by
  obtain ⟨hA, hB, -⟩ := symm_blocks hM
  conv_rhs => rw [← fromBlocks_toBlocks M, QtMQ_blocks, fromBlocks_smul]
  unfold setQtMQ
  rw [(setQ_blocks q).1, (setQ_blocks q).2]
  dsimp only
  congr 1
  · rw [hB]
    simp [Matrix.transpose_mul, hA]
  · rw [hs, one_smul, one_smul]

/-- **C63** fails for `SetQtMQ` with different scalings -/
theorem setQtMQ_wrong : ∃ (M : TM 2 1) (q : TQ 2), Mᵀ = M ∧
    setQtMQ 1 (setQ ops2 1 q) M ≠ (1 : ℝ) • ((setQ ops2 1 q)ᵀ * M * setQ ops2 1 q) := by
  refine ⟨fromBlocks 0 !![0; 1] !![0, 1] 0, ⟨2, ![1, 0]⟩, ?_, fun h => ?_⟩
  · rw [fromBlocks_transpose]
    congr 1 <;> (ext i j; fin_cases i <;> fin_cases j <;> rfl)
  · have := congrFun (congrFun h (Sum.inr 0)) (Sum.inr 0)
    rw [QtMQ_blocks] at this
    simp [setQtMQ, setQ, ops2, Matrix.mul_apply, Fin.sum_univ_two] at this

/-- **C63**: the mid-point of an edge inherits the sum of the vertex weights, transported to the mid-point, if both ends have the
same scaling -/
theorem calcMPDataWW_partial (va vb : VData D R) (h : 0 < va.rotScaling) (hab : va.rotScaling = vb.rotScaling)
    (ha : va.wtᵀ = va.wt) (hb : vb.wtᵀ = vb.wt) :
    (calcMPDataWW T va vb).wt = (calcInvQs T va vb).1ᵀ * va.wt * (calcInvQs T va vb).1
      + (calcInvQs T va vb).2ᵀ * vb.wt * (calcInvQs T va vb).2 := by
  unfold calcMPDataWW calcQs calcInvQs
  dsimp only
  rw [addQtMQ_correct _ _ _ _ hb, setQtMQ_partial _ _ _ ha, one_smul, one_smul]
  have h1 := Real.sqrt_pos.mpr h
  have hs := Real.mul_self_sqrt h.le
  simp only [getQijQji, ← hab, hs]
  exact div_self h.ne'

end legacy

example : (1 : TM 2 1)ᵀ = 1 ∧ (0 : ℝ) < (⟨0, 1, 1⟩ : VData 2 1).rotScaling := ⟨by simp, by norm_num⟩

/-! ### C64: the replacement matrix of an edge -/

/-- the quadratic form of a two by two block matrix -/
def blockForm (B : Fin 2 → Fin 2 → TM D R) (u : Fin 2 → Fin D ⊕ Fin R → ℝ) : ℝ :=
  ∑ a, ∑ b, u a ⬝ᵥ (B a b *ᵥ u b)

theorem calcRMBlock_eq (L : Laws T) (E : TM D R) (hE : Eᵀ = E) (vi vj : VData D R) :
    calcRMBlock T E vi vj =
      ![![(calcQs T vi vj).1ᵀ * E * (calcQs T vi vj).1, -((calcQs T vi vj).1ᵀ * E * (calcQs T vi vj).2)],
        ![-((calcQs T vi vj).2ᵀ * E * (calcQs T vi vj).1), (calcQs T vi vj).2ᵀ * E * (calcQs T vi vj).2]] := by
  unfold calcRMBlock calcQs
  dsimp only
  rw [one_smul, one_smul, mq_correct L, qtm_correct L, mq_correct L, qtmq_correct L _ _ hE]
  congr 2
  · congr 1
    simp
  · congr 1
    simp [Matrix.transpose_mul, hE, Matrix.mul_assoc]

/-- **C64**: the block is symmetric -/
theorem rmBlock_symm (L : Laws T) (E : TM D R) (hE : Eᵀ = E) (vi vj : VData D R) (a b : Fin 2) :
    (calcRMBlock T E vi vj a b)ᵀ = calcRMBlock T E vi vj b a := by
  rw [calcRMBlock_eq L E hE]
  fin_cases a <;> fin_cases b <;> simp [Matrix.transpose_mul, hE, Matrix.mul_assoc]

/-- **C64**: its energy is that of the jump between the two transported unknowns -/
theorem rmBlock_energy (L : Laws T) (E : TM D R) (hE : Eᵀ = E) (vi vj : VData D R) (u : Fin 2 → Fin D ⊕ Fin R → ℝ) :
    blockForm (calcRMBlock T E vi vj) u =
      ((calcQs T vi vj).1 *ᵥ u 0 - (calcQs T vi vj).2 *ᵥ u 1) ⬝ᵥ
        (E *ᵥ ((calcQs T vi vj).1 *ᵥ u 0 - (calcQs T vi vj).2 *ᵥ u 1)) := by
  rw [calcRMBlock_eq L E hE]
  simp only [blockForm, Fin.sum_univ_two]
  simp only [Matrix.cons_val_zero, Matrix.cons_val_one, Matrix.neg_mulVec, dotProduct_neg,
    ← Matrix.mulVec_mulVec, Matrix.mulVec_sub, dotProduct_sub, sub_dotProduct]
  simp only [Matrix.dotProduct_mulVec _ (_)ᵀ, Matrix.vecMul_transpose]
  ring

/-- the two ends describe the same rigid motion -/
def SameMotion (T : TOps D R) (vi vj : VData D R) (u : Fin 2 → Fin D ⊕ Fin R → ℝ) : Prop :=
  ∀ x, motion T vi.pos vi.rotScaling (u 0) x = motion T vj.pos vj.rotScaling (u 1) x

theorem sameMotion_iff (L : Laws T) (F : Faithful T) (vi vj : VData D R) (hi : 0 < vi.rotScaling)
    (hj : 0 < vj.rotScaling) (u : Fin 2 → Fin D ⊕ Fin R → ℝ) :
    SameMotion T vi vj u ↔ (calcQs T vi vj).1 *ᵥ u 0 = (calcQs T vi vj).2 *ᵥ u 1 := by
  have hm := (calcMPData_scaling vi vj hi hj).ne'
  rw [calcQs_eq vi vj hi hj]
  constructor
  · intro h
    refine motion_inj L F (calcMPData vi vj).pos _ hm _ _ fun x => ?_
    rw [transport_motion L _ _ hm, transport_motion L _ _ hm]
    exact h x
  · intro h x
    have := congrArg (fun d => motion T (calcMPData vi vj).pos (calcMPData vi vj).rotScaling d x) h
    dsimp only at this
    rwa [transport_motion L _ _ hm, transport_motion L _ _ hm] at this

/-- **C64**: positive semidefinite, if the edge matrix is; rigid motions cost nothing and are annihilated; if the edge matrix is
definite nothing else costs nothing -/
theorem rmBlock_spec (L : Laws T) (F : Faithful T) (E : TM D R) (hE : E.PosSemidef) (vi vj : VData D R)
    (hi : 0 < vi.rotScaling) (hj : 0 < vj.rotScaling) (u : Fin 2 → Fin D ⊕ Fin R → ℝ) :
    0 ≤ blockForm (calcRMBlock T E vi vj) u ∧
    (SameMotion T vi vj u → (∀ a, ∑ b, calcRMBlock T E vi vj a b *ᵥ u b = 0)) ∧
    (E.PosDef → blockForm (calcRMBlock T E vi vj) u = 0 → SameMotion T vi vj u) := by
  have hs : Eᵀ = E := by
    have := hE.isHermitian
    rwa [IsHermitian, conjTranspose_eq_transpose_of_trivial] at this
  refine ⟨?_, fun h a => ?_, fun hp h => ?_⟩
  · rw [rmBlock_energy L E hs]
    have := hE.dotProduct_mulVec_nonneg ((calcQs T vi vj).1 *ᵥ u 0 - (calcQs T vi vj).2 *ᵥ u 1)
    rwa [star_trivial] at this
  · rw [sameMotion_iff L F vi vj hi hj] at h
    rw [calcRMBlock_eq L E hs, Fin.sum_univ_two]
    fin_cases a
    · simp only [Fin.zero_eta, Matrix.cons_val_zero, Matrix.cons_val_one, Matrix.neg_mulVec,
        ← Matrix.mulVec_mulVec, h, add_neg_cancel]
    · simp only [Fin.mk_one, Matrix.cons_val_zero, Matrix.cons_val_one, Matrix.neg_mulVec,
        ← Matrix.mulVec_mulVec, h, neg_add_cancel]
  · rw [sameMotion_iff L F vi vj hi hj]
    rw [rmBlock_energy L E hs] at h
    by_contra hne
    have := hp.dotProduct_mulVec_pos (sub_ne_zero.mpr hne)
    simp only [star_trivial] at this
    linarith

/-- **C64**, 3D -/
theorem rmBlock_rigid3 (E : TM 3 3) (hE : E.PosDef) (vi vj : VData 3 3) (hi : 0 < vi.rotScaling) (hj : 0 < vj.rotScaling)
    (u : Fin 2 → Fin 3 ⊕ Fin 3 → ℝ) :
    0 ≤ blockForm (calcRMBlock ops3 E vi vj) u ∧
    (blockForm (calcRMBlock ops3 E vi vj) u = 0 ↔
      ∀ x, motion3 vi.pos vi.rotScaling (u 0) x = motion3 vj.pos vj.rotScaling (u 1) x) := by
  obtain ⟨h1, h2, h3⟩ := rmBlock_spec laws3 faithful3 E hE.posSemidef vi vj hi hj u
  simp only [← motion_eq3]
  refine ⟨h1, h3 hE, fun h => ?_⟩
  have := h2 h
  simp only [blockForm, ← dotProduct_sum, this, dotProduct_zero, Finset.sum_const_zero]

/-- **C64**, 2D -/
theorem rmBlock_rigid2 (E : TM 2 1) (hE : E.PosDef) (vi vj : VData 2 1) (hi : 0 < vi.rotScaling) (hj : 0 < vj.rotScaling)
    (u : Fin 2 → Fin 2 ⊕ Fin 1 → ℝ) :
    0 ≤ blockForm (calcRMBlock ops2 E vi vj) u ∧
    (blockForm (calcRMBlock ops2 E vi vj) u = 0 ↔
      ∀ x, motion2 vi.pos vi.rotScaling (u 0) x = motion2 vj.pos vj.rotScaling (u 1) x) := by
  obtain ⟨h1, h2, h3⟩ := rmBlock_spec laws2 faithful2 E hE.posSemidef vi vj hi hj u
  simp only [← motion_eq2]
  refine ⟨h1, h3 hE, fun h => ?_⟩
  have := h2 h
  simp only [blockForm, ← dotProduct_sum, this, dotProduct_zero, Finset.sum_const_zero]

/-- a rotation about the third axis, seen from the two vertices of the example -/
example : (1 : TM 3 3).PosDef ∧ 0 < (exV 0).rotScaling ∧ 0 < (exV 1).rotScaling ∧
    ∃ u : Fin 2 → Fin 3 ⊕ Fin 3 → ℝ, u 0 ≠ u 1 ∧ u 0 ≠ 0 ∧ SameMotion ops3 (exV 0) (exV 1) u := by
  refine ⟨PosDef.one, by simp [exV], by simp [exV], ?_⟩
  have hm : (exV 1).rotScaling ≠ 0 := by simp [exV]
  refine ⟨![Sum.elim 0 ![0, 0, 1], calcQHh ops3 (exV 0) (exV 1) *ᵥ Sum.elim 0 ![0, 0, 1]], ?_, ?_, ?_⟩
  · intro h
    have := congrFun h (Sum.inr 2)
    rw [Matrix.cons_val_one, Matrix.cons_val_zero, calcQHh, setQ_mulVec] at this
    simp [getQiToj, exV] at this
  · intro h
    have := congrFun h (Sum.inr 2)
    simp at this
  · intro x
    simp only [Matrix.cons_val_zero, Matrix.cons_val_one]
    rw [transport_motion laws3 _ _ hm]

end NgsAMG.Elast
