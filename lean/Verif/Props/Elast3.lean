import Verif.Props.Elast2
import Verif.Props.MapData2

/-! C62 - C65 for the two operations sets that exist, without any assumption about them: what holds in 2D and in 3D. -/

namespace NgsAMG.Elast

open Matrix RigidMotion

/-- **C63**, 3D: the products with transports are what their names say -/
theorem products3 (q : TQ 3) (E aA : TM 3 3) (val : ℝ) :
    mq ops3 q E = E * setQ ops3 1 q ∧ qtm ops3 q E = (setQ ops3 1 q)ᵀ * E ∧
    calcMQ val E (setQ ops3 1 q) = val • (E * setQ ops3 1 q) ∧
    (Eᵀ = E → qtmq ops3 q E = (setQ ops3 1 q)ᵀ * E * setQ ops3 1 q ∧
      qtMQ (setQ ops3 1 q) E = (setQ ops3 1 q)ᵀ * E * setQ ops3 1 q ∧
      addQtMQ val aA (setQ ops3 1 q) E = aA + val • ((setQ ops3 1 q)ᵀ * E * setQ ops3 1 q)) :=
  ⟨mq_correct laws3 q E, qtm_correct laws3 q E, calcMQ_correct val E q,
    fun h => ⟨qtmq_correct laws3 q E h, qtMQ_correct E q h, addQtMQ_correct val aA E q h⟩⟩

/-- **C63**, 2D -/
theorem products2 (q : TQ 2) (E aA : TM 2 1) (val : ℝ) :
    mq ops2 q E = E * setQ ops2 1 q ∧ qtm ops2 q E = (setQ ops2 1 q)ᵀ * E ∧
    calcMQ val E (setQ ops2 1 q) = val • (E * setQ ops2 1 q) ∧
    (Eᵀ = E → qtmq ops2 q E = (setQ ops2 1 q)ᵀ * E * setQ ops2 1 q ∧
      qtMQ (setQ ops2 1 q) E = (setQ ops2 1 q)ᵀ * E * setQ ops2 1 q ∧
      addQtMQ val aA (setQ ops2 1 q) E = aA + val • ((setQ ops2 1 q)ᵀ * E * setQ ops2 1 q)) :=
  ⟨mq_correct laws2 q E, qtm_correct laws2 q E, calcMQ_correct val E q,
    fun h => ⟨qtmq_correct laws2 q E h, qtMQ_correct E q h, addQtMQ_correct val aA E q h⟩⟩

/-- a symmetric matrix and a transport with everything non-zero -/
example : ∃ (E : TM 3 3) (q : TQ 3), Eᵀ = E ∧ qtmq ops3 q E ≠ E :=
  ⟨1, ⟨2, ![1, 0, 0]⟩, by simp, fun h => by
    rw [qtmq_correct laws3 _ _ (by simp)] at h
    have := congrFun (congrFun h (Sum.inr 0)) (Sum.inr 0)
    simp [setQ, ops3, Matrix.mul_apply, Fintype.sum_sum_type, Matrix.one_apply, Fin.sum_univ_three] at this
    norm_num at this⟩

/-- **C62**, 3D: transports compose; the two transports of an edge meet in its mid-point and are inverted by `CalcInvQs` -/
theorem transports3 (va vb vc : VData 3 3) (ha : 0 < va.rotScaling) (hb : 0 < vb.rotScaling) :
    calcQHh ops3 vb vc * calcQHh ops3 va vb = calcQHh ops3 va vc ∧
    calcQs ops3 va vb = (calcQHh ops3 va (calcMPData va vb), calcQHh ops3 vb (calcMPData va vb)) ∧
    calcQij ops3 va vb = calcQHh ops3 va (calcMPData va vb) ∧
    calcQs ops3 vb va = ((calcQs ops3 va vb).2, (calcQs ops3 va vb).1) ∧
    (calcInvQs ops3 va vb).1 * (calcQs ops3 va vb).1 = 1 ∧ (calcInvQs ops3 va vb).2 * (calcQs ops3 va vb).2 = 1 :=
  ⟨transport_comp laws3 va vb vc hb.ne', edge_transport laws3 va vb ha hb⟩

/-- **C62**, 2D -/
theorem transports2 (va vb vc : VData 2 1) (ha : 0 < va.rotScaling) (hb : 0 < vb.rotScaling) :
    calcQHh ops2 vb vc * calcQHh ops2 va vb = calcQHh ops2 va vc ∧
    calcQs ops2 va vb = (calcQHh ops2 va (calcMPData va vb), calcQHh ops2 vb (calcMPData va vb)) ∧
    calcQij ops2 va vb = calcQHh ops2 va (calcMPData va vb) ∧
    calcQs ops2 vb va = ((calcQs ops2 va vb).2, (calcQs ops2 va vb).1) ∧
    (calcInvQs ops2 va vb).1 * (calcQs ops2 va vb).1 = 1 ∧ (calcInvQs ops2 va vb).2 * (calcQs ops2 va vb).2 = 1 :=
  ⟨transport_comp laws2 va vb vc hb.ne', edge_transport laws2 va vb ha hb⟩

example : 0 < (exV 0).rotScaling ∧ 0 < (exV 1).rotScaling := ⟨by simp [exV], by simp [exV]⟩

/-- **C64**, 3D, every symmetric edge matrix: symmetric, and the energy is that of the jump at the mid-point -/
theorem rmBlock_energy3 (E : TM 3 3) (hE : Eᵀ = E) (vi vj : VData 3 3) (u : Fin 2 → Fin 3 ⊕ Fin 3 → ℝ) :
    (∀ a b, (calcRMBlock ops3 E vi vj a b)ᵀ = calcRMBlock ops3 E vi vj b a) ∧
    blockForm (calcRMBlock ops3 E vi vj) u =
      ((calcQs ops3 vi vj).1 *ᵥ u 0 - (calcQs ops3 vi vj).2 *ᵥ u 1) ⬝ᵥ
        (E *ᵥ ((calcQs ops3 vi vj).1 *ᵥ u 0 - (calcQs ops3 vi vj).2 *ᵥ u 1)) :=
  ⟨rmBlock_symm laws3 E hE vi vj, rmBlock_energy laws3 E hE vi vj u⟩

/-- **C64**, 2D -/
theorem rmBlock_energy2 (E : TM 2 1) (hE : Eᵀ = E) (vi vj : VData 2 1) (u : Fin 2 → Fin 2 ⊕ Fin 1 → ℝ) :
    (∀ a b, (calcRMBlock ops2 E vi vj a b)ᵀ = calcRMBlock ops2 E vi vj b a) ∧
    blockForm (calcRMBlock ops2 E vi vj) u =
      ((calcQs ops2 vi vj).1 *ᵥ u 0 - (calcQs ops2 vi vj).2 *ᵥ u 1) ⬝ᵥ
        (E *ᵥ ((calcQs ops2 vi vj).1 *ᵥ u 0 - (calcQs ops2 vi vj).2 *ᵥ u 1)) :=
  ⟨rmBlock_symm laws2 E hE vi vj, rmBlock_energy laws2 E hE vi vj u⟩

end NgsAMG.Elast

namespace NgsAMG.MapData

open Matrix Elast

/-- **C65**, 3D -/
theorem elMap_galerkin3_partial (F : Mesh (VData 3 3) (TM 3 3)) (C : CMap) (isCenter : ℕ → Bool)
    (ok : MapOK F C) (dok : DataOK F) (hfirst : ∀ cv < C.ncv, c2f F C cv ≠ [])
    (hcenter : ∀ v < F.nv, ∀ cv, C.vmap v = some cv → (isCenter v = true ↔ v = rep F C cv))
    (hground : ∀ e < F.edges.length, ∀ cv, groundVertex C (F.edge e) e = some cv →
      (groundFine C (F.edge e)).1 = rep F C cv) (U : ℕ → Fin 3 ⊕ Fin 3 → ℝ) :
    elEnergy ops3 (elMap ops3 F C isCenter) U
      = elEnergy ops3 F (act (pwProl (calcQHh ops3) F C (elMapV ops3 F C isCenter)) U) :=
  elMap_galerkin_partial laws3 F C isCenter ok dok hfirst hcenter hground U

/-- **C65**, 2D -/
theorem elMap_galerkin2_partial (F : Mesh (VData 2 1) (TM 2 1)) (C : CMap) (isCenter : ℕ → Bool)
    (ok : MapOK F C) (dok : DataOK F) (hfirst : ∀ cv < C.ncv, c2f F C cv ≠ [])
    (hcenter : ∀ v < F.nv, ∀ cv, C.vmap v = some cv → (isCenter v = true ↔ v = rep F C cv))
    (hground : ∀ e < F.edges.length, ∀ cv, groundVertex C (F.edge e) e = some cv →
      (groundFine C (F.edge e)).1 = rep F C cv) (U : ℕ → Fin 2 ⊕ Fin 1 → ℝ) :
    elEnergy ops2 (elMap ops2 F C isCenter) U
      = elEnergy ops2 F (act (pwProl (calcQHh ops2) F C (elMapV ops2 F C isCenter)) U) :=
  elMap_galerkin_partial laws2 F C isCenter ok dok hfirst hcenter hground U

end NgsAMG.MapData
