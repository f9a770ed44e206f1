import Mathlib.Data.Matrix.Block
import Mathlib.Data.Matrix.ColumnRowPartitioned
import Mathlib.Data.Matrix.Mul
import Mathlib.LinearAlgebra.Matrix.Notation
import Mathlib.Analysis.SpecialFunctions.Pow.Real

/-! Model of the auxiliary energies of elasticity in 2D and 3D: elasticity/elasticity_energy.hpp and
elasticity_energy_impl.hpp. A `Mat<DPV,DPV>` is a matrix indexed by displacement (`Fin D`) and rotation (`Fin R`) components;
`FlatMat<0,DISPPV,..>` views are its blocks. Doubles are real numbers. A scratch matrix that is not completely written
(elasticity_energy.hpp:416-424) keeps its previous contents, which are the extra argument `junk`. -/

namespace NgsAMG.Elast

open Matrix

/-- the functions of the nested class `TT` (elasticity_energy.hpp:112-447), which exist for `DIM == 2` and `DIM == 3` -/
structure TOps (D R : ℕ) where
  /-- `SetSkT` (126-150) -/
  skT : (Fin D → ℝ) → Matrix (Fin D) (Fin R) ℝ
  /-- `CalcMT` (152-187) -/
  mt : ∀ {n : Type}, (Fin D → ℝ) → Matrix n (Fin D) ℝ → Matrix n (Fin R) ℝ
  /-- `CalcTTM` (189-224) -/
  ttm : ∀ {n : Type}, (Fin D → ℝ) → Matrix (Fin D) n ℝ → Matrix (Fin R) n ℝ
  /-- `CalcTTMSymm` (226-265) -/
  ttmSymm : (Fin D → ℝ) → Matrix (Fin D) (Fin R) ℝ → Matrix (Fin R) (Fin R) ℝ
  /-- `CalcTM` (287-336) -/
  tm : ∀ {n : Type}, (Fin D → ℝ) → Matrix (Fin R) n ℝ → Matrix (Fin D) n ℝ
  /-- `CalcMTT` (338-382) -/
  mtt : ∀ {n : Type}, (Fin D → ℝ) → Matrix n (Fin R) ℝ → Matrix n (Fin D) ℝ
  /-- `CalcMTTSymm` (384-426); the last argument is what the output matrix contained before -/
  mttSymm : (Fin D → ℝ) → Matrix (Fin D) (Fin R) ℝ → Matrix (Fin D) (Fin D) ℝ → Matrix (Fin D) (Fin D) ℝ

/-- the `DIM == 2` branches (elasticity_energy.hpp:134-138, 165-171, 202-208, 238-241, 299-310, 351-359, 396-403) -/
def ops2 : TOps 2 1 where
  skT t := !![-t 1; t 0]
  mt t M := of fun l _ => t 0 * M l 1 - t 1 * M l 0
  ttm t M := of fun _ l => t 0 * M 1 l - t 1 * M 0 l
  ttmSymm t A := of fun _ _ => t 0 * A 1 0 - t 1 * A 0 0
  tm t M := of ![fun l => -t 1 * M 0 l, fun l => t 0 * M 0 l]
  mtt t M := of fun l => ![-t 1 * M l 0, t 0 * M l 0]
  mttSymm t X _ := !![-t 1 * X 0 0, t 0 * X 0 0; t 0 * X 0 0, t 0 * X 1 0]

/-- the `DIM == 3` branches (elasticity_energy.hpp:139-147, 172-186, 209-223, 242-264, 311-334, 360-381, 404-425). In
`mttSymm` the last line of the code (424) assigns entry `(0,2)` a second time, entry `(2,2)` is never assigned -/
def ops3 : TOps 3 3 where
  skT t := !![0, t 2, -t 1; -t 2, 0, t 0; t 1, -t 0, 0]
  mt t M := of fun l => ![t 1 * M l 2 - t 2 * M l 1, t 2 * M l 0 - t 0 * M l 2, t 0 * M l 1 - t 1 * M l 0]
  ttm t M := of ![fun l => t 1 * M 2 l - t 2 * M 1 l, fun l => t 2 * M 0 l - t 0 * M 2 l,
    fun l => t 0 * M 1 l - t 1 * M 0 l]
  ttmSymm t A :=
    let r0 := fun l => t 1 * A 2 l - t 2 * A 1 l
    let r1 := fun l => t 2 * A 0 l - t 0 * A 2 l
    !![r0 0, r0 1, r0 2; r0 1, r1 1, r1 2; r0 2, r1 2, t 0 * A 1 2 - t 1 * A 0 2]
  tm t M := of ![fun l => t 1 * M 2 l - t 2 * M 1 l, fun l => t 2 * M 0 l - t 0 * M 2 l,
    fun l => t 0 * M 1 l - t 1 * M 0 l]
  mtt t M := of fun l => ![t 2 * M l 1 - t 1 * M l 2, t 0 * M l 2 - t 2 * M l 0, t 1 * M l 0 - t 0 * M l 1]
  mttSymm t X junk :=
    let c0 := fun l => t 2 * X l 1 - t 1 * X l 2
    let c1 := fun l => t 0 * X l 2 - t 2 * X l 0
    !![c0 0, c0 1, t 1 * X 1 0 - t 0 * X 2 1; c0 1, c1 1, c1 2; c0 2, c1 2, junk 2 2]

/-- `Mat<DPV,DPV>` -/
abbrev TM (D R : ℕ) := Matrix (Fin D ⊕ Fin R) (Fin D ⊕ Fin R) ℝ

/-- `ElastVData` (elasticity_mesh.hpp:20-41): position, vertex weight, scaling of the rotations -/
structure VData (D R : ℕ) where
  pos : Fin D → ℝ
  wt : TM D R
  rotScaling : ℝ

/-- class `TQ` (elasticity_energy.hpp:30-688): relative scaling `rs` and scaled tangent `tang` -/
structure TQ (D : ℕ) where
  rs : ℝ
  tang : Fin D → ℝ

variable {D R : ℕ} (T : TOps D R)

/-- `TQ::SetQ(alpha, E)` (elasticity_energy.hpp:450-493): the displacement and the rotation diagonals are multiplied by
`alpha`, the off-diagonal block is not -/
def setQ (alpha : ℝ) (q : TQ D) : TM D R :=
  fromBlocks (alpha • (1 : Matrix (Fin D) (Fin D) ℝ)) (T.skT q.tang) 0 ((alpha * q.rs) • (1 : Matrix (Fin R) (Fin R) ℝ))

/-- the branches `if (rs != 1.0) { X *= f; }` (elasticity_energy.hpp:516-519, 557-560, 607-612, 661-665) -/
noncomputable def scaleIf {m n : Type} (rs f : ℝ) (X : Matrix m n ℝ) : Matrix m n ℝ := by
  classical exact if rs ≠ 1 then f • X else X

/-- `TQ::MQ(E)` (elasticity_energy.hpp:503-525); `MQ(scal, E, E_Q)` (527-533) is `mq T q (scal • E)` -/
noncomputable def mq (q : TQ D) (E : TM D R) : TM D R :=
  let AC : Matrix (Fin D ⊕ Fin R) (Fin D) ℝ := E.submatrix id Sum.inl
  let BD : Matrix (Fin D ⊕ Fin R) (Fin R) ℝ := E.submatrix id Sum.inr
  fromCols AC (scaleIf q.rs q.rs BD + T.mt q.tang AC)

/-- `TQ::QTM(E)` (elasticity_energy.hpp:544-566); `QTM(scal, E, QT_E)` (568-574) is `qtm T q (scal • E)` -/
noncomputable def qtm (q : TQ D) (E : TM D R) : TM D R :=
  let AB : Matrix (Fin D) (Fin D ⊕ Fin R) ℝ := E.submatrix Sum.inl id
  let CD : Matrix (Fin R) (Fin D ⊕ Fin R) ℝ := E.submatrix Sum.inr id
  fromRows AB (scaleIf q.rs q.rs CD + T.ttm q.tang AB)

/-- `TQ::QTMQ(E)` (elasticity_energy.hpp:585-618); `QTMQ(scal, E, ..)` (620-626) is `qtmq T q (scal • E)` -/
noncomputable def qtmq (q : TQ D) (E : TM D R) : TM D R :=
  let A := E.toBlocks₁₁
  let B := E.toBlocks₁₂
  let C := E.toBlocks₂₂
  let A_T := T.mt q.tang A
  let TT_A_T := T.ttmSymm q.tang A_T
  let r_TT_B := scaleIf q.rs q.rs (T.ttm q.tang B)
  let B' := scaleIf q.rs q.rs B + A_T
  fromBlocks A B' B'ᵀ (scaleIf q.rs (q.rs * q.rs) C + (TT_A_T + r_TT_B + r_TT_Bᵀ))

/-- `TQ::QMQT(E)` (elasticity_energy.hpp:637-670) with `CalcTRTT` (428-445); `junk` is the initial contents of `T_C_TT` -/
noncomputable def qmqt (junk : Matrix (Fin D) (Fin D) ℝ) (q : TQ D) (E : TM D R) : TM D R :=
  let A := E.toBlocks₁₁
  let B := E.toBlocks₁₂
  let C := E.toBlocks₂₂
  let T_C := T.tm q.tang C
  let T_C_TT := T.mttSymm q.tang T_C junk
  let B_TT := T.mtt q.tang B
  let B' := scaleIf q.rs q.rs (B + T_C)
  fromBlocks (A + (B_TT + B_TTᵀ + T_C_TT)) B' B'ᵀ (scaleIf q.rs (q.rs * q.rs) C)

/-- `EpsEpsEnergy::AddQtMQ(val, aA, Qij, M)` (elasticity_energy.hpp:860-876) -/
def addQtMQ [NeZero R] (val : ℝ) (aA Qij M : TM D R) : TM D R :=
  let s := Qij (Sum.inr 0) (Sum.inr 0)
  let Q := Qij.toBlocks₁₂
  let AQpB := M.toBlocks₁₁ * Q + s • M.toBlocks₁₂
  fromBlocks (aA.toBlocks₁₁ + val • M.toBlocks₁₁) (aA.toBlocks₁₂ + val • AQpB) (aA.toBlocks₂₁ + val • AQpBᵀ)
    (aA.toBlocks₂₂ + val • (Qᵀ * AQpB + (s • M.toBlocks₂₁) * Q + (s * s) • M.toBlocks₂₂))

/-- `EpsEpsEnergy::QtMQ(Qij, M)`, in place (elasticity_energy.hpp:839-858) -/
def qtMQ [NeZero R] (Qij M : TM D R) : TM D R :=
  let s := Qij (Sum.inr 0) (Sum.inr 0)
  let Q := Qij.toBlocks₁₂
  let AQ := M.toBlocks₁₁ * Q
  let B' := s • M.toBlocks₁₂ + AQ
  fromBlocks M.toBlocks₁₁ B' B'ᵀ
    ((s * s) • M.toBlocks₂₂ + (Qᵀ * (AQ + s • M.toBlocks₁₂) + (s • M.toBlocks₂₁) * Q))

/-- `EpsEpsEnergy::SetQtMQ(val, aA, Qij, M)` (elasticity_energy.hpp:885-901); the term `BT * Q` has no factor `s` -/
def setQtMQ [NeZero R] (val : ℝ) (Qij M : TM D R) : TM D R :=
  let s := Qij (Sum.inr 0) (Sum.inr 0)
  let Q := Qij.toBlocks₁₂
  let AQpB := M.toBlocks₁₁ * Q + s • M.toBlocks₁₂
  fromBlocks (val • M.toBlocks₁₁) (val • AQpB) (val • AQpBᵀ)
    (val • (Qᵀ * AQpB + M.toBlocks₂₁ * Q + (s * s) • M.toBlocks₂₂))

/-- `EpsEpsEnergy::CalcMQ(scal, M, Q, out)` (elasticity_energy.hpp:927-940) -/
def calcMQ [NeZero R] (scal : ℝ) (M Q : TM D R) : TM D R :=
  let s := Q (Sum.inr 0) (Sum.inr 0)
  let BTQ := M.toBlocks₂₁ * Q.toBlocks₁₂
  let AQ := M.toBlocks₁₁ * Q.toBlocks₁₂
  fromBlocks (scal • M.toBlocks₁₁) (scal • (s • M.toBlocks₁₂ + AQ)) (scal • M.toBlocks₂₁) (scal • (s • M.toBlocks₂₂ + BTQ))

/-- `TQ::GetQijQji` (elasticity_energy.hpp:65-84) -/
noncomputable def getQijQji (vi vj : VData D R) : TQ D × TQ D :=
  let sqrti := Real.sqrt vi.rotScaling
  let sqrtj := Real.sqrt vj.rotScaling
  let sMid := sqrti * sqrtj
  let lambda := sqrtj / (sqrti + sqrtj)
  let tij := vj.pos - vi.pos
  let tim := lambda • tij
  let tjm := (lambda - 1) • tij
  (⟨vi.rotScaling / sMid, vi.rotScaling • tim⟩, ⟨vj.rotScaling / sMid, vj.rotScaling • tjm⟩)

/-- `TQ::GetQij` (elasticity_energy.hpp:86-101) -/
noncomputable def getQij (vi vj : VData D R) : TQ D :=
  let sqrti := Real.sqrt vi.rotScaling
  let sqrtj := Real.sqrt vj.rotScaling
  let sMid := sqrti * sqrtj
  let lambda := sqrtj / (sqrti + sqrtj)
  let tim := lambda • (vj.pos - vi.pos)
  ⟨vi.rotScaling / sMid, vi.rotScaling • tim⟩

/-- `TQ::GetQiToj` (elasticity_energy.hpp:103-110) -/
noncomputable def getQiToj (vi vj : VData D R) : TQ D :=
  ⟨vi.rotScaling / vj.rotScaling, vi.rotScaling • (vj.pos - vi.pos)⟩

/-- `EpsEpsEnergy::CalcQs` (elasticity_energy_impl.hpp:88-100) -/
noncomputable def calcQs (vi vj : VData D R) : TM D R × TM D R :=
  (setQ T 1 (getQijQji vi vj).1, setQ T 1 (getQijQji vi vj).2)

/-- `EpsEpsEnergy::CalcInvQs` (elasticity_energy_impl.hpp:102-114) -/
noncomputable def calcInvQs (vi vj : VData D R) : TM D R × TM D R :=
  (setQ T 1 (getQijQji vi vj).2, setQ T 1 (getQijQji vi vj).1)

/-- `EpsEpsEnergy::CalcQij` (elasticity_energy_impl.hpp:51-59) -/
noncomputable def calcQij (vi vj : VData D R) : TM D R := setQ T 1 (getQij vi vj)

/-- `EpsEpsEnergy::CalcQHh` (elasticity_energy_impl.hpp:70-77); the argument `glob_scale` has no effect -/
noncomputable def calcQHh (vH vh : VData D R) : TM D R := setQ T 1 (getQiToj vH vh)

/-- `EpsEpsEnergy::CalcMPData` (elasticity_energy_impl.hpp:226-259); `TVD o(0)` has weight zero -/
noncomputable def calcMPData (va vb : VData D R) : VData D R :=
  let sqrti := Real.sqrt va.rotScaling
  let sqrtj := Real.sqrt vb.rotScaling
  let lambda := sqrtj / (sqrti + sqrtj)
  { pos := (1 - lambda) • va.pos + lambda • vb.pos
    wt := 0
    rotScaling := sqrti * sqrtj }

/-- `EpsEpsEnergy::CalcMPDataWW` (elasticity_energy_impl.hpp:261-272) -/
noncomputable def calcMPDataWW [NeZero R] (va vb : VData D R) : VData D R :=
  let Q := calcQs T va vb
  { calcMPData va vb with wt := addQtMQ 1 (setQtMQ 1 Q.2 va.wt) Q.1 vb.wt }

/-- `CalcRMBlockImpl<true>` (elasticity_energy.hpp:755-782): the four blocks of the contribution of an edge to the
replacement matrix; `CalcRMBlockImpl<false>` computes the first two -/
noncomputable def calcRMBlock (E : TM D R) (vi vj : VData D R) : Fin 2 → Fin 2 → TM D R :=
  let Q := getQijQji vi vj
  let QijT_E := qtm T Q.1 ((1 : ℝ) • E)
  let QijT_E_Qij := mq T Q.1 ((1 : ℝ) • QijT_E)
  let QijT_E_Qji := mq T Q.2 ((-1 : ℝ) • QijT_E)
  let QjiT_E_Qij := QijT_E_Qjiᵀ
  let QjiT_E_Qji := qtmq T Q.2 ((1 : ℝ) • E)
  ![![QijT_E_Qij, QijT_E_Qji], ![QjiT_E_Qij, QjiT_E_Qji]]

end NgsAMG.Elast
