import Mathlib.LinearAlgebra.Matrix.PosDef

/-! Specification of the dense inverses of diagonal blocks (`CalcPseudoInverseTryNormal` in the code). -/

namespace NgsAMG.Spec
open Matrix

/-- `D` is a symmetric positive semidefinite (generalized) inverse of `M`, and the inverse if `M` is positive definite -/
structure PInv {ι : Type*} [Fintype ι] [DecidableEq ι] (M D : Matrix ι ι ℝ) : Prop where
  symm : Dᵀ = D
  pinv : D * M * D = D
  pos : ∀ v, 0 ≤ v ⬝ᵥ (D *ᵥ v)
  inv : M.PosDef → D = M⁻¹

end NgsAMG.Spec
