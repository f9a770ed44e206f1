import Mathlib.LinearAlgebra.CrossProduct
import Mathlib.Data.Real.Basic

/-! What the degrees of freedom of a vertex mean in elasticity. A vertex at position `p` with rotation scaling `s` carries a
displacement `u` and a (scaled) rotation `w`; together they describe an infinitesimal rigid motion of the whole space. -/

namespace NgsAMG.RigidMotion

open scoped Matrix

/-- 3D: displacement at `x` of the rigid motion described by dofs `d` at a vertex `(p, s)`: `u + s w × (x - p)` -/
def motion3 (p : Fin 3 → ℝ) (s : ℝ) (d : Fin 3 ⊕ Fin 3 → ℝ) (x : Fin 3 → ℝ) : Fin 3 → ℝ :=
  (fun k => d (Sum.inl k)) + crossProduct (s • fun k => d (Sum.inr k)) (x - p)

/-- 2D: displacement at `x`: `u + s w J (x - p)`, `J` the rotation by a right angle -/
def motion2 (p : Fin 2 → ℝ) (s : ℝ) (d : Fin 2 ⊕ Fin 1 → ℝ) (x : Fin 2 → ℝ) : Fin 2 → ℝ :=
  fun k => d (Sum.inl k) + s * d (Sum.inr 0) * (![-(x 1 - p 1), x 0 - p 0] k)

end NgsAMG.RigidMotion
