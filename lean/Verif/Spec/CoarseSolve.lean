import Verif.Spec.DenseGS

/-! Specification of the inverse of the coarsest level matrix on the free unknowns (`InverseMatrix(free)`). -/

namespace NgsAMG.Spec
open Matrix

/-- `c` is linear, its results live on the free unknowns below `n`, and they solve the equations of the free unknowns -/
structure CoarseSolve {k : ℕ} (n : ℕ) (A : ℕ → ℕ → Matrix (Fin k) (Fin k) ℝ) (free : ℕ → Prop) (c : (ℕ → Fin k → ℝ) → (ℕ → Fin k → ℝ)) : Prop where
  add : ∀ u v, c (u + v) = c u + c v
  smul : ∀ (s : ℝ) u, c (s • u) = s • c u
  zero : ∀ r i, (¬ free i ∨ n ≤ i) → c r i = 0
  solve : ∀ r i, i < n → free i → mulBlock n A (c r) i = r i

end NgsAMG.Spec
