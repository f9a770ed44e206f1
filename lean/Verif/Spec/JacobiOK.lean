import Verif.Spec.DenseGS

/-! Specification: condition under which one step of the damped Jacobi method reduces the energy. -/

namespace NgsAMG.Spec
open Matrix

/-- `omega ⟨A u, u⟩ < 2 ⟨D u, u⟩` for vectors on the free unknowns that are not zero; `D` is the diagonal of `A` -/
def JacobiOK {k : ℕ} (omega : ℝ) (n : ℕ) (A : ℕ → ℕ → Matrix (Fin k) (Fin k) ℝ) (free : ℕ → Prop) : Prop :=
  ∀ u : ℕ → Fin k → ℝ, (∀ i, ¬ free i → u i = 0) → (∃ i < n, u i ≠ 0) → omega * energy n A u < 2 * ∑ i ∈ Finset.range n, u i ⬝ᵥ (A i i *ᵥ u i)

end NgsAMG.Spec
