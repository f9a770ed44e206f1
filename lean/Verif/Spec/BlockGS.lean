import Verif.Spec.DenseGS

/-! Specification: textbook block Gauss-Seidel (multiplicative Schwarz) for a dense matrix with entries of size `k × k`. No model definitions are used here.
A block is a list of unknowns `dofs` with a matrix `D` (the inverse of the diagonal block); blocks may overlap. -/

namespace NgsAMG.Spec
open Matrix

variable {k : ℕ}

/-- correction of one block: `x_I ← x_I + D (b - A x)_I`, all other entries stay -/
noncomputable def blockRow (n : ℕ) (A : ℕ → ℕ → Matrix (Fin k) (Fin k) ℝ) (dofs : List ℕ) (D : Matrix (Fin dofs.length × Fin k) (Fin dofs.length × Fin k) ℝ)
    (b x : ℕ → Fin k → ℝ) : ℕ → Fin k → ℝ :=
  fun j c => x j c + ∑ p : Fin dofs.length, if dofs[p] = j then ∑ q, D (p, c) q * (b - mulBlock n A x) dofs[q.1] q.2 else 0

/-- the corrections of the blocks, one after the other -/
noncomputable def blockSweep (n : ℕ) (A : ℕ → ℕ → Matrix (Fin k) (Fin k) ℝ)
    (Bs : List ((dofs : List ℕ) × Matrix (Fin dofs.length × Fin k) (Fin dofs.length × Fin k) ℝ)) (x b : ℕ → Fin k → ℝ) : ℕ → Fin k → ℝ :=
  Bs.foldl (fun x B => blockRow n A B.1 B.2 b x) x

/-- the diagonal block of `A` that belongs to the unknowns `dofs` -/
def diagBlock (A : ℕ → ℕ → Matrix (Fin k) (Fin k) ℝ) (dofs : List ℕ) : Matrix (Fin dofs.length × Fin k) (Fin dofs.length × Fin k) ℝ :=
  fun p q => A dofs[p.1] dofs[q.1] p.2 q.2

end NgsAMG.Spec
