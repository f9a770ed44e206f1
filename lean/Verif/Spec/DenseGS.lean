import Mathlib.Data.Matrix.Mul
import Mathlib.Data.Real.Basic
import Mathlib.Algebra.BigOperators.Group.Finset.Basic

/-! Specification: textbook (block) Gauss-Seidel for a dense block matrix. No model definitions are used here. -/

namespace NgsAMG.Spec
open Matrix

variable {k : ℕ}

/-- `(A x)_i = Σ_{j<n} A_ij x_j` -/
def mulBlock (n : ℕ) (A : ℕ → ℕ → Matrix (Fin k) (Fin k) ℝ) (x : ℕ → Fin k → ℝ) : ℕ → Fin k → ℝ :=
  fun i => ∑ j ∈ Finset.range n, A i j *ᵥ x j

/-- one Gauss-Seidel update of row `i` with inverse diagonal `d` -/
def gsRow (n : ℕ) (A : ℕ → ℕ → Matrix (Fin k) (Fin k) ℝ) (d : ℕ → Matrix (Fin k) (Fin k) ℝ)
    (b : ℕ → Fin k → ℝ) (x : ℕ → Fin k → ℝ) (i : ℕ) : ℕ → Fin k → ℝ :=
  fun j => if j = i then x i + d i *ᵥ (b i - mulBlock n A x i) else x j

/-- Gauss-Seidel over the rows in the given order -/
def gsSweep (n : ℕ) (A : ℕ → ℕ → Matrix (Fin k) (Fin k) ℝ) (d : ℕ → Matrix (Fin k) (Fin k) ℝ)
    (rows : List ℕ) (x b : ℕ → Fin k → ℝ) : ℕ → Fin k → ℝ :=
  rows.foldl (gsRow n A d b) x

/-- the rows a sweep must visit: those in `[first,next)` that are free, increasing -/
def freeRows (n first next : ℕ) (free : ℕ → Prop) [DecidablePred free] : List ℕ :=
  (List.range n).filter (fun i => first ≤ i ∧ i < next ∧ free i)

/-- Euclidean inner product of block vectors -/
def ip (n : ℕ) (u v : ℕ → Fin k → ℝ) : ℝ := ∑ i ∈ Finset.range n, u i ⬝ᵥ v i

/-- energy `⟨A e, e⟩` -/
def energy (n : ℕ) (A : ℕ → ℕ → Matrix (Fin k) (Fin k) ℝ) (e : ℕ → Fin k → ℝ) : ℝ := ip n (mulBlock n A e) e

end NgsAMG.Spec
