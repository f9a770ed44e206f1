import Mathlib.Data.Matrix.Mul
import Mathlib.Data.Real.Basic

/-! Model of NGSolve's `SparseMatrix` as it is used by the code. NGSolve is not part of /repo; `GetRowIndices(i)`,
`GetRowValues(i)` (used e.g. in linalg/utils_sparseMM.cpp:32-36), `RowTimesVector`, `AddRowTransToVector`
(smoothers/gssmoother.cpp:209,275) and `A(i,j)` (smoothers/gssmoother.cpp:155) have the meaning given here.
Simplification: a row is the list of its (column, value) pairs instead of a slice of two global arrays. -/

namespace NgsAMG

/-- compressed row matrix with entries in `E` -/
structure CSR (E : Type*) where
  height : ℕ
  width : ℕ
  row : ℕ → List (ℕ × E)

namespace CSR

variable {E : Type*}

/-- what NGSolve guarantees: columns increase strictly within a row and are in range; only `height` rows exist -/
structure WF (A : CSR E) : Prop where
  sorted : ∀ i, ((A.row i).map Prod.fst).Pairwise (· < ·)
  inRange : ∀ i, ∀ e ∈ A.row i, e.1 < A.width
  outside : ∀ i, A.height ≤ i → A.row i = []

/-- the dense matrix entry represented by the sparse matrix: sum of everything stored at `(i,j)` -/
def entry [AddMonoid E] (A : CSR E) (i j : ℕ) : E := (((A.row i).filter (fun e => e.1 = j)).map Prod.snd).sum

/-- `A(i,j)`: value at the first position with column `j`, zero if there is none -/
def lookup [Zero E] (A : CSR E) (i j : ℕ) : E :=
  (((A.row i).find? (fun e => e.1 = j)).map Prod.snd).getD 0

end CSR

/-- block entries `Mat<k,k,double>`; `k = 1` is the scalar case -/
abbrev Blk (k : ℕ) := Matrix (Fin k) (Fin k) ℝ
/-- block vectors; only indices below the height are meaningful -/
abbrev BVec (k : ℕ) := ℕ → Fin k → ℝ

open Matrix

/-- `A.RowTimesVector(i, x)` -/
def rowTimesVector {k : ℕ} (A : CSR (Blk k)) (i : ℕ) (x : BVec k) : Fin k → ℝ :=
  (A.row i).foldl (fun s e => s + e.2 *ᵥ x e.1) 0

/-- `A.AddRowTransToVector(i, w, r)`: `r_j += a_ij^T w` for every stored entry of row `i` -/
def addRowTransToVector {k : ℕ} (A : CSR (Blk k)) (i : ℕ) (w : Fin k → ℝ) (r : BVec k) : BVec k :=
  (A.row i).foldl (fun r e => Function.update r e.1 (r e.1 + e.2ᵀ *ᵥ w)) r

/-- `b - A * x`, what `res = b; res -= A * x` computes (base_smoother.hpp:132-142) row by row -/
def multRow {k : ℕ} (A : CSR (Blk k)) (x : BVec k) : BVec k := fun i => rowTimesVector A i x

end NgsAMG
