import Verif.Model.SparseMM
import Verif.Model.Traversal
import Mathlib.Data.Nat.Basic
import Mathlib.Data.Fintype.Card

/-!
Model of the sparse matrix utilities of `/repo/src/base/linalg/utils_sparseLA.{hpp,cpp}`: sums, identity, permutation
matrices, embedding, dropping of small entries, restriction to blocks, conversion of symbolic expressions.

Two-pass loops (count the entries of each row, allocate, run the same iteration again to fill) are modelled by the list of
entries the second pass writes. Local (not parallel) matrices only. `none`: undefined behaviour or exception.
-/

namespace NgsAMG.SparseLA

open Matrix SparseMM Traversal

variable {K : Type*} [CommRing K] {a b c : ℕ}

/-- utils_sparseLA.cpp:189-192: the three callbacks. The code reads `rvsA[idxB]` (not `rvsB[idxB]`) in the second and third;
reading behind the end of the row is an error -/
def mergeEv {E : Type*} [Add E] (ra rb : List (ℕ × E)) : Ev → Option (ℕ × E)
  | .aNotB i => ra[i]?
  | .bNotA j => (rb[j]?).bind fun e => (ra[j]?).map fun f => (e.1, f.2)
  | .inter i j => (ra[i]?).bind fun e => (ra[j]?).map fun f => (e.1, e.2 + f.2)

/-- utils_sparseLA.cpp:164-195, one row -/
def mergeRow {E : Type*} [Add E] (ra rb : List (ℕ × E)) : Option (List (ℕ × E)) :=
  if rb.isEmpty then some ra
  else if ra.isEmpty then some rb
  else (iterABC 0 (ra.map Prod.fst) 0 (rb.map Prod.fst)).mapM (mergeEv ra rb)

/-- utils_sparseLA.cpp:151-211, `AddMergeSPM(alpha, A, beta, B)`; `alpha` and `beta` are not used by the code -/
def addMerge (_alpha : K) (A : CSR (Mt a b K)) (_beta : K) (B : CSR (Mt a b K)) : Option (CSR (Mt a b K)) :=
  (collect A.height fun i => mergeRow (A.row i) (B.row i)).map fun rows =>
    { height := A.height, width := A.width, row := rows }

/-- utils_sparseLA.cpp:213-244, `AddSPM`: columns of `A`, `alpha a_j + beta b_j` position by position; reading behind the end
of the row of `B` is an error -/
def addSPM (alpha : K) (A : CSR (Mt a b K)) (beta : K) (B : CSR (Mt a b K)) : Option (CSR (Mt a b K)) :=
  (collect A.height fun i => (A.row i).zipIdx.mapM fun e =>
    ((B.row i)[e.2]?).map fun f => (e.1.1, alpha • e.1.2 + beta • f.2)).map fun rows =>
    { height := A.height, width := A.width, row := rows }

/-- utils_sparseLA.hpp:374-388, `BuildPermutationMatrix(sort)` (`SetIdentity` sets an identity block) -/
def permutationMatrix (n : ℕ) (sort : List ℕ) : CSR (Mt n n K) where
  height := sort.length
  width := sort.length
  row k := ((sort[k]?).map fun s => [(s, (1 : Mt n n K))]).getD []

/-- utils_sparseLA.cpp:782-825, `EmbedSparseMatrix_impl(A, r, bigH)` with `r.First() = off`; writing to row counts behind the
end of the array is an error -/
def embed (A : CSR (Mt a b K)) (off bigH : ℕ) : Option (CSR (Mt a b K)) :=
  if off + A.height ≤ bigH then
    some { height := bigH
           width := A.width
           row := fun i => if off ≤ i ∧ i < off + A.height then A.row (i - off) else [] }
  else none

/-- utils_sparseLA.cpp:837-867, `createSparseIdentityImpl(H, onRows)`. The column index written is the constant `1`; assigning
the number `1.0` to a block sets all its entries (`SetIdentity` would be the unit block) -/
def sparseIdentity (n : ℕ) (H : ℕ) (onRows : Option (ℕ → Bool)) : CSR (Mt n n K) where
  height := H
  width := H
  row k := if k < H ∧ onRows.elim true (fun f => f k) then [(1, fun _ _ => 1)] else []

/-- utils_sparseLA.cpp:955-966, `abssum_tm`: sum of absolute values for blocks, the value itself (not its absolute value) for
numbers; `Mat<1,1>` is stored as number (`strip_mat`) -/
def absSum {n m : ℕ} (M : Mt n m ℝ) : ℝ :=
  if h : n = 1 ∧ m = 1 then M ⟨0, by omega⟩ ⟨0, by omega⟩ else ∑ i, ∑ j, |M i j|

/-- utils_sparseLA.cpp:968-1006, `CompressA_impl(A, thresh)` -/
noncomputable def compress {n m : ℕ} (A : CSR (Mt n m ℝ)) (thresh : ℝ) : CSR (Mt n m ℝ) where
  height := A.height
  width := A.width
  row k := by
    classical exact if k < A.height then (A.row k).filter (fun e => thresh < absSum e.2) else []

/-- utils_sparseLA.cpp:1008-1021, `CompressAGeneric(A, thresh)` -/
noncomputable def compressGeneric {n m : ℕ} (A : CSR (Mt n m ℝ)) (thresh : ℝ) : CSR (Mt n m ℝ) :=
  compress A (thresh * n * m)

/-- utils_sparseLA.cpp:1060: `rvs[idx] = 0.0` -/
def zeroAt {E : Type*} [Zero E] (row : List (ℕ × E)) (idx : ℕ) : List (ℕ × E) := row.modify idx fun e => (e.1, 0)

/-- utils_sparseLA.cpp:1053-1061: one row of one block -/
def zeroRow {E : Type*} [Zero E] (colBlock : List ℕ) (A : CSR E) (r : ℕ) : CSR E :=
  let new := (iterANotB 0 ((A.row r).map Prod.fst) colBlock).foldl zeroAt (A.row r)
  { A with row := Function.update A.row r new }

/-- utils_sparseLA.cpp:1049-1062: all blocks, given as pairs (row block, column block); `A` is modified in place -/
def zeroBlocks {E : Type*} [Zero E] (blocks : List (List ℕ × List ℕ)) (A : CSR E) : CSR E :=
  blocks.foldl (fun A blk => blk.1.foldl (zeroRow blk.2) A) A

/-- utils_sparseLA.cpp:1041-1065, `restrictMatrixToBlocksImpl` -/
noncomputable def restrictToBlocks {n m : ℕ} (A : CSR (Mt n m ℝ)) (blocks : List (List ℕ × List ℕ)) (tol : ℝ) :
    CSR (Mt n m ℝ) := compress (zeroBlocks blocks A) tol

/-- utils_sparseLA.cpp:518-519, 554-564, 594: dimensions computed by `Block2SparseMatrix_impl` for blocks with heights `hs`
and widths `ws`: both loops add to `totalH`, `totalW` stays zero. (Simplification: only the dimensions of the result; the
column offsets `colOff` are never initialised.) -/
def block2SparseDims (hs ws : List ℕ) : ℕ × ℕ :=
  let totalH := hs.foldl (· + ·) 0
  (ws.foldl (· + ·) totalH, 0)

/-- symbolic matrix expressions `BaseMatrixToSparse` knows about, utils_sparseLA.cpp:1154-1313 (NGSolve classes
`SparseMatrix`, `Transpose`, `ProductMatrix`, `SumMatrix`, `IdentityMatrix`, `VScaleMatrix`, `EmbeddedMatrix`). Simplification:
block dimensions are part of the type, so the run time check of utils_sparseLA.cpp:438-443 always passes; all block dimensions
are assumed to be compiled; local matrices only; no `BlockMatrix`, no `ElementByElementMatrix`. -/
inductive Expr (K : Type) : ℕ → ℕ → Type
  | sparse {a b : ℕ} (A : CSR (Mt a b K)) : Expr K a b
  | trans {a b : ℕ} (e : Expr K a b) : Expr K b a
  | prod {a b c : ℕ} (e : Expr K a b) (f : Expr K b c) : Expr K a c
  | sum {a b : ℕ} (e f : Expr K a b) : Expr K a b
  | ident {a : ℕ} : Expr K a a
  | scale {a b : ℕ} (s : K) (e : Expr K a b) : Expr K a b
  | embed {a b : ℕ} (e : Expr K a b) (off bigH : ℕ) : Expr K a b

section
variable {K : Type} [CommRing K] (nhash : ℕ → ℕ) (junk mjunk : ℕ → ℕ → ℕ × ℕ)

/-- utils_sparseLA.cpp:1200-1256: product, given the converted factors; identity factors are skipped (right one first) -/
def prodConv {a b c : ℕ} (e : Expr K a b) (f : Expr K b c) (se : Option (CSR (Mt a b K))) (sf : Option (CSR (Mt b c K))) :
    Option (CSR (Mt a c K)) :=
  match f, sf with
  | .ident, _ => se
  | _, sf => match e, se with
    | .ident, _ => sf
    | _, se => se.bind fun A => sf.bind fun B => matMultAB nhash junk mjunk A B

/-- utils_sparseLA.cpp:1258-1280, 1023-1039: sum, given the converted summands; an identity summand becomes a sparse identity of
the size of the other one (an exception if that is not square) -/
def sumConv {a b : ℕ} (e f : Expr K a b) (se sf : Option (CSR (Mt a b K))) : Option (CSR (Mt a b K)) :=
  match f, se, sf with
  | .ident, se, _ => se.bind fun A =>
      if A.height = A.width then addMerge 1 A 1 (sparseIdentity _ A.height none) else none
  | _, se, sf => match e, se, sf with
    | .ident, _, sf => sf.bind fun B =>
        if B.height = B.width then addMerge 1 (sparseIdentity _ B.height none) 1 B else none
    | _, se, sf => se.bind fun A => sf.bind fun B =>
        if A.height = B.height ∧ A.width = B.width then addMerge 1 A 1 B else none

/-- utils_sparseLA.cpp:1154-1313, `BaseMatrixToSparse` -/
def toSparse {a b : ℕ} : Expr K a b → Option (CSR (Mt a b K))
  | .sparse A => some A
  | .trans e => (toSparse e).bind transpose
  | .prod e f => prodConv nhash junk mjunk e f (toSparse e) (toSparse f)
  | .sum e f => sumConv e f (toSparse e) (toSparse f)
  | .ident => none
  | .scale _ _ => none
  | .embed e off bigH => (toSparse e).bind fun A => SparseLA.embed A off bigH

end

end NgsAMG.SparseLA
