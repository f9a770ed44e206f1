import Verif.Model.CSR
import Verif.Model.MergeArrays

/-!
Model of the sparse matrix kernels of `/repo/src/base/linalg/utils_sparseMM.{hpp,cpp}`: transposition, sparse
matrix-matrix product (symbolic and numeric phase), update of the values of a product, Galerkin projection.

The loops over rows run in parallel in the code (`ParallelForRange`); each iteration writes only its own row, and the only
state that survives from one row to the next is the thread-local scratch table `hash`, whose content at the beginning of a
row is arbitrary here (`junk`). Entries of rows are written in order, so a row under construction is a list that grows.
Column indices are `int`s in the code. `none`: undefined behaviour or exception.
-/

namespace NgsAMG.SparseMM

open Matrix

variable {K : Type*} [CommRing K] {a b c : ℕ}

/-- `Mat<a,b,double>`, entry type of `SparseMatTM<a,b>`, utils_sparseMM.cpp:55 -/
abbrev Mt (a b : ℕ) (K : Type*) := Matrix (Fin a) (Fin b) K

/-- utils_sparseMM.cpp:59-66: `cnt[c]++` for all entries; the number of entries of each column -/
def countCols {E : Type*} (A : CSR E) : ℕ → ℕ :=
  (List.range A.height).foldl
    (fun cnt i => (A.row i).foldl (fun cnt e => Function.update cnt e.1 (cnt e.1 + 1)) cnt) (fun _ => 0)

/-- utils_sparseMM.cpp:76-79, one entry: `pos = cnt[c]++`, write `(i, Trans(value))` at position `pos` of row `c`; writing
behind the allocated row is an error -/
def putTrans (size : ℕ → ℕ) (i : ℕ) (rows : Option (ℕ → List (ℕ × Mt b a K))) (e : ℕ × Mt a b K) :
    Option (ℕ → List (ℕ × Mt b a K)) :=
  rows.bind fun rows =>
    if (rows e.1).length < size e.1 then some (Function.update rows e.1 (rows e.1 ++ [(i, e.2ᵀ)])) else none

/-- utils_sparseMM.cpp:54-93, `TransposeSPMImpl`; the final `BubbleSort` (a library function) is `insertionSort` by
column index -/
def transpose (A : CSR (Mt a b K)) : Option (CSR (Mt b a K)) :=
  let size := countCols A
  ((List.range A.height).foldl (fun rows i => (A.row i).foldl (putTrans size i) rows) (some fun _ => [])).map fun rows =>
    { height := A.width
      width := A.height
      row := fun c => (rows c).insertionSort (fun x y => x.1 ≤ y.1) }

/-- utils_sparseMM.cpp:124-142, 152-174: the column indices of row `i` of the product: merge of the rows of `B` that
belong to the columns of row `i` of `A` (counting pass and filling pass do the same merge); reading a row that `B` does not
have is an error -/
def prodCols {E F : Type*} (mjunk : ℕ → ℕ × ℕ) (A : CSR E) (B : CSR F) (i : ℕ) : Option (List ℕ) :=
  if ∀ e ∈ A.row i, e.1 < B.height then MergeArrays.run mjunk ((A.row i).map fun e => (B.row e.1).map Prod.fst) else none

/-- utils_sparseMM.cpp:195-200 / 278-283: `hash[col & nhashm1] = { col, k }` for all columns of the row; `(idx, pos)` -/
def fillHash (nhash : ℕ) (cols : List ℕ) (junk : ℕ → ℕ × ℕ) : ℕ → ℕ × ℕ :=
  cols.zipIdx.foldl (fun h ck => Function.update h (ck.1 &&& (nhash - 1)) (ck.1, ck.2)) junk

/-- utils_sparseMM.cpp:209-220 / 294-306: add one contribution `vala * valb` for column `col`, position from the hash table if its
entry is for this column, otherwise by searching (an exception if the column is not there) -/
def addContrib {E : Type*} [Add E] (nhash : ℕ) (cols : List ℕ) (hash : ℕ → ℕ × ℕ) (vals : Option (List E))
    (cv : ℕ × E) : Option (List E) :=
  vals.bind fun vals =>
    let pos := if (hash (cv.1 &&& (nhash - 1))).1 = cv.1 then some (hash (cv.1 &&& (nhash - 1))).2 else cols.idxOf? cv.1
    pos.bind fun p => if p < vals.length then some (vals.modify p (· + cv.2)) else none

/-- all products `vala * valb` with their columns, in the order of the loops utils_sparseMM.cpp:201-210 -/
def contribs (A : CSR (Mt a b K)) (B : CSR (Mt b c K)) (i : ℕ) : List (ℕ × Mt a c K) :=
  (A.row i).flatMap fun ea => (B.row ea.1).map fun eb => (eb.1, ea.2 * eb.2)

/-- utils_sparseMM.cpp:189-222 / 271-308, numeric phase for row `i` with the given columns (values start at zero) -/
def numericRow (nhash : ℕ) (junk : ℕ → ℕ × ℕ) (A : CSR (Mt a b K)) (B : CSR (Mt b c K)) (i : ℕ) (cols : List ℕ) :
    Option (List (Mt a c K)) :=
  (contribs A B i).foldl (addContrib nhash cols (fillHash nhash cols junk)) (some (cols.map fun _ => 0))

/-- MatMultABImpl, one row of the product, as list of (column, value) -/
def prodRow (nhash : ℕ) (junk : ℕ → ℕ × ℕ) (mjunk : ℕ → ℕ × ℕ) (A : CSR (Mt a b K)) (B : CSR (Mt b c K)) (i : ℕ) :
    Option (List (ℕ × Mt a c K)) :=
  (prodCols mjunk A B i).bind fun cols => (numericRow nhash junk A B i cols).map fun vals => cols.zip vals

/-- utils_sparseMM.cpp:124, 152, 178 (`ParallelForRange`): collect the rows computed by a (parallel) loop over `0 .. n-1`; an error in one row is an error -/
def collect {E : Type*} (n : ℕ) (f : ℕ → Option (List E)) : Option (ℕ → List E) :=
  if (List.range n).all (fun i => (f i).isSome) then some (fun i => if i < n then (f i).getD [] else []) else none

/-- utils_sparseMM.cpp:107-238, `MatMultABImpl`. `nhash i` is the table size used for row `i` (a power of two that depends on
the parallel partition of the rows), `junk i`, `mjunk i` the contents of the scratch memory when row `i` is processed -/
def matMultAB (nhash : ℕ → ℕ) (junk mjunk : ℕ → ℕ → ℕ × ℕ) (A : CSR (Mt a b K)) (B : CSR (Mt b c K)) :
    Option (CSR (Mt a c K)) :=
  (collect A.height fun i => prodRow (nhash i) (junk i) (mjunk i) A B i).map fun rows =>
    { height := A.height, width := B.width, row := rows }

/-- utils_sparseMM.cpp:245-328, `MatMultABUpdateValsImpl`: recompute the values of `C`, keeping its column indices. Simplification:
`C.height = A.height` (further rows of `C` would be set to zero) -/
def matMultABUpdate (nhash : ℕ → ℕ) (junk : ℕ → ℕ → ℕ × ℕ) (A : CSR (Mt a b K)) (B : CSR (Mt b c K))
    (C : CSR (Mt a c K)) : Option (CSR (Mt a c K)) :=
  (collect A.height fun i =>
    (numericRow (nhash i) (junk i) A B i ((C.row i).map Prod.fst)).map fun vals =>
      ((C.row i).map Prod.fst).zip vals).map fun rows =>
    { height := C.height, width := C.width, row := rows }

/-- utils_sparseMM.hpp:93-109, `RestrictMatrix(PT, A, P)`: `(PT * A) * P` -/
def restrictMatrix (nhash : ℕ → ℕ) (junk mjunk : ℕ → ℕ → ℕ × ℕ) (PT : CSR (Mt b a K)) (A : CSR (Mt a a K))
    (P : CSR (Mt a b K)) : Option (CSR (Mt b b K)) :=
  (matMultAB nhash junk mjunk PT A).bind fun PTA => matMultAB nhash junk mjunk PTA P

end NgsAMG.SparseMM
