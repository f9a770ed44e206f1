import Verif.Model.CSR
import Mathlib.Data.List.Sort
import Mathlib.Data.Nat.Basic

/-!
Model of `DynVectorBlocking` and `DynBlockSparseMatrix`, `/repo/src/base/linalg/dyn_block.{hpp,cpp}`: a sparse matrix whose rows
are grouped by equal sparsity pattern and stored as dense blocks.

Simplifications: the flat arrays `_rows`, `_cols`, `_data` with their offset arrays are one list per row-block; the unstable
library `QuickSort` of the block-rows is represented by an arbitrary ordering that satisfies its postcondition (parameter
`order`). `none`: access outside of an array.
-/

namespace NgsAMG.DynBlock

/-- `DynVectorBlocking`, dyn_block.hpp:13-106: block `b` consists of the scalars `off b .. off (b+1) - 1` -/
structure Blocking where
  size : ℕ
  scalSize : ℕ
  off : ℕ → ℕ

/-- the loop of `ItScalNums`, dyn_block.hpp:76-97, `GetScalNums` dyn_block.hpp:34-37: scalars of one block -/
def Blocking.scals (B : Blocking) (b : ℕ) : List ℕ := List.range' (B.off b) (B.off (b + 1) - B.off b)

/-- `ItScalNums` for an array of blocks, dyn_block.hpp:51-74: the scalar numbers in the order of the invocations -/
def Blocking.scalNums (B : Blocking) (bs : List ℕ) : List ℕ := bs.flatMap B.scals

section
variable {E : Type*} [DecidableEq ℕ]

/-- `A.GetRowIndices(k)` -/
def cols (A : CSR E) (k : ℕ) : List ℕ := (A.row k).map Prod.fst

/-- dyn_block.cpp:119-142: offsets of the chunks of consecutive rows with identical columns -/
def chunkOffsets (A : CSR E) : List ℕ :=
  if A.height = 0 then [0]
  else 0 :: ((List.range' 1 (A.height - 1)).filter fun k => cols A (k - 1) ≠ cols A k) ++ [A.height]

/-- dyn_block.cpp:144-146: the row blocking found by the first constructor -/
def rowBlocking (A : CSR E) : Blocking where
  size := (chunkOffsets A).length - 1
  scalSize := A.height
  off b := (chunkOffsets A).getD b 0

/-- dyn_block.cpp:291-299: `scal2Block` -/
def scal2Block (cb : Blocking) : ℕ → ℕ :=
  (List.range cb.size).foldl (fun m b => (cb.scals b).foldl (fun m s => Function.update m s b) m) (fun _ => 0)

/-- dyn_block.cpp:13-39, `lexiLess` (arrays of equal length): lexicographic -/
def lexEq : List ℕ → List ℕ → Bool
  | a :: as, b :: bs => if a < b then true else if b < a then false else lexEq as bs
  | _, _ => false

/-- dyn_block.cpp:13-39, `lexiLess`: shorter arrays first -/
def lexiLess (a b : List ℕ) : Bool := if a.length = b.length then lexEq a b else a.length < b.length

/-- dyn_block.cpp:445-472: walk through the ordered block-rows, close a row-block whenever the columns change.
`cur` are the block-rows of the open row-block, `last` the last of them -/
def chunkGo (key : ℕ → List ℕ) (cur : List ℕ) (last : ℕ) : List ℕ → List (List ℕ)
  | [] => [cur]
  | k :: ks => if key last ≠ key k then cur :: chunkGo key [k] k ks else chunkGo key (cur ++ [k]) k ks

/-- dyn_block.cpp:445-480: all row-blocks -/
def chunks (key : ℕ → List ℕ) : List ℕ → List (List ℕ)
  | [] => []
  | k :: ks => chunkGo key [k] k ks

/-- dyn_block.cpp:411-424: block numbers of the columns, consecutive duplicates skipped -/
def dedup (last : ℕ) : List ℕ → List ℕ
  | [] => []
  | c :: cs => if last ≠ c then c :: dedup c cs else dedup last cs

/-- dyn_block.cpp:409-425 -/
def blockCols (s2b : ℕ → ℕ) : List ℕ → List ℕ
  | [] => []
  | c :: cs => s2b c :: dedup (s2b c) (cs.map s2b)

/-- dyn_block.cpp:321-344: `maxColSize`, the space reserved for all column numbers -/
def maxColSize (A : CSR E) (key : ℕ → List ℕ) (order : List ℕ) : ℕ :=
  256 + (if A.height = 0 then 0 else (cols A 0).length) +
    ((order.zip order.tail).map fun p => if key p.1 ≠ key p.2 then (key p.2).length else 0).sum

/-- one row-block: block-rows, block-columns, values (row by row) -/
structure RowBlock (E : Type*) where
  rows : List ℕ
  cols : List ℕ
  data : List E

/-- `DynBlockSparseMatrix` after `Finalize` -/
structure Dyn (E : Type*) where
  rowB : Blocking
  colB : Blocking
  blocks : List (RowBlock E)
  maxRows : ℕ
  maxCols : ℕ

/-- dyn_block.cpp:373-441, `getColsVals`: the row-block of the block-rows `rs` -/
def makeBlock (A : CSR E) (rb : Blocking) (s2b : ℕ → ℕ) (rs : List ℕ) : RowBlock E :=
  let sorted := rs.insertionSort (· ≤ ·)
  { rows := sorted
    cols := blockCols s2b (cols A (rb.off (sorted.headD 0)))
    data := (rb.scalNums sorted).flatMap fun r => (A.row r).map Prod.snd }

/-- dyn_block.cpp:437: `scalCols.Size()` of a row-block -/
def nScalCols (A : CSR E) (rb : Blocking) (rs : List ℕ) : ℕ := (cols A (rb.off ((rs.insertionSort (· ≤ ·)).headD 0))).length

/-- `Finalize`, dyn_block.cpp:277-506. `order`: the block-rows as ordered by `QuickSort` (313-317) -/
def finalize (A : CSR E) (rb cb : Blocking) (order : List ℕ) : Option (Dyn E) :=
  let key := fun b => cols A (rb.off b)
  let cs := chunks key order
  let blocks := cs.map (makeBlock A rb (scal2Block cb))
  if (blocks.map fun b => b.cols.length).sum ≤ maxColSize A key order then
    some { rowB := rb
           colB := cb
           blocks := blocks
           maxRows := ((cs.map fun rs => (rb.scalNums (rs.insertionSort (· ≤ ·))).length)).foldl max 0
           maxCols := (cs.map fun rs => nScalCols A rb rs).foldl max 0 }
  else none

end

section
variable {K : Type*} [CommRing K]

/-- entry `l` of `rowVals * smallX`, dyn_block.cpp:1110-1114, for row-major values -/
def denseRow (data : List K) (smallX : List K) (l : ℕ) : K :=
  ((List.range smallX.length).map fun k => data.getD (l * smallX.length + k) 0 * smallX.getD k 0).sum

/-- dyn_block.cpp:1117-1121, 1125-1129: write one output value; `smallY(l)` must exist -/
def putOut (out : K → K → K) (nRows : ℕ) (small : ℕ → K) (y : Option (ℕ → K)) (rl : ℕ × ℕ) : Option (ℕ → K) :=
  y.bind fun y => if rl.2 < nRows then some (Function.update y rl.1 (out (y rl.1) (small rl.2))) else none

/-- `MultiplyBlock`, dyn_block.cpp:1069-1133; `out old new` is the callback `lamOut`. The buffers have `maxCols` and `maxRows`
entries -/
def multiplyBlock (D : Dyn K) (out : K → K → K) (x : ℕ → K) (y : Option (ℕ → K)) (b : RowBlock K) : Option (ℕ → K) :=
  let smallX := (D.colB.scalNums b.cols).map x
  let rows := D.rowB.scalNums b.rows
  if D.maxCols < smallX.length then none
  else if smallX.length > 0 then
    let nRows := b.data.length / smallX.length
    if D.maxRows < nRows then none else rows.zipIdx.foldl (putOut out nRows (denseRow b.data smallX)) y
  else rows.zipIdx.foldl (putOut out rows.length (fun _ => 0)) y

/-- `MultiplyInternal`, dyn_block.hpp:277-286; `Mult`, `MultAdd` dyn_block.cpp:965-998 -/
def multiply (D : Dyn K) (out : K → K → K) (x y : ℕ → K) : Option (ℕ → K) :=
  D.blocks.foldl (multiplyBlock D out x) (some y)

/-- `Mult`, dyn_block.cpp:962-974 -/
def mult (D : Dyn K) (x y : ℕ → K) : Option (ℕ → K) := multiply D (fun _ new => new) x y

/-- `MultAdd`, dyn_block.cpp:986-998 -/
def multAdd (D : Dyn K) (s : K) (x y : ℕ → K) : Option (ℕ → K) := multiply D (fun old new => old + s * new) x y

end

end NgsAMG.DynBlock
