import Verif.Model.DynBlock
import Verif.Model.Traversal
import Mathlib.LinearAlgebra.Matrix.NonsingularInverse

/-!
# Model of `DynBlockSmoother`

Source: `/repo/src/base/smoothers/dyn_block_smoother.cpp:1-547`, `dyn_block_smoother.hpp:14-118`, for matrices of `/repo/src/base/linalg/dyn_block.{hpp,cpp}` (`Verif.Model.DynBlock`).

The scalars are real numbers. `CalcInverse` is the argument `inv`. The flat arrays `_data`, `_dataOff`, `_scalBlockSize` are one matrix with its size per row-block.
`none` is an access outside of an array, a division by zero, or a product of a matrix and a vector whose sizes do not fit.
-/

namespace NgsAMG.DynBlock
open Matrix

/-- `CalcInverse`, dyn_block_smoother.cpp:201, 223 -/
abbrev SInv := ∀ n : ℕ, Matrix (Fin n) (Fin n) ℝ → Matrix (Fin n) (Fin n) ℝ

/-- `_scalBlockSize[k]` and `getDiagBlock(k)`, dyn_block_smoother.hpp:49-53 -/
structure DBlk where
  size : ℕ
  mat : Matrix (Fin size) (Fin size) ℝ

/-- the members of `DynBlockSmoother`, dyn_block_smoother.hpp:101-117; `free` is `_freeBlocks` -/
structure DSm where
  A : Dyn ℝ
  omega : ℝ
  free : Option (List Bool)
  dinv : List DBlk

/-- scalar rows and columns of a row-block (`ItRows`, `ItCols`, dyn_block.hpp:221-252) -/
def Dyn.srows (D : Dyn ℝ) (b : RowBlock ℝ) : List ℕ := D.rowB.scalNums b.rows
/-- see `Dyn.srows`, dyn_block.hpp:221-236 -/
def Dyn.scols (D : Dyn ℝ) (b : RowBlock ℝ) : List ℕ := D.colB.scalNums b.cols

/-- dyn_block_smoother.cpp:143-147: the buffer `diagPos` after the intersection; `dp` is what it held before -/
def diagPos (dp : ℕ → ℕ) (rows cols : List ℕ) : ℕ → ℕ :=
  (Traversal.iterInter 0 rows 0 cols).foldl (fun dp e => Function.update dp e.1 e.2) dp

/-- dyn_block_smoother.cpp:157-168: values of the diagonal block, replaced diagonal -/
def fillDiag (rows : List ℕ) (nc : ℕ) (data : List ℝ) (dp : ℕ → ℕ) (md : Option (ℕ → ℝ)) : Matrix (Fin rows.length) (Fin rows.length) ℝ :=
  fun l j => match md with
    | some d => if l = j then d rows[l] else data.getD (l * nc + dp j) 0
    | none => data.getD (l * nc + dp j) 0

/-- dyn_block_smoother.cpp:189-191: row and column zero, diagonal entry one -/
def unitRow {n : ℕ} (M : Matrix (Fin n) (Fin n) ℝ) (l : Fin n) : Matrix (Fin n) (Fin n) ℝ :=
  fun i j => if i = l ∧ j = l then 1 else if i = l ∨ j = l then 0 else M i j

/-- dyn_block_smoother.cpp:174-193: the loop over the rows that are not free -/
def dropRows (rows : List ℕ) (fr : ℕ → Bool) (M : Matrix (Fin rows.length) (Fin rows.length) ℝ) : Matrix (Fin rows.length) (Fin rows.length) ℝ :=
  (List.finRange rows.length).foldl (fun M l => if fr rows[l] then M else unitRow M l) M

/-- dyn_block_smoother.cpp:211: one diagonal entry set to zero -/
def zeroAt {n : ℕ} (M : Matrix (Fin n) (Fin n) ℝ) (l : Fin n) : Matrix (Fin n) (Fin n) ℝ := fun i j => if i = l ∧ j = l then 0 else M i j

/-- dyn_block_smoother.cpp:203-214: diagonal entries of rows that are not free set to zero -/
def zeroDiag (rows : List ℕ) (fr : ℕ → Bool) (M : Matrix (Fin rows.length) (Fin rows.length) ℝ) : Matrix (Fin rows.length) (Fin rows.length) ℝ :=
  (List.finRange rows.length).foldl (fun M l => if fr rows[l] then M else zeroAt M l) M

/-- dyn_block_smoother.cpp:121-228, the body of the second loop of `SetUp`: new contents of the buffer `diagPos`, is the bit of `_freeBlocks` set, the diagonal block.
`md` is `none` if `modDiag` is empty -/
def setBlock (inv : SInv) (D : Dyn ℝ) (md : Option (ℕ → ℝ)) (fr : Option (ℕ → Bool)) (dp : ℕ → ℕ) (b : RowBlock ℝ) : Option ((ℕ → ℕ) × Bool × DBlk) :=
  let rows := D.srows b
  let cols := D.scols b
  if cols.length = 0 then some (dp, false, ⟨0, 0⟩)
  else if rows.length * rows.length = 0 then some (dp, false, ⟨0, 0⟩)
  else if D.maxRows < rows.length ∨ D.maxCols < cols.length then none
  else
    let dp' := diagPos dp rows cols
    if (List.range rows.length).any fun j => cols.length ≤ dp' j then none
    else
      let M := fillDiag rows cols.length b.data dp' md
      match fr with
      | none => some (dp', false, ⟨_, inv _ M⟩)
      | some fr =>
        let M := dropRows rows fr M
        if rows.any fr then some (dp', true, ⟨_, if rows.all fr then inv _ M else zeroDiag rows fr (inv _ M)⟩)
        else some (dp', false, ⟨_, M⟩)

/-- the second loop of `SetUp`, dyn_block_smoother.cpp:121-228 -/
def setBlocks (inv : SInv) (D : Dyn ℝ) (md : Option (ℕ → ℝ)) (fr : Option (ℕ → Bool)) : (ℕ → ℕ) → List (RowBlock ℝ) → Option (List (Bool × DBlk))
  | _, [] => some []
  | dp, b :: bs => (setBlock inv D md fr dp b).bind fun r => (setBlocks inv D md fr r.1 bs).map fun l => (r.2.1, r.2.2) :: l

/-- constructors and `SetUp`, dyn_block_smoother.cpp:20-230. `dp0` is the uninitialised memory of `diagPosBuffer` -/
def mkDSm (inv : SInv) (D : Dyn ℝ) (md : Option (ℕ → ℝ)) (fr : Option (ℕ → Bool)) (omega : ℝ) (dp0 : ℕ → ℕ) : Option DSm :=
  (setBlocks inv D md fr dp0 D.blocks).map fun l => ⟨D, omega, fr.map fun _ => l.map Prod.fst, l.map Prod.snd⟩

/-- `v(idx) += w(l)` for the numbers `idx` in the order of the invocations of `ItRows` or `ItCols`, dyn_block_smoother.cpp:280-283, 330-336 -/
def addList (idx : List ℕ) (w : ℕ → ℝ) (v : ℕ → ℝ) : ℕ → ℝ := idx.zipIdx.foldl (fun v e => Function.update v e.1 (v e.1 + w e.2)) v

/-- entry `l` of `getDiagBlock(k) * smallR`, dyn_block_smoother.cpp:278, 318 -/
def DBlk.times (B : DBlk) (r : ℕ → ℝ) (l : ℕ) : ℝ := if h : l < B.size then (B.mat *ᵥ fun q => r q) ⟨l, h⟩ else 0

/-- `updateBlockRHS`, dyn_block_smoother.cpp:233-286 -/
def updRHS (S : DSm) (b : ℕ → ℝ) (k : ℕ) (x : ℕ → ℝ) : Option (ℕ → ℝ) :=
  (S.A.blocks[k]?).bind fun blk => (S.dinv[k]?).bind fun B =>
    let smallX := (S.A.scols blk).map x
    let rows := S.A.srows blk
    if S.A.maxCols < smallX.length then none
    else if smallX.length = 0 then some x
    else if S.A.maxRows < rows.length ∨ B.size ≠ rows.length then none
    else
      let smallR := fun l => (rows.map b).getD l 0 - denseRow blk.data smallX l
      some (addList rows (fun l => S.omega * B.times smallR l) x)

/-- entry `j` of `Trans(rowBlock) * smallUp`, dyn_block_smoother.cpp:327 -/
def denseCol (data : List ℝ) (nr nc : ℕ) (u : ℕ → ℝ) (j : ℕ) : ℝ := ((List.range nr).map fun l => data.getD (l * nc + j) 0 * u l).sum

/-- `updateBlockRes`, dyn_block_smoother.cpp:301-337: new `x` and `res` -/
def updRes (S : DSm) (k : ℕ) (s : (ℕ → ℝ) × (ℕ → ℝ)) : Option ((ℕ → ℝ) × (ℕ → ℝ)) :=
  (S.A.blocks[k]?).bind fun blk => (S.dinv[k]?).bind fun B =>
    let rows := S.A.srows blk
    let cols := S.A.scols blk
    if S.A.maxRows < rows.length ∨ B.size ≠ rows.length ∨ rows.length = 0 then none
    else
      let up := fun l => S.omega * B.times (fun l => (rows.map s.2).getD l 0) l
      let nc := blk.data.length / rows.length
      if S.A.maxCols < nc ∨ nc < cols.length then none
      else some (addList rows up s.1, addList cols (fun j => -denseCol blk.data rows.length nc up j) s.2)

/-- `IterateBlocks`, dyn_block_smoother.cpp:433-502: the blocks `ids` in the direction asked for, without those whose bit is not set -/
def itBlocks {σ : Type} (S : DSm) (ids : List ℕ) (back : Bool) (f : ℕ → σ → Option σ) (s : σ) : Option σ :=
  ((if back then ids.reverse else ids).filter fun k => match S.free with | none => true | some fb => fb.getD k false).foldlM (fun s k => f k s) s

/-- `SmoothRHS`, dyn_block_smoother.cpp:506-523 -/
def smoothRHS (S : DSm) (back : Bool) (x b : ℕ → ℝ) : Option (ℕ → ℝ) := itBlocks S (List.range S.A.blocks.length) back (updRHS S b) x

/-- `SmoothRes`, dyn_block_smoother.cpp:526-544 -/
def smoothRes (S : DSm) (back : Bool) (s : (ℕ → ℝ) × (ℕ → ℝ)) : Option ((ℕ → ℝ) × (ℕ → ℝ)) := itBlocks S (List.range S.A.blocks.length) back (updRes S) s

/-- `Smooth`, `SmoothBack`, `SmoothImpl`, dyn_block_smoother.cpp:352-430: new `x` and `res` -/
def dsmooth (S : DSm) (back : Bool) (x b res : ℕ → ℝ) (resUpdated updateRes xZero : Bool) : Option ((ℕ → ℝ) × (ℕ → ℝ)) :=
  if updateRes then
    if !resUpdated then
      if !xZero then (smoothRHS S back x b).bind fun x' => (multAdd S.A (-1) x' b).map fun r => (x', r)
      else smoothRes S back (x, b)
    else smoothRes S back (x, res)
  else (smoothRHS S back x b).map fun x' => (x', res)

end NgsAMG.DynBlock
