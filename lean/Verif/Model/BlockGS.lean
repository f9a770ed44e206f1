import Verif.Model.CSR
import Verif.Model.SortedArray
import Verif.Model.GaussSeidel

/-!
# Model of the block Gauss-Seidel smoother `BSmoother`

Source: `/repo/src/base/smoothers/block_gssmoother.cpp:17-505`.

The dense inverse of a block (`CalcInverse` or `CalcPseudoInverseTryNormal`, for entries of size `k` after expanding them to `double`s) is the argument `inv`.
-/

namespace NgsAMG.BlkGS
open Matrix

variable {k : ℕ}

/-- a row of `blocks` and the corresponding entry of `dinv` -/
structure BBlock (k : ℕ) where
  dofs : List ℕ
  dinv : Matrix (Fin dofs.length × Fin k) (Fin dofs.length × Fin k) ℝ

/-- state of a `BSmoother` object; `colors` is `block_colors`, `none` if `parallel` is not set -/
structure BSm (k : ℕ) where
  mat : CSR (Blk k)
  blocks : List (BBlock k)
  colors : Option (List (List ℕ))

/-- block_gssmoother.cpp:83-99 and 121-127: the diagonal block of the matrix, its diagonal entries replaced by `md` if there are any -/
def diagOf (A : CSR (Blk k)) (md : Option (ℕ → Blk k)) (dofs : List ℕ) : Matrix (Fin dofs.length × Fin k) (Fin dofs.length × Fin k) ℝ :=
  fun p q => (match md with
    | some d => if p.1 = q.1 then d dofs[p.1] else A.lookup dofs[p.1] dofs[q.1]
    | none => A.lookup dofs[p.1] dofs[q.1]) p.2 q.2

/-- `dnums` of block_gssmoother.cpp:155-178: the columns `cs` are put into the sorted array if they are not in it -/
def addCols : List ℕ → List ℕ → Option (List ℕ)
  | dn, [] => some dn
  | dn, c :: cs => (SortedArray.find c dn).bind fun pos =>
      (if pos = .sentinel then SortedArray.insertSorted c dn else some dn).bind fun dn' => addCols dn' cs

/-- block_gssmoother.cpp:153-182, row of `ext_blocks` for a block -/
def extBlock (A : CSR (Blk k)) (dofs : List ℕ) : Option (List ℕ) := addCols dofs (dofs.flatMap fun d => (A.row d).map Prod.fst)

/-- block_gssmoother.cpp:195-201: `block_colors` from the colors of the blocks -/
def colorTable (maxcolor : ℕ) (bc : List ℕ) : List (List ℕ) := (List.range (maxcolor + 1)).map fun c => (List.range bc.length).filter fun b => bc.getD b 0 = c

/-- constructor, block_gssmoother.cpp:17-225. `color` is `ComputeColoring` (NGSolve): largest color and colors for the sets that it is given -/
def mkBSm (inv : ∀ n : ℕ, Matrix (Fin n × Fin k) (Fin n × Fin k) ℝ → Matrix (Fin n × Fin k) (Fin n × Fin k) ℝ) (color : List (List ℕ) → ℕ × List ℕ)
    (A : CSR (Blk k)) (blocks : List (List ℕ)) (parallel : Bool) (md : Option (ℕ → Blk k)) : Option (BSm k) :=
  let bs := blocks.map fun b => b.insertionSort (· ≤ ·)
  let bb : List (BBlock k) := bs.map fun dofs => ⟨dofs, inv _ (diagOf A md dofs)⟩
  if parallel then (bs.mapM (extBlock A)).map fun ext => ⟨A, bb, some (colorTable (color ext).1 (color ext).2)⟩
  else some ⟨A, bb, none⟩

/-- `hup` of block_gssmoother.cpp:304-312 -/
noncomputable def hupRHS (A : CSR (Blk k)) (b x : BVec k) (B : BBlock k) : Fin B.dofs.length × Fin k → ℝ :=
  B.dinv *ᵥ fun p => (b B.dofs[p.1] - rowTimesVector A B.dofs[p.1] x) p.2

/-- `fx(block_dofs) += hup` (NGSolve), block_gssmoother.cpp:315 -/
def addAt (dofs : List ℕ) (u : Fin dofs.length × Fin k → ℝ) (x : BVec k) : BVec k :=
  (List.finRange dofs.length).foldl (fun x j => Function.update x dofs[j] (x dofs[j] + fun c => u (j, c))) x

/-- block_gssmoother.cpp:293-318, the callback of `Smooth_impl`; for `bs = 0` nothing happens in the code and here -/
noncomputable def stepRHS (A : CSR (Blk k)) (b x : BVec k) (B : BBlock k) : BVec k := addAt B.dofs (hupRHS A b x B) x

/-- block_gssmoother.cpp:359-378, the callback of `SmoothRES_impl` -/
noncomputable def stepRES (A : CSR (Blk k)) (s : BVec k × BVec k) (B : BBlock k) : BVec k × BVec k :=
  let hup := B.dinv *ᵥ fun p => s.2 B.dofs[p.1] p.2
  (addAt B.dofs hup s.1, (List.finRange B.dofs.length).foldl (fun r j => addRowTransToVector A B.dofs[j] (fun c => -hup (j, c)) r) s.2)

/-- block_gssmoother.cpp:229-286, `IterateBlocks`: order of the blocks. With colors the blocks of a color are visited at the same time (`Verif.Props.BlockGS3`);
the order here is one of the possible ones -/
def order (S : BSm k) (reverse : Bool) : List (BBlock k) :=
  match S.colors with
  | some cs => (if reverse then cs.reverse else cs).flatten.filterMap fun i => S.blocks[i]?
  | none => if reverse then S.blocks.reverse else S.blocks

/-- `f` is applied `n` times -/
def times {σ : Type*} (f : σ → σ) : ℕ → σ → σ
  | 0, s => s
  | n + 1, s => times f n (f s)

/-- `Smooth_impl`, block_gssmoother.cpp:290-320 -/
noncomputable def smoothImpl (S : BSm k) (steps : ℕ) (reverse : Bool) (x b : BVec k) : BVec k :=
  times (fun x => (order S reverse).foldl (stepRHS S.mat b) x) steps x

/-- `SmoothRES_impl`, block_gssmoother.cpp:345-381 -/
noncomputable def smoothRES (S : BSm k) (steps : ℕ) (reverse : Bool) (x res : BVec k) : BVec k × BVec k :=
  times (fun s => (order S reverse).foldl (stepRES S.mat) s) steps (x, res)

/-- `Smooth` and `SmoothBack`, block_gssmoother.cpp:429-502: new `x` and `res` -/
noncomputable def smooth (S : BSm k) (back : Bool) (x b res : BVec k) (resUpdated updateRes xZero : Bool) : BVec k × BVec k :=
  if updateRes then
    if resUpdated then smoothRES S 1 back x res
    else smoothRES S 1 back x (GS.calcResiduum S.mat x b xZero)
  else (smoothImpl S 1 back x b, res)

/-- `MultAdd`, block_gssmoother.cpp:403-426, when the blocks are visited one after the other -/
noncomputable def multAdd (S : BSm k) (s : ℝ) (b x : BVec k) : BVec k :=
  S.blocks.foldl (fun x B => addAt B.dofs (s • (B.dinv *ᵥ fun p => b B.dofs[p.1] p.2)) x) x

end NgsAMG.BlkGS
