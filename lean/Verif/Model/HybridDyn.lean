import Verif.Model.HybridSmoother
import Verif.Model.DynSmoother
import Verif.Model.ModDiag

/-!
# Model of the parallel smoother `HybridDynBlockSmoother`

Source: `/repo/src/base/smoothers/dyn_block_smoother.cpp:553-1060`, `dyn_block_smoother.hpp:120-180`, for a matrix with `ParallelDofs`. The matrix `DynamicBlockHybridMatrix`
(`/repo/src/base/linalg/hybrid_matrix.cpp:663-688`) is the split matrix of `Verif.Model.Hybrid` whose parts are converted to the dynamic block format of `Verif.Model.DynBlock`.
The smoothing itself is that of `HybridBaseSmoother` (`Verif.Model.HybridSmoother`) with the stages defined here; products with `G` and with the whole matrix are those of the sparse matrices,
which are the same by C17. Output to the terminal and the unused `CalcHybridSmootherRDGItGenericV2` are not modelled.
-/

namespace NgsAMG.HybDyn
open NgsAMG.DCC NgsAMG.HybSm NgsAMG.DynBlock

/-- a sparse matrix with entries `double`; the hybrid smoothers of the model have blocks, here of size one -/
def toScal (M : CSR (Blk 1)) : CSR ℝ := ⟨M.height, M.width, fun i => (M.row i).map fun e => (e.1, e.2 0 0)⟩

/-- `x.FV<TSCAL>()`, dyn_block_smoother.cpp:997-998 -/
def down (x : BVec 1) : ℕ → ℝ := fun i => x i 0
/-- see `down`, dyn_block_smoother.cpp:997-998 -/
def lift1 (x : ℕ → ℝ) : BVec 1 := fun i _ => x i

/-- `_locSmoother`, `_splitInd`, `_locBlockNums`, `_exBlockNums`, dyn_block_smoother.hpp:170-179 -/
structure HDyn where
  sm : DSm
  split : ℕ
  loc : List ℕ
  ex : List ℕ

/-- `anyMFree`, dyn_block_smoother.cpp:591-601 -/
def anyMFree (P : PD) (p : ℕ) (free : Option (ℕ → Bool)) (D : Dyn ℝ) (b : RowBlock ℝ) : Bool := (D.srows b).any fun r => inSubset free r && P.isMaster p r

/-- `anyMEx`, dyn_block_smoother.cpp:592-608 -/
def anyMEx (P : PD) (p : ℕ) (free : Option (ℕ → Bool)) (D : Dyn ℝ) (b : RowBlock ℝ) : Bool :=
  (D.srows b).any fun r => inSubset free r && P.isMaster p r && !(P.dps p r).isEmpty

/-- the loop dyn_block_smoother.cpp:587-624 over the row-blocks `bs`, the first of which has number `k`: `_locBlockNums` and `_exBlockNums` -/
def sortBlocks (P : PD) (p : ℕ) (free : Option (ℕ → Bool)) (D : Dyn ℝ) : ℕ → List (RowBlock ℝ) → List ℕ × List ℕ
  | _, [] => ([], [])
  | k, b :: bs =>
    let r := sortBlocks P p free D (k + 1) bs
    if anyMEx P p free D b then (r.1, k :: r.2)
    else if anyMFree P p free D b then (k :: r.1, r.2)
    else r

/-- the constructor with `ParallelDofs`, dyn_block_smoother.cpp:557-677; `md` is the result of `CalcScalModDiag`, `none` if that is empty -/
def mkHDyn (inv : SInv) (P : PD) (p : ℕ) (D : Dyn ℝ) (md : Option (ℕ → ℝ)) (free : Option (ℕ → Bool)) (omega : ℝ) (dp0 : ℕ → ℕ) : Option HDyn :=
  let r := sortBlocks P p free D 0 D.blocks
  (mkDSm inv D md (some fun i => P.isMaster p i && inSubset free i) omega dp0).map fun S => ⟨S, r.1.length / 2, r.1, r.2⟩

/-- `GetBlocksForStage`, dyn_block_smoother.cpp:1041-1053 -/
def HDyn.stage (S : HDyn) : Stage → List ℕ
  | .loc1 => S.loc.take S.split
  | .ex => S.ex
  | .loc2 => S.loc.drop S.split

/-- `SmoothStageRHS` and `SmoothStageRes`, dyn_block_smoother.cpp:984-1038, as kernels of the hybrid smoother (`updateBlocksRHS`, `updateBlocksRes`, dyn_block_smoother.cpp:288-298, 339-349).
If a stage does something undefined (it is shown that this does not happen), nothing is changed here -/
noncomputable def dynKernels (S : ℕ → HDyn) (p : ℕ) : Kernels 1 where
  rhs st bw _ x b := ((itBlocks (S p).sm ((S p).stage st) bw (updRHS (S p).sm (down b)) (down x)).map lift1).getD x
  res st bw _ x r := ((itBlocks (S p).sm ((S p).stage st) bw (updRes (S p).sm) (down x, down r)).map fun s => (lift1 s.1, lift1 s.2)).getD (x, r)

/-! ### `CalcScalModDiag` -/

/-- `iterateD`, dyn_block_smoother.cpp:893-927: the calls `lam(row, value)`; `dp` is the contents of `diagPosBuffer` -/
def iterateD (D : Dyn ℝ) : (ℕ → ℕ) → List (RowBlock ℝ) → Option (List (ℕ × ℝ))
  | _, [] => some []
  | dp, b :: bs =>
    let rows := D.srows b
    let cols := D.scols b
    if D.maxRows < rows.length ∨ D.maxCols < cols.length then none
    else if cols.length = 0 then iterateD D dp bs
    else
      let dp' := diagPos dp rows cols
      if (List.range rows.length).any fun j => cols.length ≤ dp' j then none
      else (iterateD D dp' bs).map fun l => (rows.zipIdx.map fun e => (e.1, b.data.getD (e.2 * cols.length + dp' e.2) 0)) ++ l

/-- `iterateOD`, dyn_block_smoother.cpp:929-971: the rows for which `lam` is called, with the columns and values handed to the inner kernel -/
def iterateOD (D : Dyn ℝ) (bs : List (RowBlock ℝ)) : List (ℕ × List (ℕ × ℝ)) :=
  bs.flatMap fun b =>
    let cols := D.scols b
    if cols.length > 0 then (D.srows b).zipIdx.map fun e => (e.1, cols.zipIdx.map fun c => (c.1, b.data.getD (e.2 * cols.length + c.2) 0)) else []

/-- `origDiag` before it is reduced, hybrid_smoother_utils.hpp:35-45 -/
def scalOrig (calls : List (ℕ × ℝ)) : ℕ → ℝ := calls.foldl (fun o e => Function.update o e.1 e.2) 0

/-- `addDiag` before it is reduced, hybrid_smoother_utils.hpp:65-99, `TM = double` -/
noncomputable def scalAdd (orig : ℕ → ℝ) (free : Option (ℕ → Bool)) (calls : List (ℕ × List (ℕ × ℝ))) : ℕ → ℝ :=
  calls.foldl (fun ad e => if inSubset free e.1 then Function.update ad e.1 (e.2.foldl (fun s c => s + |c.2| / (√(orig e.1) * √(orig c.1))) (ad e.1)) else ad) 0

/-- `CalcScalModDiag` before the first reduction; the memory of `diagPosBuffer` is `dp0`, dyn_block_smoother.cpp:866-981 -/
def scalStart (D : ℕ → Dyn ℝ) (dp0 : ℕ → ℕ → ℕ) (p : ℕ) : ModDiag.Vars 1 := ⟨(iterateD (D p) (dp0 p) (D p).blocks).map fun calls d => fun _ _ => scalOrig calls d, none, none⟩

/-- first reduction and the loop over `G`, hybrid_smoother_utils.hpp:45-99 called by dyn_block_smoother.cpp:973-978; `G p` is `none` if there is no matrix -/
noncomputable def scalPhase1 (P : PD) (G : ℕ → Option (Dyn ℝ)) (free : ℕ → Option (ℕ → Bool)) : Exch.Phase (ModDiag.Vars 1) (ModDiag.Msg 1) where
  sends := (AR.allReduce (T := Blk 1) P (· + ·) 0).sends
  recvs := (AR.allReduce (T := Blk 1) P (· + ·) 0).recvs
  msg p v q := ((AR.allReduce P (· + ·) 0).msg p v.orig q, [])
  start _ v := v
  apply p v recv :=
    let o := (AR.allReduce P (· + ·) 0).apply p v.orig fun q => (recv q).1
    ⟨o, o.map fun orig => fun d _ => scalAdd (fun d => orig d 0 0) (free p) (match G p with | some D => iterateOD D D.blocks | none => []) d, none⟩

/-- `CalcScalModDiag` on all processes, dyn_block_smoother.cpp:866-981 -/
noncomputable def calcScalModDiag (P : PD) (G : ℕ → Option (Dyn ℝ)) (free : ℕ → Option (ℕ → Bool)) : List (Exch.Phase (ModDiag.Vars 1) (ModDiag.Msg 1)) :=
  [scalPhase1 P G free, ModDiag.phase2 P free]

/-- the array that `CalcScalModDiag` returns: empty (inner `none`) without neighbours, hybrid_smoother_utils.hpp:28-32; then the local smoother takes the diagonal of the matrix.
Outer `none`: undefined behaviour -/
def scalMd (P : PD) (p : ℕ) (v : ModDiag.Vars 1) : Option (Option (ℕ → ℝ)) := if (P.exProcs p).isEmpty then some none else v.md.map fun d => some fun i => d i 0 0

end NgsAMG.HybDyn
