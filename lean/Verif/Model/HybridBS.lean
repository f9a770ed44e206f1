import Verif.Model.HybridSmoother
import Verif.Model.LocBlock

/-!
# Model of the parallel block smoother `HybridBS`

Source: `/repo/src/base/smoothers/block_gssmoother.cpp:505-940`. The smoothing itself is that of `HybridBaseSmoother` (`Verif.Model.HybridSmoother`) with the stages defined here.
Modelled are `bs2 = false` (one `BSmoother` for every stage) and `bs2 = true` without `no_blocks` (one `BSmoother2` with a group for every stage);
with `no_blocks` and neighbour processes the constructor throws (`mkLSm_no_md`). Memory usage is not modelled.
-/

namespace NgsAMG.HybSm
open NgsAMG.DCC NgsAMG.BlkGS Matrix

variable {k : ℕ}

/-- block_gssmoother.cpp:529: are the blocks filtered? -/
def useFilter (size : ℕ) (rankZeroIdle : Bool) : Bool := decide (size > if rankZeroIdle then 1 else 2)

/-- `iterate_blocks`, block_gssmoother.cpp:610-635: the callbacks that are made, with the flag `isloc` -/
def iterateBlocks (P : PD) (p : ℕ) : List (List ℕ) → List (List ℕ × Bool)
  | [] => []
  | b :: bs =>
    let fb := b.filter fun d => P.isMaster p d
    if fb.length > 0 then (fb, fb.all fun d => (P.dps p d).isEmpty) :: iterateBlocks P p bs else iterateBlocks P p bs

/-- the loop block_gssmoother.cpp:650-667 over the callbacks; `c1` is `cnt_loc1`. New tables `cl1`, `cex`, `cl2` -/
def fillTables (symmLoc : Bool) (nl1 : ℕ) : List (List ℕ × Bool) → ℕ → List (List ℕ) × List (List ℕ) × List (List ℕ)
  | [], _ => ([], [], [])
  | (fb, true) :: cs, c1 =>
    if symmLoc || decide (c1 < nl1) then
      let r := fillTables symmLoc nl1 cs (c1 + 1)
      (fb :: r.1, r.2.1, r.2.2)
    else
      let r := fillTables symmLoc nl1 cs c1
      (r.1, r.2.1, fb :: r.2.2)
  | (fb, false) :: cs, c1 =>
    let r := fillTables symmLoc nl1 cs c1
    (r.1, fb :: r.2.1, r.2.2)

/-- `FilterBlocks`, block_gssmoother.cpp:594-686 -/
def filterBlocks (P : PD) (p : ℕ) (symmLoc : Bool) (blocks : List (List ℕ)) : List (List (List ℕ)) :=
  let cs := iterateBlocks P p blocks
  let cntLoc := (cs.filter fun c => c.2).length
  let nl1 := if symmLoc then cntLoc else cntLoc / 2
  let t := fillTables symmLoc nl1 cs 0
  if symmLoc then [t.1, t.2.1] else [t.1, t.2.1, t.2.2]

/-- `fblocks`, block_gssmoother.cpp:525-534 -/
def fblocks (P : PD) (p : ℕ) (rankZeroIdle symmLoc : Bool) (blocks : List (List ℕ)) : List (List (List ℕ)) :=
  if useFilter P.np rankZeroIdle then filterBlocks P p symmLoc blocks else [blocks, [], []]

/-- `loc_smoothers` or `loc_smoother_2` -/
inductive HBS (k : ℕ)
  | one (S : List (BSm k))
  | two (S : LSm k)

/-- block_gssmoother.cpp:543-590; `none`: an exception -/
def mkHBS (inv : Inverter k) (color : List (List ℕ) → ℕ × List ℕ) (M : CSR (Blk k)) (groups : List (List (List ℕ))) (bs2 parallel : Bool) (md : Option (ℕ → Blk k)) : Option (HBS k) :=
  if bs2 then (mkLSm inv M groups false md).map .two
  else (groups.mapM fun g => mkBSm inv color M g parallel md).map .one

/-- `int idxS(stage)`, hybrid_base_smoother.hpp:56-61 -/
def Stage.idx : Stage → ℕ
  | .loc1 => 0
  | .ex => 1
  | .loc2 => 2

/-- `SmoothStageRHS`, block_gssmoother.cpp:702-815 -/
noncomputable def HBS.rhs (S : HBS k) (symmLoc : Bool) (st : Stage) (bw : Bool) (x b : BVec k) : Option (BVec k) :=
  match S with
  | .two S =>
    if symmLoc then
      match st with
      | .loc1 => smoothSimple S [0] 1 false false x b
      | .ex => (smoothSimple S [1] 1 false false x b).bind fun x => smoothSimple S [1] 1 true false x b
      | .loc2 => smoothSimple S [0] 1 true false x b
    else smoothSimple S [st.idx] 1 bw false x b
  | .one S =>
    if symmLoc then
      match st with
      | .loc1 => (S[0]?).map fun B => BlkGS.smoothImpl B 1 false x b
      | .ex => (S[1]?).map fun B => BlkGS.smoothImpl B 1 true (BlkGS.smoothImpl B 1 false x b) b
      | .loc2 => (S[0]?).map fun B => BlkGS.smoothImpl B 1 true x b
    else (S[st.idx]?).map fun B => if bw then BlkGS.smoothImpl B 1 true x b else BlkGS.smoothImpl B 1 false x b

/-- `SmoothStageRes`, block_gssmoother.cpp:818-909 -/
noncomputable def HBS.res (S : HBS k) (symmLoc : Bool) (st : Stage) (bw : Bool) (x r : BVec k) : Option (BVec k × BVec k) :=
  match S with
  | .two S =>
    if symmLoc then
      match st with
      | .loc1 => smoothRESSimple S [0] 1 false false (x, r)
      | .ex => smoothRESSimple S [1] 1 false true (x, r)
      | .loc2 => smoothRESSimple S [0] 1 true false (x, r)
    else smoothRESSimple S [st.idx] 1 bw false (x, r)
  | .one S =>
    if symmLoc then
      match st with
      | .loc1 => (S[0]?).map fun B => smoothRES B 1 false x r
      | .ex => (S[1]?).map fun B => smoothRES B 1 true (smoothRES B 1 false x r).1 (smoothRES B 1 false x r).2
      | .loc2 => (S[0]?).map fun B => smoothRES B 1 true x r
    else (S[st.idx]?).map fun B => if bw then smoothRES B 1 true x r else smoothRES B 1 false x r

/-- the stages of `HybridBS` as kernels of the hybrid smoother. If a stage does something undefined (it is shown that this does not happen), nothing is changed here -/
noncomputable def bsKernels (S : ℕ → HBS k) (symmLoc : Bool) (p : ℕ) : Kernels k where
  rhs st bw _ x b := ((S p).rhs symmLoc st bw x b).getD x
  res st bw _ x r := ((S p).res symmLoc st bw x r).getD (x, r)

end NgsAMG.HybSm
