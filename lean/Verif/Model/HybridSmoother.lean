import Verif.Model.Hybrid
import Verif.Model.GaussSeidel

/-!
Model of `HybridBaseSmoother`, `/repo/src/base/smoothers/hybrid_base_smoother.cpp:81-595`, and of `HybridGSSmoother`,
`/repo/src/base/smoothers/gssmoother.cpp:601-861`: smoothing with the master-master part `M` of a matrix that is distributed over
processes, while vectors are gathered and scattered.

Simplifications: as in `Verif.Model.DCC`; scalars are reals. The parallel status of a vector is the same on all processes (NGSolve
requires it), so that it is a parameter of the whole call. `x` is CUMULATED when a call starts (`x.Cumulate()` does nothing then).
Whether the communication runs in a background thread is treated in `Verif.Model.Overlap`.
-/

namespace NgsAMG.HybSm

open NgsAMG.DCC NgsAMG.Hybrid

variable {k : ℕ}

/-- `SMOOTH_STAGE`, hybrid_base_smoother.hpp:14-19 -/
inductive Stage
  | loc1 | ex | loc2
  deriving DecidableEq

/-- the virtual functions `SmoothStageRHS` and `SmoothStageRes`, hybrid_base_smoother.hpp:84-96, of one process, as functions of stage,
backward direction, `x_zero` and vectors. Simplification: `SmoothStageRes` does not use `b`, and `SmoothStageRHS` does not use the work
vector `res`, which is the case for `HybridGSSmoother`. -/
structure Kernels (k : ℕ) where
  rhs : Stage → Bool → Bool → BVec k → BVec k → BVec k
  res : Stage → Bool → Bool → BVec k → BVec k → BVec k × BVec k

/-- the local vectors of one process; `gx` is `_stashedGx` -/
structure LS (k : ℕ) where
  x : BVec k
  b : BVec k
  res : BVec k
  gx : BVec k

/-- which vector is the `rb` of `CallStageKernelsImpl`: the residual (`RES`), `actualB`, or `bMGx` -/
inductive Sel
  | res | b | gx

/-- the vector `rb`, hybrid_base_smoother.cpp:511 with 443 -/
def Sel.get : Sel → LS k → BVec k
  | .res, s => s.res
  | .b, s => s.b
  | .gx, s => s.gx

/-- writing to `rb` -/
def Sel.set : Sel → LS k → BVec k → LS k
  | .res, s, v => { s with res := v }
  | .b, s, v => { s with b := v }
  | .gx, s, v => { s with gx := v }

/-- `callSM`, hybrid_base_smoother.cpp:522-532 -/
def callSM (K : Kernels k) (sel : Sel) (bw : Bool) (st : Stage) (xZero : Bool) (s : LS k) : LS k :=
  match sel with
  | .res => { s with x := (K.res st bw xZero s.x s.res).1, res := (K.res st bw xZero s.x s.res).2 }
  | sel => { s with x := K.rhs st bw xZero s.x (sel.get s) }

/-- `P1`, hybrid_base_smoother.cpp:508 -/
def p1 (bw : Bool) : Stage := if bw then .loc2 else .loc1

/-- `P2`, hybrid_base_smoother.cpp:509 -/
def p2 (bw : Bool) : Stage := if bw then .loc1 else .loc2

/-- the rounds `s = 1, 2, ...` of the loop, hybrid_base_smoother.cpp:548-559, and the value of `xZero` afterwards -/
def locLoop (K : Kernels k) (sel : Sel) (bw : Bool) : ℕ → Bool → LS k → LS k × Bool
  | 0, xz, s => (s, xz)
  | n + 1, xz, s =>
    let s := callSM K sel bw (p2 bw) xz s
    let s := callSM K sel bw .ex false s
    let s := callSM K sel bw (p1 bw) false s
    locLoop K sel bw n false s

/-- number of rounds of `for (int s = 1; s < _numLocSteps; s++)` -/
def rounds (numLocSteps : ℤ) : ℕ := (numLocSteps - 1).toNat

/-- a phase without communication -/
def localPhase (f : ℕ → LS k → LS k) : Exch.Phase (LS k) (List (Fin k → ℝ)) where
  sends _ _ := false
  recvs _ _ := false
  msg _ _ _ := []
  start p s := f p s
  apply _ s _ := s

/-- after the gather: `EX_PART` and the loop, hybrid_base_smoother.cpp:546-559 -/
def afterGather (K : Kernels k) (sel : Sel) (bw xZero : Bool) (nls : ℤ) (s : LS k) : LS k :=
  (locLoop K sel bw (rounds nls) xZero (callSM K sel bw .ex xZero s)).1

/-- `CallStageKernelsImpl` up to `StartCO2CU`, hybrid_base_smoother.cpp:534-559, if `need_d2c`: the gather overlaps with `P1` -/
def d2cPhase (P : PD) (K : ℕ → Kernels k) (sel : Sel) (bw xZero : Bool) (nls : ℤ) : Exch.Phase (LS k) (List (Fin k → ℝ)) where
  sends := gComm P
  recvs := mComm P
  msg p s := (bufferG P p (sel.get s)).2
  start p s := callSM (K p) sel bw (p1 bw) xZero (sel.set s (bufferG P p (sel.get s)).1)
  apply p s buf := afterGather (K p) sel bw xZero nls (sel.set s (applyM P p (sel.get s) buf))

/-- the same without `need_d2c` -/
def noD2c (K : ℕ → Kernels k) (sel : Sel) (bw xZero : Bool) (nls : ℤ) : Exch.Phase (LS k) (List (Fin k → ℝ)) :=
  localPhase fun p s => afterGather (K p) sel bw xZero nls (callSM (K p) sel bw (p1 bw) xZero s)

/-- the value of `xZero` after the loop -/
def xZeroAfter (nls : ℤ) (xZero : Bool) : Bool := if rounds nls = 0 then xZero else false

/-- `StartCO2CU(x)`, `P2`, `FinishCO2CU(x)`, hybrid_base_smoother.cpp:567-573 -/
def co2cuPhase (P : PD) (K : ℕ → Kernels k) (sel : Sel) (bw xZero : Bool) (nls : ℤ) : Exch.Phase (LS k) (List (Fin k → ℝ)) where
  sends := mComm P
  recvs := gComm P
  msg p s := bufferM P p s.x
  start p s := callSM (K p) sel bw (p2 bw) (xZeroAfter nls xZero) s
  apply p s buf := { s with x := applyG P p s.x buf }

/-- `CallStageKernelsImpl`, hybrid_base_smoother.cpp:502-574 -/
def kernels (P : PD) (K : ℕ → Kernels k) (sel : Sel) (bw xZero : Bool) (nls : ℤ) (needD2c : Bool) :
    List (Exch.Phase (LS k) (List (Fin k → ℝ))) :=
  [if needD2c then d2cPhase P K sel bw xZero nls else noD2c K sel bw xZero nls, co2cuPhase P K sel bw xZero nls]

/-- `G->Mult(x)`; a process without `G` contributes nothing (`HasGLocal`) -/
def gMult (G : Option (CSR (Blk k))) (x : BVec k) : BVec k :=
  match G with
  | some G => multRow G x
  | none => 0

/-- `HasGGlobal`: `g_zero` is set by a sum over all processes, hybrid_matrix.cpp:571-583 -/
def hasG (P : PD) (G : ℕ → Option (CSR (Blk k))) : Bool := (List.range P.np).any fun p => (G p).isSome

/-- `SmoothImplRES`, hybrid_base_smoother.cpp:296-405; `resDist` is the status of the residual -/
def smoothImplRES (P : PD) (G : ℕ → Option (CSR (Blk k))) (K : ℕ → Kernels k) (bw xZero : Bool) (nls : ℤ) (resDist : Bool) :
    List (Exch.Phase (LS k) (List (Fin k → ℝ))) :=
  let stashGx := !xZero && hasG P G
  [localPhase fun p s => if stashGx then { s with gx := gMult (G p) s.x } else s] ++
  kernels P K .res bw xZero nls resDist ++
  [localPhase fun p s =>
    if hasG P G then
      let r := if stashGx then s.res + s.gx else s.res
      { s with res := r - gMult (G p) s.x }
    else s]

/-- `BaseVector::Distribute` (NGSolve) of a CUMULATED vector: copies that are not the master's are set to zero -/
def distribute (P : PD) (p : ℕ) (v : BVec k) : BVec k := fun d => if P.isMaster p d then v d else 0

/-- `SmoothImplRHS`, hybrid_base_smoother.cpp:412-495; `bDist` is the status of `b` -/
def smoothImplRHS (P : PD) (G : ℕ → Option (CSR (Blk k))) (K : ℕ → Kernels k) (bw xZero : Bool) (nls : ℤ) (bDist : Bool) :
    List (Exch.Phase (LS k) (List (Fin k → ℝ))) :=
  if !xZero && hasG P G then
    [localPhase fun p s =>
      let b := if bDist then s.b else distribute P p s.b
      { s with b := b, gx := b - gMult (G p) s.x }] ++
    kernels P K .gx bw xZero nls true
  else kernels P K .b bw xZero nls bDist

/-- `res = b; res -= A * x`, hybrid_base_smoother.cpp:269-270 with `HybridBaseMatrix::MultAdd`, hybrid_matrix.cpp:396-411 -/
def calcRes (P : PD) (M : ℕ → CSR (Blk k)) (G : ℕ → Option (CSR (Blk k))) (bDist : Bool) : Exch.Phase (LS k) (List (Fin k → ℝ)) :=
  localPhase fun p s =>
    let b := if bDist then s.b else distribute P p s.b
    { s with res := b - multRow (M p) s.x - gMult (G p) s.x }

/-- `SmoothImpl`, hybrid_base_smoother.cpp:246-289 -/
def smoothImpl (P : PD) (M : ℕ → CSR (Blk k)) (G : ℕ → Option (CSR (Blk k))) (K : ℕ → Kernels k) (bw : Bool) (nls : ℤ)
    (resUpdated updateRes xZero bDist resDist : Bool) : List (Exch.Phase (LS k) (List (Fin k → ℝ))) :=
  if updateRes then
    if !resUpdated then
      if !xZero then smoothImplRHS P G K bw xZero nls bDist ++ [calcRes P M G bDist]
      else [localPhase fun _ s => { s with res := s.b }] ++ smoothImplRES P G K bw xZero nls bDist
    else smoothImplRES P G K bw xZero nls resDist
  else smoothImplRHS P G K bw xZero nls bDist

/-! ### `HybridGSSmoother` -/

/-- `subset == nullptr || subset->Test(k)` -/
def inSubset (subset : Option (ℕ → Bool)) (d : ℕ) : Bool := GS.isFree subset d

/-- `loc` of `HybridGSSmoother::Finalize`, gssmoother.cpp:639-662 -/
def locDofs (P : PD) (p : ℕ) (subset : Option (ℕ → Bool)) (d : ℕ) : Bool :=
  P.isMaster p d && (P.dps p d).isEmpty && inSubset subset d

/-- `ex` of `HybridGSSmoother::Finalize`, gssmoother.cpp:639-662 -/
def exDofs (P : PD) (p : ℕ) (subset : Option (ℕ → Bool)) (d : ℕ) : Bool :=
  P.isMaster p d && !(P.dps p d).isEmpty && inSubset subset d

/-- `split_ind`, gssmoother.cpp:664-678: half of the rows, or the position of the middle local DOF (`0` if there is none) -/
def splitInd (P : PD) (p H : ℕ) (subset : Option (ℕ → Bool)) : ℕ :=
  match subset with
  | none => H / 2
  | some _ =>
    let l := (List.range H).filter (locDofs P p subset)
    (l[l.length / 2]?).getD 0

/-- `jac_loc`, gssmoother.cpp:693 -/
def jacLoc (P : PD) (inv : Blk k → Blk k) (p : ℕ) (M : CSR (Blk k)) (md : ℕ → Blk k) (subset : Option (ℕ → Bool)) : GS.GSS3 k :=
  GS.GSS3.mk' inv M (some md) (some (locDofs P p subset))

/-- `jac_ex`, gssmoother.cpp:695-696 (`nullptr` if there are no such DOFs) -/
def jacEx (P : PD) (inv : Blk k → Blk k) (p : ℕ) (M : CSR (Blk k)) (md : ℕ → Blk k) (subset : Option (ℕ → Bool)) :
    Option (GS.GSS4 k) :=
  if GS.numSet M.height (exDofs P p subset) ≠ 0 then some (GS.GSS4.mk' inv M (some md) (some (exDofs P p subset))) else none

/-- `HybridGSSmoother::SmoothStageRHS`, gssmoother.cpp:710-783 -/
def gsRHS (P : PD) (inv : Blk k → Blk k) (p : ℕ) (M : CSR (Blk k)) (md : ℕ → Blk k) (subset : Option (ℕ → Bool)) (symmLoc : Bool)
    (st : Stage) (bw : Bool) (x b : BVec k) : BVec k :=
  let loc := jacLoc P inv p M md subset
  let ex := jacEx P inv p M md subset
  let N := M.height
  let split := splitInd P p N subset
  if symmLoc then
    match st with
    | .loc1 => loc.smoothRHS 0 N x b false
    | .ex =>
      match ex with
      | some e => e.smoothRHS (e.smoothRHS x b false) b true
      | none => x
    | .loc2 => loc.smoothRHS 0 N x b true
  else
    match st with
    | .ex =>
      match ex with
      | some e => if bw then e.smoothRHS x b true else e.smoothRHS x b false
      | none => x
    | .loc1 => if bw then loc.smoothRHS 0 split x b true else loc.smoothRHS 0 split x b false
    | .loc2 => if bw then loc.smoothRHS split N x b true else loc.smoothRHS split N x b false

/-- `HybridGSSmoother::SmoothStageRes`, gssmoother.cpp:789-861 -/
def gsRES (P : PD) (inv : Blk k → Blk k) (p : ℕ) (M : CSR (Blk k)) (md : ℕ → Blk k) (subset : Option (ℕ → Bool)) (symmLoc : Bool)
    (st : Stage) (bw : Bool) (x r : BVec k) : BVec k × BVec k :=
  let loc := jacLoc P inv p M md subset
  let ex := jacEx P inv p M md subset
  let N := M.height
  let split := splitInd P p N subset
  if symmLoc then
    match st with
    | .loc1 => loc.smoothRES 0 N x r false
    | .ex =>
      match ex with
      | some e => let s := e.smoothRES x r false; e.smoothRES s.1 s.2 true
      | none => (x, r)
    | .loc2 => loc.smoothRES 0 N x r true
  else
    match st with
    | .ex =>
      match ex with
      | some e => if bw then e.smoothRES x r true else e.smoothRES x r false
      | none => (x, r)
    | .loc1 => if bw then loc.smoothRES 0 split x r true else loc.smoothRES 0 split x r false
    | .loc2 => if bw then loc.smoothRES split N x r true else loc.smoothRES split N x r false

/-- the kernels of `HybridGSSmoother` on process `p`; they do not look at `x_zero`. `md` is what `CalcModDiag` returns. -/
def gsKernels (P : PD) (inv : Blk k → Blk k) (M : ℕ → CSR (Blk k)) (md : ℕ → ℕ → Blk k) (subset : ℕ → Option (ℕ → Bool))
    (symmLoc : Bool) (p : ℕ) : Kernels k where
  rhs st bw _ x b := gsRHS P inv p (M p) (md p) (subset p) symmLoc st bw x b
  res st bw _ x r := gsRES P inv p (M p) (md p) (subset p) symmLoc st bw x r

end NgsAMG.HybSm
