import Verif.Spec.Transfer

/-! Model of `/repo/src/base/coarsening/dof_map.{hpp,cpp}`: grid transfer steps, their concatenation, and the `DOFMap`.

Simplifications: matrices are dense `DMat`s (the sparse kernels are the subject of `Model/SparseMM`), block entries are
flattened to scalars with only the block sizes kept as tags; the parallel status of vectors is not modelled here (the maps
are those of one process, see `Model/DCC`); `shared_ptr` aliasing is modelled by value (a step is only ever mutated by
`Finalize`, which caches a transposed matrix / allocates work vectors). `none` stands for undefined behaviour (null
pointer access, out-of-range access) or an exception. -/

namespace NgsAMG.DM

open Spec

/-- The step classes of dof_map.hpp.
* `prol`: `ProlMap<Mat<bh,bw>>` (hpp:252-331), `PT = none` is a null `_prolT`;
* `dyn`: `DynBlockProlMap` (hpp:337-381);
* `other`: any other step class, e.g. `CtrMap` (dof_contract.hpp:11-76), kept abstract through its action;
* `conc`: `ConcDMS` (hpp:172-205), `vecs` is the array of work vectors (`true` = non-null; `[]` = not allocated);
* `multi`: `MultiDofMapStep` (hpp:385-417), `maps = prim :: sec`. -/
inductive Step (K : Type*) where
  | prol (bh bw : ℕ) (P : DMat K) (PT : Option (DMat K))
  | dyn (P : DMat K) (PT : Option (DMat K))
  | other (h w : ℕ) (a : Act K)
  | conc (subs : List (Step K)) (vecs : List Bool)
  | multi (prim : Step K) (sec : List (Step K))

variable {K : Type*} [CommRing K]

/-- dof_map.cpp:380-388 / 427-429 (`ConcDMS::TransferF2C`): the middle loop
`for (l = 1; l < n-1; l++) sub_steps[l]->TransferF2C(vecs[l-1], vecs[l])`; `ws` are the contents of the work vectors, `rem`
the number of iterations left. Reading or writing a work vector that is not there is UB. -/
def loopUp (fs : List (Vec K → Option (Vec K))) (vecs : List Bool) : ℕ → ℕ → (ℕ → Vec K) → Option (ℕ → Vec K)
  | 0, _, ws => some ws
  | rem + 1, l, ws =>
    if vecs[l - 1]? = some true ∧ vecs[l]? = some true then
      (fs[l]?.bind fun f => f (ws (l - 1))).bind fun v => loopUp fs vecs rem (l + 1) (Function.update ws l v)
    else none

/-- dof_map.cpp:428-429 (`ConcDMS::TransferC2F`): the middle loop
`for (l = n-2; l > 0; l--) sub_steps[l]->TransferC2F(vecs[l-1], vecs[l])`, called with the current `l`. -/
def loopDown (fs : List (Vec K → Option (Vec K))) (vecs : List Bool) : ℕ → (ℕ → Vec K) → Option (ℕ → Vec K)
  | 0, ws => some ws
  | l + 1, ws =>
    if vecs[l]? = some true ∧ vecs[l + 1]? = some true then
      (fs[l + 1]?.bind fun f => f (ws (l + 1))).bind fun v => loopDown fs vecs l (Function.update ws l v)
    else none

/-- dof_map.cpp:373-390 / 393-409 (`ConcDMS::TransferF2C`, `AddF2C`): `fs` are the `TransferF2C`s of the sub-steps, `last`
what is done with the last sub-step (`TransferF2C` or `AddF2C` into `x_coarse`). `ws` is the initial content of the work
vectors. -/
def runF2C (fs : List (Vec K → Option (Vec K))) (last : Vec K → Option (Vec K)) (vecs : List Bool) (ws : ℕ → Vec K)
    (x : Vec K) : Option (Vec K) :=
  if fs.length = 1 then last x
  else if vecs[0]? = some true then
    (fs[0]?.bind fun f => f x).bind fun v =>
    (loopUp fs vecs (fs.length - 2) 1 (Function.update ws 0 v)).bind fun ws' =>
    if vecs[vecs.length - 1]? = some true then last (ws' (vecs.length - 1)) else none
  else none

/-- dof_map.cpp:412-431 / 434-455 (`ConcDMS::TransferC2F`, `AddC2F`): `first` is what is done with the first sub-step. -/
def runC2F (fs : List (Vec K → Option (Vec K))) (first : Vec K → Option (Vec K)) (vecs : List Bool) (ws : ℕ → Vec K)
    (x : Vec K) : Option (Vec K) :=
  if fs.length = 1 then first x
  else if vecs[vecs.length - 1]? = some true then
    (fs[fs.length - 1]?.bind fun f => f x).bind fun v =>
    (loopDown fs vecs (fs.length - 2) (Function.update ws (vecs.length - 1) v)).bind fun ws' =>
    if vecs[0]? = some true then first (ws' 0) else none
  else none

mutual
/-- `TransferF2C(x_fine, x_coarse)`: new `x_coarse`. dof_map.cpp:655-675 (`ProlMap`: `_prolT->Mult`, null access before
`Finalize`), 502-526 (`BaseProlMap` for the dynamic block version: without stored transpose `MultTrans`, which throws for
dynamic block matrices, dyn_block.hpp), 373-390 (`ConcDMS`), 1013-1018 (`MultiDofMapStep`: first map). Initial contents of
work vectors are taken as zero (`runF2C_ws` shows they do not matter). -/
def Step.f2c : Step K → Vec K → Option (Vec K)
  | .prol _ _ _ PT, x => PT.map fun M => M.mulVec x
  | .dyn _ PT, x => PT.map fun M => M.mulVec x
  | .other _ _ a, x => some (a.R x)
  | .conc subs vecs, x =>
    let fs := f2cs subs
    runF2C fs (fun y => fs[fs.length - 1]?.bind fun f => f y) vecs (fun _ _ => 0) x
  | .multi p _, x => p.f2c x
/-- the `TransferF2C`s of a list of steps -/
def f2cs : List (Step K) → List (Vec K → Option (Vec K))
  | [] => []
  | s :: ss => s.f2c :: f2cs ss
end

mutual
/-- `TransferC2F(x_fine, x_coarse)`: new `x_fine`. dof_map.cpp:699-716 (`ProlMap`), 552-562 (`BaseProlMap`), 412-431
(`ConcDMS`), 1029-1034 (`MultiDofMapStep`). -/
def Step.c2f : Step K → Vec K → Option (Vec K)
  | .prol _ _ P _, x => some (P.mulVec x)
  | .dyn P _, x => some (P.mulVec x)
  | .other _ _ a, x => some (a.P x)
  | .conc subs vecs, x =>
    let fs := c2fs subs
    runC2F fs (fun y => fs[0]?.bind fun f => f y) vecs (fun _ _ => 0) x
  | .multi p _, x => p.c2f x
/-- the `TransferC2F`s of a list of steps -/
def c2fs : List (Step K) → List (Vec K → Option (Vec K))
  | [] => []
  | s :: ss => s.c2f :: c2fs ss
end

mutual
/-- `AddF2C(fac, x_fine, x_coarse)`: new `x_coarse`. dof_map.cpp:678-696 (`ProlMap`), 529-549 (`BaseProlMap`), 393-409
(`ConcDMS`), 1021-1026 (`MultiDofMapStep`). -/
def Step.addF2C : Step K → K → Vec K → Vec K → Option (Vec K)
  | .prol _ _ _ PT, fac, x, y => PT.map fun M => fun i => y i + fac * M.mulVec x i
  | .dyn _ PT, fac, x, y => PT.map fun M => fun i => y i + fac * M.mulVec x i
  | .other _ _ a, fac, x, y => some fun i => y i + fac * a.R x i
  | .conc subs vecs, fac, x, y =>
    runF2C (f2cs subs) (fun z => addF2Clast subs fac z y) vecs (fun _ _ => 0) x
  | .multi p _, fac, x, y => p.addF2C fac x y
/-- `sub_steps.Last()->AddF2C(..)` (dof_map.cpp:408; `none` on an empty array) -/
def addF2Clast : List (Step K) → K → Vec K → Vec K → Option (Vec K)
  | [], _, _, _ => none
  | [s], fac, x, y => s.addF2C fac x y
  | _ :: s :: ss, fac, x, y => addF2Clast (s :: ss) fac x y
end

mutual
/-- `AddC2F(fac, x_fine, x_coarse)`: new `x_fine`. dof_map.cpp:719-736 (`ProlMap`), 565-577 (`BaseProlMap`), 434-455
(`ConcDMS`), 1037-1042 (`MultiDofMapStep`). Arguments: `fac`, `x_coarse`, `x_fine`. -/
def Step.addC2F : Step K → K → Vec K → Vec K → Option (Vec K)
  | .prol _ _ P _, fac, x, y => some fun i => y i + fac * P.mulVec x i
  | .dyn P _, fac, x, y => some fun i => y i + fac * P.mulVec x i
  | .other _ _ a, fac, x, y => some fun i => y i + fac * a.P x i
  | .conc subs vecs, fac, x, y =>
    runC2F (c2fs subs) (fun z => addC2Ffirst subs fac z y) vecs (fun _ _ => 0) x
  | .multi p _, fac, x, y => p.addC2F fac x y
/-- `sub_steps[0]->AddC2F(..)` (dof_map.cpp:453) -/
def addC2Ffirst : List (Step K) → K → Vec K → Vec K → Option (Vec K)
  | [], _, _, _ => none
  | s :: _, fac, x, y => s.addC2F fac x y
end

mutual
/-- `AssembleMatrix(mat)`: dof_map.cpp:826-842 (`ProlMap`: `Finalize`, then `RestrictMatrix(*_prolT, *mat, *_prol)` which is
`(PT*A)*P`, utils_sparseMM.hpp:93-109), 939-944 (`DynBlockProlMap` throws), 458-466 (`ConcDMS`), 1112-1117 (`multi`). The
dynamic cast to the block size is not modelled (block sizes of matrix and step are taken to agree). -/
def Step.assemble : Step K → DMat K → Option (DMat K)
  | .prol _ _ P PT, A => some (((PT.getD P.tr).mul A).mul P)
  | .dyn _ _, _ => none
  | .other _ _ a, A => a.A A
  | .conc subs _, A => assembles subs A
  | .multi p _, A => p.assemble A
/-- the loop `for (auto& step : sub_steps) cmat = step->AssembleMatrix(cmat)` (dof_map.cpp:463-464) -/
def assembles : List (Step K) → DMat K → Option (DMat K)
  | [], A => some A
  | s :: ss, A => (s.assemble A).bind fun B => assembles ss B
end

mutual
/-- `Finalize`: dof_map.cpp:622-632 (`ProlMap`: `BuildPT`, 812-818), 947-952 (`DynBlockProlMap`: nothing), hpp:64 (default:
nothing), 348-370 (`ConcDMS`: finalize the sub-steps, allocate work vectors if there are none), 1004-1010 (`multi`). -/
def Step.finalize : Step K → Step K
  | .prol bh bw P PT => .prol bh bw P (some (PT.getD P.tr))
  | .dyn P PT => .dyn P PT
  | .other h w a => .other h w a
  | .conc subs vecs =>
    .conc (finalizes subs) (if 1 < subs.length ∧ vecs.length = 0 then List.replicate (subs.length - 1) true else vecs)
  | .multi p sec => .multi p.finalize (finalizes sec)
/-- `for (auto step : sub_steps) step->Finalize()` -/
def finalizes : List (Step K) → List (Step K)
  | [] => []
  | s :: ss => s.finalize :: finalizes ss
end

mutual
/-- `CanConcatenate`: hpp:50 (default `false`; neither `ProlMap`, `ConcDMS` nor `CtrMap` override it), cpp:889-895
(`DynBlockProlMap`: `false`), cpp:1045-1059 (`MultiDofMapStep`). -/
def Step.canConc : Step K → Step K → Bool
  | .multi p sec, .multi q tec => (sec.length == tec.length) && p.canConc q && canConcs sec tec
  | .multi p [], t => p.canConc t
  | _, _ => false
/-- the loop over the component maps (cpp:1051-1052) -/
def canConcs : List (Step K) → List (Step K) → Bool
  | s :: ss, t :: ts => s.canConc t && canConcs ss ts
  | _, _ => true
end

/-- `Concatenate(other)`; result `none` is a null pointer. dof_map.cpp:762-794 and 739-759 (`ProlMap::Concatenate`,
`ConcatenateFromLeft`): if `W == OH == OW` and the matrix type `H x OW` is compiled, the product is a new map *without*
transpose; otherwise, if this is a square-block map with `H = W = OH`, a finalized map with the product. `other` is
finalized first, which does not change its prolongation. 898-904 (`DynBlockProlMap`: null), hpp:51 (default: null).
`MultiDofMapStep::Concatenate` (1062-1078) asks `CanConcatenate` first, which is never true (`canConc_false`). -/
def Step.concat (compiled : ℕ → ℕ → Bool) : Step K → Step K → Option (Step K)
  | .prol bh bw P _, .prol oh ow Q _ =>
    if bw = oh ∧ oh = ow ∧ compiled bh ow = true then some (.prol bh ow (P.mul Q) none)
    else if bh = oh ∧ bw = oh then some (Step.finalize (.prol oh ow (P.mul Q) none))
    else none
  | _, _ => none

/-- the side effect of `conc_step->Concatenate(other)` on `other`: `ProlMap::Concatenate` finalizes another sparse
prolongation (dof_map.cpp:770), everything else leaves it alone -/
def Step.afterConcat : Step K → Step K → Step K
  | .prol _ _ _ _, .prol oh ow Q QT => Step.finalize (.prol oh ow Q QT)
  | _, t => t

/-- dof_map.cpp:27-33, the inner loop of `MakeSingleStep2`: keep merging following steps into `conc`; returns the merged step
and the steps from index `k+1` (after the `k++`s) on. -/
def innerLoop (compiled : ℕ → ℕ → Bool) : Step K → List (Step K) → Step K × List (Step K)
  | conc, [] => (conc, [])
  | conc, t :: rest =>
    match Step.concat compiled conc t with
    | some x => innerLoop compiled x rest
    | none => (conc, Step.afterConcat conc t :: rest)

omit [CommRing K] in
theorem innerLoop_length [CommRing K] (compiled : ℕ → ℕ → Bool) (rest : List (Step K)) (c : Step K) :
    (innerLoop compiled c rest).2.length ≤ rest.length := by
  induction rest generalizing c with
  | nil => simp [innerLoop]
  | cons t rest ih =>
    unfold innerLoop
    split
    · exact (ih _).trans (by simp)
    · simp

/-- dof_map.cpp:24-35, the outer loop of `MakeSingleStep2` over the steps that are left: the array `sub_steps` -/
def outerLoop (compiled : ℕ → ℕ → Bool) : List (Step K) → List (Step K)
  | [] => []
  | s :: rest =>
    have := innerLoop_length compiled rest s
    (innerLoop compiled s rest).1 :: outerLoop compiled (innerLoop compiled s rest).2
  termination_by l => l.length
  decreasing_by simp; omega

/-- dof_map.cpp:310-345, `ConcDMS` constructor. UB (`none`) for an empty array of steps (`_sub_steps[0]`), or if too few
vectors are given. -/
def mkConc (subs : List (Step K)) (vs : List Bool) : Option (Step K) :=
  if subs.length = 0 then none
  else if 1 < subs.length ∧ vs.length ≠ 0 then
    if subs.length - 1 ≤ vs.length then some (.conc subs (vs.take (subs.length - 1))) else none
  else some (.conc subs [])

/-- dof_map.cpp:17-41, `MakeSingleStep2`; the result `none` is a null pointer (only for an empty array) -/
def makeSingleStep2 (compiled : ℕ → ℕ → Bool) (steps : List (Step K)) : Option (Step K) :=
  if steps.length = 0 then none
  else
    let subs := outerLoop compiled steps
    if subs.length = 1 then subs[0]? else mkConc subs []

mutual
/-- dof_map.cpp:44-65, `GetSimpleSteps` -/
def simpleSteps : Step K → List (Step K)
  | .conc subs _ => simpleStepss subs
  | .multi p _ => simpleSteps p
  | .prol bh bw P PT => [.prol bh bw P PT]
  | .dyn P PT => [.dyn P PT]
  | .other h w a => [.other h w a]
/-- the loops appending the simple steps of each element (cpp:51-54, 73-76) -/
def simpleStepss : List (Step K) → List (Step K)
  | [] => []
  | s :: ss => simpleSteps s ++ simpleStepss ss
end

/-- dof_map.cpp:68-79, `MakeSingleStep3` -/
def makeSingleStep3 (compiled : ℕ → ℕ → Bool) (steps : List (Step K)) : Option (Step K) :=
  makeSingleStep2 compiled (simpleStepss steps)

/-- `DOFMap` (hpp:84-169): steps, `finalized`, and which of the level vectors `vecs` are allocated -/
structure DOFMap (K : Type*) where
  steps : List (Step K)
  finalized : Bool
  vecs : List Bool

/-- dof_map.cpp:84-88, constructor -/
def DOFMap.new (K : Type*) : DOFMap K := ⟨[], false, []⟩

/-- dof_map.cpp:90-110, `DOFMap::Finalize`; `lastOk` tells whether the vector for the last level is allocated (only if this
process has the globally maximal number of steps; never in serial, where `nsteps_glob` stays `-1`) -/
def DOFMap.finalize (lastOk : Bool) (m : DOFMap K) : DOFMap K :=
  if m.steps.length = 0 ∨ m.finalized then m
  else { m with vecs := List.replicate m.steps.length true ++ [lastOk], finalized := true }

/-- dof_map.cpp:112-119, `AddStep` (`none`: exception) -/
def DOFMap.addStep (m : DOFMap K) (s : Step K) : Option (DOFMap K) :=
  if m.finalized then none else some { m with steps := m.steps ++ [s] }

/-- dof_map.cpp:121-128, `PrependStep` (`none`: exception) -/
def DOFMap.prependStep (m : DOFMap K) (s : Step K) : Option (DOFMap K) :=
  if m.finalized then none else some { m with steps := s :: m.steps }

/-- dof_map.cpp:131-161, `ReplaceStep` (`none`: out of range) -/
def DOFMap.replaceStep (m : DOFMap K) (k : ℕ) (s : Step K) : Option (DOFMap K) :=
  if k < m.steps.length then some { m with steps := m.steps.set k s } else none

/-- dof_map.cpp:173-181: the loop of `AssembleMatrices` -/
def assembleLoop : List (Step K) → DMat K → Option (List (DMat K))
  | [], _ => some []
  | s :: ss, A => (s.assemble A).bind fun B => (assembleLoop ss B).map fun l => B :: l

/-- dof_map.cpp:164-182, `AssembleMatrices` -/
def DOFMap.assembleMatrices (m : DOFMap K) (A : DMat K) : Option (List (DMat K)) :=
  (assembleLoop m.steps A).map fun l => A :: l

/-- dof_map.cpp:209-218, `SubMap(from, to)` with `to != -1` -/
def DOFMap.subMap (m : DOFMap K) (a b : ℕ) : DOFMap K := ⟨(m.steps.take b).drop a, false, []⟩

/-- dof_map.cpp:221-255, `ConcStep(la, lb, symbolic)`; `none`: undefined behaviour or null pointer. `DOFMap::Finalize` is
called first. -/
def DOFMap.concStep (compiled : ℕ → ℕ → Bool) (lastOk : Bool) (m : DOFMap K) (la lb : ℕ) (symbolic : Bool) :
    Option (Step K) :=
  let m := m.finalize lastOk
  let a := min la lb
  let b := max la lb
  if a + 1 = b then m.steps[a]?
  else if m.steps.length < b then none
  else if symbolic then mkConc ((m.steps.take b).drop a) ((m.vecs.take b).drop (a + 1))
  else makeSingleStep3 compiled ((m.steps.take b).drop a)

/-- dof_map.cpp:185-206, `TransferAtoB(la, lb, vin, vout)`: the new content of `vout` -/
def DOFMap.transferAtoB (compiled : ℕ → ℕ → Bool) (lastOk : Bool) (m : DOFMap K) (la lb : ℕ) (vin vout : Vec K) :
    Option (Vec K) :=
  if la = lb then some vin
  else
    let lla := min la m.steps.length
    let llb := min lb m.steps.length
    if lla = llb then some vout
    else if lb < la then (m.concStep compiled lastOk llb lla true).bind fun s => s.c2f vin
    else (m.concStep compiled lastOk lla llb true).bind fun s => s.f2c vin

/-- /repo/src/base/factory/base_factory.cpp:449-500, `BaseAMGFactory::MapLevel` (for different fine and coarse meshes,
without multi-step embedding): final step and coarse level matrix. `embDone`: the fine level matrix is already embedded.
Outer `none`: exception/UB; inner `none`: null pointer. -/
def mapLevel (compiled : ℕ → ℕ → Bool) (dofSteps : List (Step K)) (embDone : Bool) (A : DMat K) :
    Option (Option (Step K × DMat K)) :=
  if 1 < dofSteps.length ∧ embDone = true then
    match makeSingleStep3 compiled (dofSteps.drop 1) with
    | none =>
      (dofSteps[0]?).bind fun s => (s.assemble A).map fun B => some (s.finalize, B)
    | some afs =>
      (afs.assemble A).bind fun B =>
      (dofSteps[0]?).bind fun s0 =>
      (makeSingleStep3 compiled [s0, afs]).map fun f => some (f.finalize, B)
  else
    match makeSingleStep3 compiled dofSteps with
    | none => some none
    | some f => (f.assemble A).map fun B => some (f.finalize, B)

end NgsAMG.DM
