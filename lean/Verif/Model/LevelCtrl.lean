import Mathlib.Data.Rat.Floor
import Mathlib.Algebra.BigOperators.Group.Finset.Basic
import Mathlib.Algebra.Order.Ring.Rat
import Mathlib.Algebra.Order.Floor.Semiring

/-!
# Model of the control of the levels

`/repo/src/base/factory/base_factory.cpp`: `InitState` (693-710), `RSU` (269-353), `DoStep` (356-436), `TryCoarseStep` (528-570), `FindRDFac` (573-625), `TryContractStep` (628-682);
`/repo/src/base/factory/nodal_factory_impl.hpp`: `ComputeMeshMeasure` (20-23), `ComputeLocFrac` (27-40), `ComputeGoal` (80-120), the number of groups in `BuildContractMap` (141-144);
options in `/repo/src/base/factory/base_factory.hpp` (90-140).

Every process runs its own program. The program stops at the collective operations (sums over the processes of the level, construction of the coarse mesh, contraction); these go on only if all
processes of the communicator of the level have arrived at the same operation. What coarsening and contraction do is arbitrary (`World`). Floating point numbers are rational numbers.
-/

namespace NgsAMG.LC

/-- base_factory.hpp:93-124: the options that control the levels -/
structure Opts where
  maxLevels : ℕ := 10
  minMeas : ℕ := 0
  maxMeas : ℕ := 50
  staticCrs : Bool := true
  aaf : ℚ := 1/10
  firstAaf : ℚ := 1/20
  aafScale : ℚ := 1
  enableRd : Bool := true
  staticRd : Bool := false
  rdaf : ℚ := 1/20
  firstRdaf : ℚ := 1/40
  rdafScale : ℚ := 1
  crsThresh : ℚ := 9/10
  locThresh : ℚ := 1/2
  pfac : ℚ := 1/4
  minNvTh : ℕ := 500
  minNvGl : ℕ := 500
  seqNv : ℕ := 1000
  locGl : ℚ := 8/10

/-- what a process knows of a mesh: the global numbers of nodes and of vertices, the size of the communicator, whether rank zero is idle; its own number of vertices in class zero, number of classes and number
of neighbours -/
structure PMesh where
  meas : ℕ
  nv : ℕ
  np : ℕ
  idle : Bool
  nloc : ℕ
  neqcs : ℕ
  ndist : ℕ
deriving DecidableEq, Repr

/-- base_factory.hpp:165-178 (`State`) and the finest-to-date level; `mesh` is the mesh of `state.curr_cap` at the start of a level, which is that of the last level -/
structure PState where
  level : ℕ
  mesh : PMesh
  firstRdUsed : Bool
  lastRdMeas : ℕ
  needRd : Bool
deriving DecidableEq, Repr

/-- a program of one process up to the collective operations: `sum` is `AllReduce(x, NG_MPI_SUM)`, `crs` is `BuildCoarseMap` (`none` is `nullptr`), `ctr n` is `BuildContractMap` with `n` groups
(`none` for a process that is not the master of its group) -/
inductive Prog (α : Type) where
  | ret (a : α)
  | sum (x : ℕ) (k : ℕ → Prog α)
  | crs (k : Option PMesh → Prog α)
  | ctr (n : ℕ) (k : Option PMesh → Prog α)

/-- one program after the other -/
def Prog.bind {α β : Type} : Prog α → (α → Prog β) → Prog β
  | .ret a, f => f a
  | .sum x k, f => .sum x fun y => (k y).bind f
  | .crs k, f => .crs fun y => (k y).bind f
  | .ctr n k, f => .ctr n fun y => (k y).bind f

/-- what coarsening and contraction (with `n` groups) give process `p` on level `l` -/
structure World where
  crs : ℕ → ℕ → Option PMesh
  ctr : ℕ → ℕ → ℕ → Option PMesh

/-- the processes `P` run their programs on level `l` of the world `W` to the end: a collective operation goes on only if all processes are there; otherwise they hang and there is no result -/
inductive Runs (W : World) (l : ℕ) (P : Finset ℕ) {α : Type} : (ℕ → Prog α) → (ℕ → α) → Prop
  | ret {f a} (h : ∀ p ∈ P, f p = .ret (a p)) : Runs W l P f a
  | sum {f a} (x : ℕ → ℕ) (k : ℕ → ℕ → Prog α) (h : ∀ p ∈ P, f p = .sum (x p) (k p)) (r : Runs W l P (fun p => k p (∑ q ∈ P, x q)) a) : Runs W l P f a
  | crs {f a} (k : ℕ → Option PMesh → Prog α) (h : ∀ p ∈ P, f p = .crs (k p)) (r : Runs W l P (fun p => k p (W.crs l p)) a) : Runs W l P f a
  | ctr {f a} (n : ℕ) (k : ℕ → Option PMesh → Prog α) (h : ∀ p ∈ P, f p = .ctr n (k p)) (r : Runs W l P (fun p => k p (W.ctr l n p)) a) : Runs W l P f a

/-- universal_dofs.hpp:41-42 -/
def truly (m : PMesh) : Bool := decide ((if m.idle then 2 else 1) < m.np)

/-- nodal_factory_impl.hpp:90-101: `ComputeGoal`; conversion to `size_t` rounds down -/
def goal (O : Opts) (level meas : ℕ) : ℕ :=
  if O.staticCrs then
    let af := if level = 0 ∧ O.firstAaf ≠ -1 then O.firstAaf else O.aafScale ^ ((level : ℤ) - (if O.firstAaf = -1 then 0 else 1)) * O.aaf
    max ⌊min af (9/10) * meas⌋₊ (max O.maxMeas 1)
  else if meas = 0 then 0 else 1

/-- base_factory.cpp:549: `cfac` -/
def cfac (f c : ℕ) : ℚ := if f = 0 then 0 else (c : ℚ) / f

/-- base_factory.cpp:555-563: `map_ok` -/
def mapOK (O : Opts) (f c : ℕ) : Bool := decide (c < f) && (!O.enableRd || decide (cfac f c < O.crsThresh))

/-- base_factory.cpp:528-570: `TryCoarseStep`, given the coarse mesh -/
def tryCoarse (O : Opts) (f : PMesh) : Option PMesh → Option PMesh
  | none => none
  | some c => if mapOK O f.meas c.meas then some c else none

/-- nodal_factory_impl.hpp:36: the local number of the process in `ComputeLocFrac` -/
def nnloc (m : PMesh) : ℕ := if 1 < m.neqcs then m.nloc else 0

/-- nodal_factory_impl.hpp:37-38 with the comparison in base_factory.cpp:605 and 647: is the fraction of local vertices less than the limit? Without vertices the fraction is not a number and the answer is no -/
def locLow (O : Opts) (n nv : ℕ) : Bool := decide (nv ≠ 0 ∧ (n : ℚ) / nv < O.locThresh)

/-- base_factory.cpp:607-617: the factor for more local vertices; `s` is the sum of the numbers of neighbours, `F` the fraction of local vertices; integer divisions as in the code; without neighbours the
fraction of a face is infinite (not a number if all vertices are local) -/
def locFac (O : Opts) (np s : ℕ) (F : ℚ) : ℚ :=
  if s / 2 = 0 then (if F < 1 ∧ 2 ≤ np then 1/2 else 1/8) else
  let FF := (1 - F) / ((s / 2 : ℕ) : ℚ)
  if F + ((np / 2 : ℕ) : ℚ) * FF > O.locGl then 1/2 else if F + ((np / 4 * 5 : ℕ) : ℚ) * FF > O.locGl then 1/4 else 1/8

/-- base_factory.cpp:594-598: the factor from the number of nodes per process; division by zero is infinite in floating point -/
def baseFac (O : Opts) (m : PMesh) : ℚ := if O.minNvGl = 0 then O.pfac else min O.pfac ((m.meas : ℚ) / O.minNvGl / m.np)

/-- base_factory.cpp:600-624, given the number of local vertices of all processes -/
def facRest (O : Opts) (m : PMesh) (n : ℕ) : Prog ℚ :=
  if locLow O n m.nv then .sum m.ndist fun s => .ret (min (1/2) (min (baseFac O m) (locFac O m.np s ((n : ℚ) / m.nv))))
  else .ret (min (1/2) (baseFac O m))

/-- base_factory.cpp:573-625: `FindRDFac` -/
def findRDFac (O : Opts) (m : PMesh) : Prog ℚ :=
  if m.np ≤ (if m.idle then 2 else 1) then .ret 1
  else if m.meas < O.seqNv then .ret (-1)
  else .sum (nnloc m) fun n => facRest O m n

/-- `std::round` for numbers that are not negative, to the next integer; halves are rounded up -/
def roundNat (x : ℚ) : ℕ := ⌊x + 1/2⌋₊

/-- nodal_factory_impl.hpp:141-144: the number of groups -/
def nGroups (m : PMesh) (fac : ℚ) : ℕ :=
  if fac = -1 then (if m.idle then 2 else 1) else max 2 (1 + roundNat (((m.np : ℚ) - 1) * fac))

/-- base_factory.cpp:655-658: the goal for redistribution with fixed ratios -/
def rdGoal (O : Opts) (s : PState) : ℕ :=
  let af := if !s.firstRdUsed ∧ O.firstRdaf ≠ -1 then O.firstRdaf else O.rdafScale ^ ((s.level : ℤ) - (if O.firstRdaf = -1 then 0 else 1)) * O.rdaf
  max ⌊min af (9/10) * s.lastRdMeas⌋₊ (max O.seqNv 1)

/-- base_factory.cpp:650-660: the tests that need no communication -/
def wantLate (O : Opts) (s : PState) (c : PMesh) : Bool := decide (c.meas < c.np * O.minNvTh) || (O.staticRd && decide (c.meas < rdGoal O s))

/-- base_factory.cpp:643-660: `want_redist` -/
def want (O : Opts) (s : PState) (c : PMesh) : Prog Bool :=
  if s.needRd then .ret true
  else .sum (nnloc c) fun n => .ret (locLow O n c.nv || wantLate O s c)

/-- base_factory.cpp:665-679: the contraction and the new state; the result is the new mesh (`none`: dropped out) and the state -/
def doContract (O : Opts) (s : PState) (c : PMesh) : Prog (Option PMesh × PState) :=
  (findRDFac O c).bind fun fac => .ctr (nGroups c fac) fun m => .ret (m, { s with firstRdUsed := true, needRd := false, lastRdMeas := c.meas })

/-- base_factory.cpp:628-682: `TryContractStep` for the coarse mesh `c`; without contraction the mesh and the state stay -/
def tryContract (O : Opts) (s : PState) (c : PMesh) : Prog (Option PMesh × PState) :=
  if !O.enableRd || !truly c then .ret (some c, s)
  else (want O s c).bind fun w => if w then doContract O s c else .ret (some c, s)

/-- base_factory.cpp:293-307: `step_bad` of the process -/
def stepBad (O : Opts) (f : PMesh) : Option PMesh → ℕ
  | none => 0
  | some c => if c.meas = 0 ∨ c.meas < O.minMeas ∨ c.meas = f.meas then 1 else 0

/-- what happens after one call of `RSU`: coarsening failed or gave a bad coarse level (the level is not added), the level was added and is the last one (`none`: dropped out), or the level was added
and `RSU` is called for it -/
inductive Outcome where
  | stuck
  | bad
  | last (c : Option PMesh)
  | more (s : PState)
deriving DecidableEq

/-- base_factory.cpp:334-352 -/
def finish (O : Opts) (s : PState) : Option PMesh → Outcome
  | none => .last none
  | some c => if s.level + 2 = O.maxLevels ∨ c.meas ≤ O.maxMeas then .last (some c) else .more { s with level := s.level + 1, mesh := c }

/-- base_factory.cpp:293-352: the part of `RSU` after `DoStep`, with a step -/
def afterStep (O : Opts) (s : PState) (r : Option PMesh × PState) : Prog Outcome :=
  .sum (stepBad O s.mesh r.1) fun t => .ret (if t ≠ 0 then .bad else finish O r.2 r.1)

/-- base_factory.cpp:368-369: on the first level -/
def startLevel (s : PState) : PState := if s.level = 0 then { s with lastRdMeas := s.mesh.meas } else s

/-- base_factory.cpp:392-393: `need_rd` after the coarse step -/
def afterCrs (O : Opts) (s : PState) (c : PMesh) : PState :=
  { s with needRd := s.needRd || decide (goal O s.level s.mesh.meas < c.meas) || decide (O.crsThresh < cfac s.mesh.meas c.meas) }

/-- base_factory.cpp:356-436 with 293-352: `DoStep` and the rest of one call of `RSU`. Without a coarse mesh, the mesh stays the same object, `MapLevel` gives `nullptr` and `RSU` returns before the sum
(base_factory.cpp:287-292) -/
def body (O : Opts) (s : PState) : Prog Outcome :=
  .crs fun m => match tryCoarse O s.mesh m with
    | none => .ret .stuck
    | some c => (tryContract O (afterCrs O (startLevel s) c) c).bind (afterStep O s)

/-- base_factory.cpp:693-710: `InitState` -/
def init (m : PMesh) : PState := { level := 0, mesh := m, firstRdUsed := false, lastRdMeas := m.meas, needRd := false }

/-- the coarse level that was added to the levels -/
def added : Outcome → Option (Option PMesh)
  | .stuck => none
  | .bad => none
  | .last c => some c
  | .more s => some (some s.mesh)

/-- base_factory.cpp:269-353: `RSU` of the processes `P` of a level, down to the last level. `hist p` are the coarse levels that process `p` adds, one step of the map is added for each of them
(base_factory.cpp:317). The recursive calls are collective operations on the new communicator: its members are the processes with a mesh, so all of them or none have to go on -/
inductive SetUp (O : Opts) (W : World) : ℕ → Finset ℕ → (ℕ → PState) → (ℕ → List (Option PMesh)) → Prop
  | done {l P s hist} (a : ℕ → Outcome) (r : Runs W l P (fun p => body O (s p)) a) (h : ∀ p ∈ P, (∀ t, a p ≠ .more t) ∧ hist p = (added (a p)).toList) : SetUp O W l P s hist
  | next {l P s hist} (a : ℕ → Outcome) (Q : Finset ℕ) (s' : ℕ → PState) (hist' : ℕ → List (Option PMesh)) (r : Runs W l P (fun p => body O (s p)) a)
      (hQ : ∀ p, p ∈ Q ↔ p ∈ P ∧ ∃ m, added (a p) = some (some m)) (hne : Q.Nonempty) (hm : ∀ p ∈ Q, a p = .more (s' p)) (hout : ∀ p ∈ P, p ∉ Q → hist p = (added (a p)).toList)
      (hin : ∀ p ∈ Q, hist p = (added (a p)).toList ++ hist' p) (rest : SetUp O W (l + 1) Q s' hist') : SetUp O W l P s hist

end NgsAMG.LC
