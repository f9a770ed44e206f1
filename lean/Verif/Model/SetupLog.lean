import Mathlib.Algebra.Order.Ring.Rat
import Mathlib.Algebra.BigOperators.Group.List.Basic

/-!
# Model: the summary of the setup (base/factory/base_factory.cpp:67-199, 250-255)

Every process runs its own program, which stops at collective operations and messages. A collective operation is carried out when all processes of its
communicator have arrived at it, a message when sender and receiver have (the sends are blocking). Which of the operations that are possible comes next is
arbitrary. A communicator is the list of its processes, numbered as in the communicator of the finest level. `double` is `ℚ`; infinite numbers and not
numbers do not occur where the entries of level zero are positive.
-/

namespace NgsAMG.SLog

/-- a program up to the collective operations: `red` is `Reduce(x, NG_MPI_SUM, 0)`, `amin` is `AllReduce(x, NG_MPI_MIN)` -/
inductive Prog (α : Type) where
  | ret (a : α)
  | red (c : List ℕ) (x : ℕ) (k : ℕ → Prog α)
  | amin (c : List ℕ) (x : ℕ) (k : ℕ → Prog α)
  | send (q : ℕ) (d : List ℚ) (k : Prog α)
  | recv (q : ℕ) (k : List ℚ → Prog α)

/-- one program after the other -/
def Prog.bind {α β : Type} : Prog α → (α → Prog β) → Prog β
  | .ret a, f => f a
  | .red c x k, f => .red c x fun y => (k y).bind f
  | .amin c x k, f => .amin c x fun y => (k y).bind f
  | .send q d k, f => .send q d (k.bind f)
  | .recv q k, f => .recv q fun y => (k y).bind f

/-- minimum of a list; of nothing zero -/
def lmin : List ℕ → ℕ
  | [] => 0
  | x :: xs => xs.foldl min x

/-- operations that are possible: processes and their programs after it. `J` is what `Reduce` returns on processes other than the first. -/
inductive Ready {α : Type} (J : ℕ → List ℕ → ℕ → ℕ) (f : ℕ → Prog α) : List ℕ → (ℕ → Prog α) → Prop
  | red (c : List ℕ) (x : ℕ → ℕ) (k : ℕ → ℕ → Prog α) (hc : c ≠ []) (h : ∀ p ∈ c, f p = .red c (x p) (k p)) :
      Ready J f c fun p => k p (if c.head? = some p then (c.map x).sum else J p c (x p))
  | amin (c : List ℕ) (x : ℕ → ℕ) (k : ℕ → ℕ → Prog α) (hc : c ≠ []) (h : ∀ p ∈ c, f p = .amin c (x p) (k p)) :
      Ready J f c fun p => k p (lmin (c.map x))
  | msg (p q : ℕ) (d : List ℚ) (k : Prog α) (k' : List ℚ → Prog α) (hpq : p ≠ q) (hp : f p = .send q d k) (hq : f q = .recv p k') :
      Ready J f [p, q] fun r => if r = p then k else k' d

/-- one operation -/
def Step {α : Type} (J : ℕ → List ℕ → ℕ → ℕ) (f g : ℕ → Prog α) : Prop :=
  ∃ c n, Ready J f c n ∧ g = fun p => if p ∈ c then n p else f p

/-- base_factory.hpp:135-140: the levels of detail -/
inductive LogLev
  | none | basic | normal | extra | dbg
deriving DecidableEq, Repr

/-- `lev < LOG_LEVEL::EXTRA` -/
def LogLev.small : LogLev → Bool
  | .extra => false
  | .dbg => false
  | _ => true

/-- a level of the hierarchy: its processes, the global numbers of vertices and edges, the numbers of vertices and of entries of the matrix of a process, and
`GetEntrySize` -/
structure Level where
  procs : List ℕ
  nv : ℕ
  ne : ℕ
  nvl : ℕ → ℕ
  nze : ℕ → ℕ
  bs : ℕ

/-- base_factory.hpp:220-241: the arrays of the logger, and the results -/
structure Log where
  vcc : List ℚ := []
  occ : List ℚ := []
  nvs : List ℕ := []
  nes : List ℕ := []
  nps : List ℕ := []
  nzes : List ℕ := []
  vccl : List ℚ := []
  occl : List ℚ := []
  vComp : ℚ := 0
  opComp : ℚ := 0
  vCompL : ℚ := 0
  vccRank : ℕ := 0
  opCompL : ℚ := 0
  occRank : ℕ := 0
deriving DecidableEq, Repr

/-- base_factory.cpp:102-106: the rest of `LogLevel`, with the reduced number of entries -/
def logRest (p : ℕ) (lev : LogLev) (L : Level) (g : Log) (z : ℕ) : Log :=
  let g : Log := { g with nzes := g.nzes ++ [z] }
  if lev.small then g
  else { g with vccl := g.vccl ++ [(L.nvl p : ℚ)], occl := g.occl ++ [((L.nze p * L.bs : ℕ) : ℚ)] }

/-- base_factory.cpp:91-101: with the reduced size of the matrix -/
def logMid (p : ℕ) (L : Level) (g : Log) (o : ℕ) : Log :=
  { g with
    vcc := g.vcc ++ [(L.nv : ℚ)]
    occ := if L.procs.head? = some p then g.occ ++ [(o : ℚ)] else g.occ
    nvs := g.nvs ++ [L.nv]
    nes := g.nes ++ [L.ne]
    nps := g.nps ++ [L.procs.length] }

/-- base_factory.cpp:83-107, `LogLevel` -/
def logLevel (p : ℕ) (lev : LogLev) (L : Level) (g : Log) : Prog Log :=
  if lev = .none then .ret g
  else .red L.procs (L.nze p * L.bs) fun o => .red L.procs (L.nze p) fun z => .ret (logRest p lev L (logMid p L g o) z)

/-- base_factory.cpp:281, 340: the levels are logged one after the other; a process that has dropped out does not take part any more (335-339) -/
def logAll (p : ℕ) (lev : LogLev) : List Level → Log → Prog Log
  | [], g => .ret g
  | L :: Ls, g => if p ∈ L.procs then (logLevel p lev L g).bind (logAll p lev Ls) else .ret g

/-- base_factory.cpp:121-127: entries are divided by the first one -/
def scaled (l : List ℚ) (x : ℚ) : List ℚ := l.map fun v => v / x

/-- base_factory.cpp:133-148: `alam`; the result is the process, the value and the array. The maximum is not computed (line 136), `val == maxval` holds. -/
def alam (comm : List ℕ) (p : ℕ) (val : ℚ) (arr : List ℚ) : Prog (ℕ × ℚ × List ℚ) :=
  if 1 < comm.length then
    let maxval := val
    .amin comm (if val = maxval then comm.idxOf p else comm.length) fun rk =>
      if comm.idxOf p = 0 ∧ rk ≠ 0 then .recv (comm.getD rk 0) fun a => .ret (rk, maxval, a)
      else if comm.idxOf p = rk ∧ rk ≠ 0 then .send (comm.getD 0 0) arr (.ret (rk, maxval, arr))
      else .ret (rk, maxval, arr)
  else .ret (0, val, arr)

/-- base_factory.cpp:119-128: sums over all processes, on the first one -/
def global (comm : List ℕ) (p : ℕ) (g : Log) : Option Log :=
  if comm.idxOf p = 0 then
    match g.vcc, g.occ with
    | v0 :: _, o0 :: _ => some { g with vcc := scaled g.vcc v0, vComp := (scaled g.vcc v0).sum, occ := scaled g.occ o0, opComp := (scaled g.occ o0).sum }
    | _, _ => none
  else some g

/-- base_factory.cpp:152-160: complexities of the process, and where they are largest -/
def loc (comm : List ℕ) (p : ℕ) (g : Log) : Prog (Option Log) :=
  match g.vccl, g.occl with
  | v0 :: _, o0 :: _ =>
    (alam comm p (scaled g.vccl (max v0 1)).sum (scaled g.vccl (max v0 1))).bind fun v =>
      (alam comm p (scaled g.occl (max o0 1)).sum (scaled g.occl (max o0 1))).bind fun o =>
        .ret (some { g with vccl := v.2.2, vCompL := v.2.1, vccRank := v.1, occl := o.2.2, opCompL := o.2.1, occRank := o.1 })
  | _, _ => .ret none

/-- base_factory.cpp:110-161, `Finalize`; the result `none` is an access to an empty array -/
def finalize (comm : List ℕ) (p : ℕ) (lev : LogLev) (g : Log) : Prog (Option Log) :=
  if lev = .none then .ret (some g)
  else match global comm p { g with vComp := 0, opComp := 0 } with
    | none => .ret none
    | some g => if lev.small then .ret (some g) else loc comm p g

/-- where something is written -/
inductive Dest
  | console | file
deriving DecidableEq, Repr

/-- the lines of the summary -/
inductive Item
  | vComp (x : ℚ) | opComp (x : ℚ) | vcc (l : List ℚ) | occ (l : List ℚ) | nvs (l : List ℕ) | nes (l : List ℕ) | nps (l : List ℕ) | nzes (l : List ℕ)
  | locV (x : ℚ) (rank : ℕ) (comps : List ℚ) | locOp (x : ℚ) (rank : ℕ) (comps : List ℚ)
deriving DecidableEq, Repr

/-- base_factory.cpp:172-188: the lines; `prow` without a stream writes to the console (base/utils/utils.hpp:94) -/
def lines (lev : LogLev) (out : Dest) (g : Log) : List (Dest × Item) :=
  [(out, .vComp g.vComp), (out, .opComp g.opComp), (out, .vcc g.vcc), (out, .occ g.occ), (.console, .nvs g.nvs), (.console, .nes g.nes),
    (.console, .nps g.nps), (.console, .nzes g.nzes)] ++
  if lev.small then [] else [(out, .locV g.vCompL g.vccRank g.vccl), (out, .locOp g.opCompL g.occRank g.occl)]

/-- base_factory.cpp:164-190, `PrintLog`; the result is what is written, `none` is undefined behaviour -/
def printLog (comm : List ℕ) (p : ℕ) (lev : LogLev) (out : Dest) (g : Log) : Prog (Option (List (Dest × Item))) :=
  (finalize comm p lev g).bind fun r => .ret (r.map fun g => if comm.idxOf p ≠ 0 ∨ lev = .none then [] else lines lev out g)

/-- base_factory.cpp:193-199, `PrintToFile` -/
def printToFile (comm : List ℕ) (p : ℕ) (lev : LogLev) (g : Log) : Prog (Option (List (Dest × Item))) :=
  if comm.idxOf p = 0 then printLog comm p lev .file g else .ret (some [])

/-- base_factory.hpp:141-143: the options -/
structure Opts where
  lev : LogLev := .normal
  print : Bool := true
  toFile : Bool := false

/-- base_factory.cpp:250-255: the summary is written -/
def summary (comm : List ℕ) (p : ℕ) (O : Opts) (g : Log) : Prog (Option (List (Dest × Item))) :=
  if O.print then (if O.toFile then printToFile comm p O.lev g else printLog comm p O.lev .console g) else .ret (some [])

/-- base_factory.cpp:220-255: what process `p` does for the log, for a hierarchy with these levels -/
def setup (O : Opts) (Ls : List Level) (p : ℕ) : Prog (Option (List (Dest × Item))) :=
  match Ls with
  | [] => .ret (some [])
  | L :: _ => if p ∈ L.procs then (logAll p O.lev Ls {}).bind (summary L.procs p O) else .ret (some [])

end NgsAMG.SLog
