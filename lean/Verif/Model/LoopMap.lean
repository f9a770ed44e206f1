import Verif.Model.Loops
import Mathlib.Data.Int.Order.Basic

/-!
# Model: the coarse loops of fine loops (stokes/common/stokes_map_impl.hpp, loop_utils.hpp)
-/

namespace NgsAMG.Loop
variable {V : Type} [LinearOrder V]

/-- loop_utils.hpp:22-25, `loopDecode`: whether the edge is run through in its own direction, and its number -/
def loopDecode (k : ℤ) : Bool × ℕ := (decide (0 < k), k.natAbs - 1)

/-- loop_utils.hpp:28-32, `loopEncode` -/
def loopEncode (vStart vStop enr : ℕ) : ℤ := if vStart < vStop then (enr : ℤ) + 1 else -(enr : ℤ) - 1

/-- stokes_map_impl.hpp:258-287: the coarse edge one entry of a fine loop adds. `mine e`: the edge has a degree of freedom and this
process is its master; `fedges e`: its two vertices; `vmap`: the coarse vertex, as (eqc-id, number). -/
def coarseTuple (fedges : ℕ → ℕ × ℕ) (mine : ℕ → Bool) (vmap : ℕ → V) (k : ℤ) : Option (V × V) :=
  let d := loopDecode k
  if !mine d.2 then none
  else
    let cv0 := vmap (fedges d.2).1
    let cv1 := vmap (fedges d.2).2
    if cv0 = cv1 then none else if d.1 then some (cv0, cv1) else some (cv1, cv0)

/-- stokes_map_impl.hpp:243-292, PHASE I: the coarse edges of one fine loop, on one process -/
def coarseTuples (fedges : ℕ → ℕ × ℕ) (mine : ℕ → Bool) (vmap : ℕ → V) (loop : List ℤ) : List (V × V) :=
  loop.filterMap (coarseTuple fedges mine vmap)

/-- loop_utils.hpp:374-377: `nsi`, the position of the first smallest vertex -/
def minPos (l : List V) (a : V) : ℕ × V := l.zipIdx.foldl (fun s e => if e.1 < s.2 then (e.2, e.1) else s) (0, a)

/-- `slk[i] < slk[j]` -/
def ltAt (l : List V) (i j : ℕ) : Bool :=
  match l[i]?, l[j]? with
  | some a, some b => decide (a < b)
  | _, _ => false

/-- loop_utils.hpp:380-385: `flip` -/
def flipLoop (l : List V) (nsi : ℕ) : Bool :=
  if 0 < nsi ∧ nsi + 1 < l.length then ltAt l (nsi + 1) (nsi - 1) else ltAt l (l.length - 2) 1

/-- loop_utils.hpp:387-402: what is copied to `rot_buffer` -/
def rotBuffer (l : List V) (nsi : ℕ) (flip : Bool) : List V :=
  if flip then ((l.take (nsi + 1)).drop 1).reverse ++ (l.drop nsi).reverse else l.drop nsi ++ (l.take (nsi + 1)).drop 1

/-- loop_utils.hpp:364-412, `rotateVLoop` -/
def rotateVLoop (l : List V) : List V :=
  match l with
  | [] => []
  | a :: t =>
    if (a :: t).head? = (a :: t).getLast? then
      let nsi := (minPos (a :: t) a).1
      let flip := flipLoop (a :: t) nsi
      if flip || nsi != 0 then rotBuffer (a :: t) nsi flip else a :: t
    else if (a :: t).getLast (by simp) < a then (a :: t).reverse else a :: t

/-- stokes_map_impl.hpp:430-435: which of the loops are kept: not those with fewer than two vertices, `[A,A]` and `[A,B,A]` -/
def keepLoop (l : List V) : Bool := decide (2 ≤ l.length) && !(decide (l.length ≤ 3) && isClosed l)

/-- stokes_map_impl.hpp:405-454, `it_loops(true, …)` for one fine loop: its coarse edges from all processes, in the order of the ranks -/
def itLoop (data : List (V × V)) : Option (List (List V)) := (simpleLoops data).map fun r => (r.1.filter keepLoop).map rotateVLoop

/-- stokes_map_impl.hpp:466-488: `all_c_loops` -/
def allCLoops (datas : List (List (V × V))) : Option (List (List V)) := (datas.mapM itLoop).map List.flatten

/-- stokes_map_impl.hpp:565-594: `ce_dups`, whether a loop is a duplicate of one before it. Simplified: the bucket of a loop is given by
its first vertex, see `LoopBuckets`; loops are in a bucket in the order of their numbers. -/
def isDup (before : List (List V)) (l : List V) : Bool := (before.filter fun x => x.head? = l.head?).any fun x => decide (x = l)

/-- stokes_map_impl.hpp:629-650: the loops that are kept (`before`: all loops before, in reverse order) -/
def noDups : List (List V) → List (List V) → List (List V)
  | _, [] => []
  | before, l :: t => if isDup before l then noDups (l :: before) t else l :: noDups (l :: before) t

/-- stokes_map_impl.hpp:601-627, `convert_loop`: the oriented coarse edges of a loop that exist on this process. `num v`: the number of the
coarse vertex, if the process has it; `eid a b`: the number of the edge, if there is one. -/
def convertLoop (num : V → Option ℕ) (eid : ℕ → ℕ → Option ℕ) : List V → List ℤ
  | a :: b :: t =>
    let r := convertLoop num eid (b :: t)
    match num a, num b with
    | some x, some y => match eid x y with
      | some e => loopEncode x y e :: r
      | none => r
    | _, _ => r
  | _ => []

/-- stokes_map_impl.hpp:243-651, PHASES I–III: the coarse loops, as vertex lists -/
def coarseLoops (datas : List (List (V × V))) : Option (List (List V)) := (allCLoops datas).map (noDups [])

end NgsAMG.Loop
