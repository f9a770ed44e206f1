import Mathlib.Order.Defs.LinearOrder
import Mathlib.Data.Nat.Notation

/-!
Model of the two-pointer traversals and merges of `/repo/src/base/utils/utils_arrays_tables.hpp`.

A loop state `(i1, i2)` over arrays `a`, `b` is kept as `i1`, the not yet visited rest of `a`
(`a[i1], a[i1+1], ...`), `i2`, and the rest of `b`; the guards `i1 < sa`, `i2 < sb` are the matches on the rests.
Callbacks are modelled by the list of their invocations, in order.
-/

namespace NgsAMG.Traversal

variable {α : Type*} [LinearOrder α]

/-- the invocations made by `iterate_ABC` (`ABC_KIND`, utils_arrays_tables.hpp:508-512) -/
inductive Ev where
  | inter (i j : ℕ)
  | aNotB (i : ℕ)
  | bNotA (j : ℕ)
  deriving DecidableEq, Repr

/-- trailing loops `for (; i1 < sa; i1++) lam_a(i1)` -/
def tailA (i : ℕ) : List α → List Ev
  | [] => []
  | _ :: as => .aNotB i :: tailA (i + 1) as

/-- trailing loops `for (; i2 < sb; i2++) lam_b(i2)` -/
def tailB (j : ℕ) : List α → List Ev
  | [] => []
  | _ :: bs => .bNotA j :: tailB (j + 1) bs

/-- `iterate_ABC`, both overloads, utils_arrays_tables.hpp:487-506 and 514-533 -/
def iterABC (i : ℕ) (a : List α) (j : ℕ) (b : List α) : List Ev :=
  match a, b with
  | [], bs => tailB j bs
  | as, [] => tailA i as
  | x :: as, y :: bs =>
    if x = y then .inter i j :: iterABC (i + 1) as (j + 1) bs
    else if x < y then .aNotB i :: iterABC (i + 1) as j (y :: bs)
    else .bNotA j :: iterABC i (x :: as) (j + 1) bs
termination_by a.length + b.length

/-- `iterate_intersection`, utils_arrays_tables.hpp:470-485: invocations `lam(i1, i2)` -/
def iterInter (i : ℕ) (a : List α) (j : ℕ) (b : List α) : List (ℕ × ℕ) :=
  match a, b with
  | [], _ => []
  | _ :: _, [] => []
  | x :: as, y :: bs =>
    if x = y then (i, j) :: iterInter (i + 1) as (j + 1) bs
    else if x < y then iterInter (i + 1) as j (y :: bs)
    else iterInter i (x :: as) (j + 1) bs
termination_by a.length + b.length

/-- `iterate_AC`, utils_arrays_tables.hpp:536-554 -/
def iterAC (i : ℕ) (a : List α) (j : ℕ) (b : List α) : List Ev :=
  match a, b with
  | [], _ => []
  | x :: as, [] => tailA i (x :: as)
  | x :: as, y :: bs =>
    if x = y then .inter i j :: iterAC (i + 1) as (j + 1) bs
    else if x < y then .aNotB i :: iterAC (i + 1) as j (y :: bs)
    else iterAC i (x :: as) (j + 1) bs
termination_by a.length + b.length

/-- `iterate_anotb`, utils_arrays_tables.hpp:623-638: invocations `lam(i1)` -/
def iterANotB (i : ℕ) (a : List α) (b : List α) : List ℕ :=
  match a, b with
  | [], _ => []
  | _ :: as, [] => i :: iterANotB (i + 1) as []
  | x :: as, y :: bs =>
    if x < y then i :: iterANotB (i + 1) as (y :: bs)
    else if x = y then iterANotB (i + 1) as bs
    else iterANotB i (x :: as) bs
termination_by a.length + b.length

/-- `is_intersect_empty`, utils_arrays_tables.hpp:590-604 -/
def isIntersectEmpty (a b : List α) : Bool :=
  match a, b with
  | [], _ => true
  | _ :: _, [] => true
  | x :: as, y :: bs =>
    if x = y then false
    else if x < y then isIntersectEmpty as (y :: bs)
    else isIntersectEmpty (x :: as) bs
termination_by a.length + b.length

/-- `intersect_sorted_arrays`, utils_arrays_tables.hpp:606-621 -/
def intersectSorted (a b : List α) : List α :=
  match a, b with
  | [], _ => []
  | _ :: _, [] => []
  | x :: as, y :: bs =>
    if x = y then x :: intersectSorted as bs
    else if x < y then intersectSorted as (y :: bs)
    else intersectSorted (x :: as) bs
termination_by a.length + b.length

/-- `setMinus`, utils_arrays_tables.hpp:640-649: `c[cntC++] = a[idxA]` for the positions of `iterate_anotb`.
`none` would be a read outside of `a`. -/
def setMinus (a b : List α) : Option (List α) :=
  (iterANotB 0 a b).mapM fun i => a[i]?

/-- two-way `merge_arrays` / `merge_arrays_lh`, utils_arrays_tables.hpp:307-349: the output in order of writing -/
def merge2 (a b : List α) : List α :=
  match a, b with
  | [], bs => bs
  | x :: as, [] => x :: as
  | x :: as, y :: bs =>
    if x = y then x :: merge2 as bs
    else if x < y then x :: merge2 as (y :: bs)
    else y :: merge2 (x :: as) bs
termination_by a.length + b.length

/-- `merge_a_into_b`, utils_arrays_tables.hpp:351-357: returns the new `b` -/
def mergeAIntoB (a b : List α) : List α := merge2 a b

/-- `posSortedInSorted`, utils_arrays_tables.hpp:360-375. `none` stands for the stored `-1`. -/
def posSorted (a : List α) (j : ℕ) (b : List α) : List (Option ℕ) :=
  match a, b with
  | [], _ => []
  | as, [] => as.map fun _ => none
  | x :: as, y :: bs =>
    if x = y then some j :: posSorted as (j + 1) bs
    else posSorted (x :: as) (j + 1) bs
termination_by structural b

/-- the callback of `partitionAB`, utils_arrays_tables.hpp:571-586: `BS` consecutive indices per set position -/
def blockIdx (BS idxS : ℕ) : List ℕ := (List.range BS).map fun l => BS * idxS + l

/-- what the callback writes to `idxA`, utils_arrays_tables.hpp:571-577 -/
def evToA (BS : ℕ) : Ev → List ℕ
  | .inter i _ => blockIdx BS i
  | _ => []

/-- what the callback writes to `idxB`, utils_arrays_tables.hpp:578-584 -/
def evToB (BS : ℕ) : Ev → List ℕ
  | .aNotB i => blockIdx BS i
  | _ => []

/-- `partitionAB`, utils_arrays_tables.hpp:555-588: index arrays `idxA`, `idxB` have fixed sizes `nA*BS`,
`(n-nA)*BS`; writing more entries than that is out of bounds (`none`), writing fewer leaves
uninitialised entries (also `none`). -/
def partitionAB (subA bigSet : List α) (BS : ℕ) : Option (List ℕ × List ℕ) :=
  let ev := iterAC 0 bigSet 0 subA
  let idxA := ev.flatMap (evToA BS)
  let idxB := ev.flatMap (evToB BS)
  if idxA.length = subA.length * BS ∧ subA.length ≤ bigSet.length ∧
      idxB.length = (bigSet.length - subA.length) * BS then some (idxA, idxB) else none

/-! ### k-way merge of a table, `merge_arrays (tab_in, out, lam_comp)` -/

/-- inner scan, utils_arrays_tables.hpp:255-266: current minimum and the set of rows whose head equals it
(`hasmin`), scanning the rows from index `k` on.  `lam_comp` is `<` (line 305). -/
def scanMin (m : α) (has : List ℕ) (k : ℕ) : List (List α) → α × List ℕ
  | [] => (m, has)
  | [] :: rs => scanMin m has (k + 1) rs
  | (x :: _) :: rs =>
    if x = m then scanMin m (k :: has) (k + 1) rs
    else if x < m then scanMin x [k] (k + 1) rs
    else scanMin m has (k + 1) rs

/-- `count[k]++` for all rows in `hasmin`, and the number of rows that become finished,
utils_arrays_tables.hpp:267-273; an advance of a finished row would be an error and does not occur. -/
def advance (has : List ℕ) (k : ℕ) : List (List α) → List (List α) × ℕ
  | [] => ([], 0)
  | r :: rs =>
    let (rs', d) := advance has (k + 1) rs
    if k ∈ has then (r.tail :: rs', d + if r.tail.isEmpty then 1 else 0)
    else (r :: rs', d)

/-- first unfinished row's head, utils_arrays_tables.hpp:245-248 and 275-281 -/
def firstHead : List (List α) → Option α
  | [] => none
  | [] :: rs => firstHead rs
  | (x :: _) :: _ => some x

/-- main loop `while (ndone < nrows)`, utils_arrays_tables.hpp:254-284. `min` is the variable `min_datum`.
The number of iterations is bounded by `fuel`; `none` = the loop has not ended after `fuel` iterations. -/
def mergeLoop (fuel : ℕ) (rows : List (List α)) (ndone : ℕ) (min : α) : Option (List α) :=
  if ndone < rows.length then
    match fuel with
    | 0 => none
    | fuel + 1 =>
      let (m, has) := scanMin min [] 0 rows
      let (rows', d) := advance has 0 rows
      let min' := (firstHead rows').getD m
      (mergeLoop fuel rows' (ndone + d) min').map (m :: ·)
  else some []

/-- `merge_arrays (tab_in, out, lam_comp)`, utils_arrays_tables.hpp:229-285 -/
def mergeTable (fuel : ℕ) (rows : List (List α)) : Option (List α) :=
  match firstHead rows with
  | none => some []
  | some x => mergeLoop fuel rows (rows.countP List.isEmpty) x

end NgsAMG.Traversal
