import Mathlib.Order.Defs.LinearOrder
import Mathlib.Data.List.InsertIdx

/-!
Model of the sorted-array helpers of `/repo/src/base/utils/utils_arrays_tables.hpp`.

Arrays are lists; reading `a[i]` is `a[i]?`, and the outer `none` of a result is *undefined behaviour*
(an access outside of the array).  `size_t` does not wrap around in any of these functions (all values are
bounded by the array size), so indices are `ℕ`.  The sentinel `T(-1)`/`size_t(-1)` is the value
`Res.sentinel`.
-/

namespace NgsAMG.SortedArray

variable {α : Type*} [LinearOrder α]

/-- Result of a search: a position, or the sentinel `-1`. -/
inductive Res where
  | pos (i : ℕ)
  | sentinel
  deriving DecidableEq, Repr

/-- linear tail of `find_in_sorted_array`, utils_arrays_tables.hpp:37-42:
`for (i = first; i < last; i++) if (a[i] == elem) return i; return -1` -/
def findTail (x : α) (a : List α) (first last : ℕ) : Option Res :=
  if first < last then
    match a[first]? with
    | none => none
    | some v => if v = x then some (.pos first) else findTail x a (first + 1) last
  else some .sentinel
termination_by last - first

/-- `find_in_sorted_array`, bisection loop, utils_arrays_tables.hpp:26-36 -/
def findLoop (x : α) (a : List α) (first last : ℕ) : Option Res :=
  if last > first + 5 then
    let mid := (last + first) / 2
    match a[mid]? with
    | none => none
    | some v =>
      if v > x then findLoop x a first mid
      else if v = x then some (.pos mid)
      else findLoop x a (mid + 1) last
  else findTail x a first last
termination_by last - first
decreasing_by all_goals omega

/-- `find_in_sorted_array (elem, a)`, utils_arrays_tables.hpp:23-43 -/
def find (x : α) (a : List α) : Option Res := findLoop x a 0 a.length

/-- linear tail of `merge_pos_in_sorted_array`, utils_arrays_tables.hpp:87-91 -/
def mergePosTail (x : α) (a : List α) (first last : ℕ) : Option Res :=
  if first < last then
    match a[first]? with
    | none => none
    | some v => if v > x then some (.pos first) else mergePosTail x a (first + 1) last
  else some .sentinel
termination_by last - first

/-- bisection loop of `merge_pos_in_sorted_array`, utils_arrays_tables.hpp:78-86 -/
def mergePosLoop (x : α) (a : List α) (first last : ℕ) : Option Res :=
  if last > first + 5 then
    let mid := (last + first) / 2
    match a[mid]? with
    | none => none
    | some v =>
      if v ≤ x then mergePosLoop x a mid last
      else
        match a[mid - 1]? with
        | none => none
        | some w => if w > x then mergePosLoop x a first mid else some (.pos mid)
  else mergePosTail x a first last
termination_by last - first
decreasing_by all_goals omega

/-- `merge_pos_in_sorted_array (elem, a)`, utils_arrays_tables.hpp:67-92 (with the special cases
`last == 0`, `elem < a[0]`, `elem >= a.Last()` of lines 72-77) -/
def mergePos (x : α) (a : List α) : Option Res :=
  match a.head?, a.getLast? with
  | some h, some l =>
    if x < h then some (.pos 0)
    else if x ≥ l then some (.pos a.length)
    else mergePosLoop x a 0 a.length
  | _, _ => some (.pos 0)

/-- `Array::Insert(pos, elem)` of NGSolve's `Array`: undefined for `pos > Size()` -/
def arrayInsert (a : List α) (pos : ℕ) (x : α) : Option (List α) :=
  if pos ≤ a.length then some (a.insertIdx pos x) else none

/-- `insert_into_sorted_array`, utils_arrays_tables.hpp:104-108; inserting at the sentinel is undefined. -/
def insertSorted (x : α) (a : List α) : Option (List α) :=
  match mergePos x a with
  | some (.pos p) => arrayInsert a p x
  | _ => none

/-- `sorted_insert_unique`, utils_arrays_tables.hpp:110-118 (`pos` returned as in the code; `int` conversion of
the position is exact for arrays shorter than 2^31, which is assumed) -/
def insertUnique (x : α) (a : List α) : Option (Bool × Res × List α) :=
  match mergePos x a with
  | none => none
  | some .sentinel => some (false, .sentinel, a)
  | some (.pos p) =>
    if 0 < p then
      match a[p - 1]? with
      | none => none
      | some v =>
        if v = x then some (false, .pos p, a)
        else (arrayInsert a p x).map fun b => (true, .pos p, b)
    else (arrayInsert a p x).map fun b => (true, .pos p, b)

/-- `insert_into_sorted_array_nodups`, utils_arrays_tables.hpp:94-102 -/
def insertNodups (x : α) (a : List α) : Option (Bool × List α) :=
  (insertUnique x a).map fun r => (r.1, r.2.2)

/-- loop of `ind_of_max`, utils_arrays_tables.hpp:152-155: current index `ind`, current max `m`, next index `k` -/
def indOfMaxLoop (rest : List α) (k : ℕ) (ind : ℕ) (m : α) : ℕ :=
  match rest with
  | [] => ind
  | v :: r => if v > m then indOfMaxLoop r (k + 1) k v else indOfMaxLoop r (k + 1) ind m

/-- `ind_of_max`, utils_arrays_tables.hpp:148-157 -/
def indOfMax (a : List α) : Res :=
  match a with
  | [] => .sentinel
  | v :: r => .pos (indOfMaxLoop r 1 0 v)

/-- `removeEntryFlat` + `SetSize` = `removeEntry`, utils_arrays_tables.hpp:129-146: entries behind `pos`
move one to the front, then the last slot is cut off.  (Modelled for `pos < Size()`; otherwise undefined.) -/
def removeEntry (pos : ℕ) (a : List α) : Option (List α) :=
  if pos < a.length then some (a.take pos ++ a.drop (pos + 1)) else none

end NgsAMG.SortedArray
