import Mathlib.Order.Defs.LinearOrder
import Mathlib.Data.Nat.Notation

/-!
Model of the sentinel-based k-way merge `MergeArrays1`, `/repo/src/base/utils/utils_arrays_tables.hpp:661-698`,
which also `mergeFlatArrays` (lines 806-829) and `MergeArrays(out, ...)` (832-858) use for at most 16 rows.
`big` is `numeric_limits<int>::max()`.  A row is the not yet consumed part (`ptrs[i]`, `sizes[i]`).
-/

namespace NgsAMG.MergeArrays1

variable {α : Type*} [LinearOrder α]

/-- value stored in `minvals[i]` for the rest of row `i`, lines 669-677 -/
def headOr (big : α) : List α → α
  | [] => big
  | x :: _ => x

/-- `minval = min over minvals`, lines 680-682; reading `minvals[0]` of an empty array is undefined -/
def minAll : List α → Option α
  | [] => none
  | x :: xs => some (xs.foldl min x)

/-- the update loop, lines 684-696: for each row with `minvals[i] == minval` advance `ptrs[i]`, `sizes[i]`.
Advancing an exhausted row reads behind its end: undefined (`none`).  Returns rows, minvals, and the
number of rows that became exhausted (`nactive--`). -/
def update (big minval : α) : List (List α) → List α → Option (List (List α) × List α × ℕ)
  | [], [] => some ([], [], 0)
  | r :: rs, m :: ms =>
    match update big minval rs ms with
    | none => none
    | some (rs', ms', d) =>
      if m = minval then
        match r with
        | [] => none
        | _ :: [] => some ([] :: rs', big :: ms', d + 1)
        | _ :: y :: tl => some ((y :: tl) :: rs', y :: ms', d)
      else some (r :: rs', m :: ms', d)
  | _, _ => none

/-- `while (nactive)`, lines 678-697, as list of the values handed to `f`; `none`: undefined behaviour, or
not finished after `fuel` rounds -/
def loop (big : α) (fuel : ℕ) (rows : List (List α)) (minvals : List α) (nactive : ℕ) : Option (List α) :=
  if nactive = 0 then some []
  else match fuel with
    | 0 => none
    | fuel + 1 =>
      match minAll minvals with
      | none => none
      | some mv =>
        match update big mv rows minvals with
        | none => none
        | some (rows', minvals', d) => (loop big fuel rows' minvals' (nactive - d)).map (mv :: ·)

/-- `MergeArrays1`, lines 661-698 -/
def run (big : α) (fuel : ℕ) (rows : List (List α)) : Option (List α) :=
  loop big fuel rows (rows.map (headOr big)) (rows.countP fun r => !r.isEmpty)

end NgsAMG.MergeArrays1
