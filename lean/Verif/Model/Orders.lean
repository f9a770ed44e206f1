import Mathlib.Order.Defs.LinearOrder
import Mathlib.Data.Nat.Notation

/-! Model of the key comparisons used for sorting. -/

namespace NgsAMG.Orders

variable {α : Type*} [LinearOrder α]

/-- the loop of `lex_smaller`, utils_arrays_tables.hpp:13-19, for arrays of equal size; `none`: fell through -/
def lexScan : List α → List α → Option Bool
  | x :: xs, y :: ys => if x < y then some true else if x ≠ y then some false else lexScan xs ys
  | _, _ => none

/-- `lex_smaller`, utils_arrays_tables.hpp:9-21 -/
def lexSmaller (a b : List α) : Bool :=
  if a.length = b.length then (lexScan a b).getD (a.length < b.length) else a.length < b.length

/-- `operator < (IVec<2>, IVec<2>)`, utils.hpp:38-41 -/
def lt2 (a b : α × α) : Bool :=
  if a.1 < b.1 then true else if a.1 > b.1 then false else a.2 < b.2

/-- `operator < (IVec<3>, IVec<3>)`, utils.hpp:42-46 -/
def lt3 (a b : α × α × α) : Bool :=
  if a.1 < b.1 then true else if a.1 > b.1 then false
  else if a.2.1 < b.2.1 then true else if a.2.1 > b.2.1 then false
  else a.2.2 < b.2.2

/-- `operator < (IVec<4>, IVec<3>)`, utils.hpp:47-52: the right operand has type `IVec<3>`, so `b[3]` reads
behind its end (`none` = undefined) -/
def lt4 (a : α × α × α × α) (b : α × α × α) : Option Bool :=
  if a.1 < b.1 then some true else if a.1 > b.1 then some false
  else if a.2.1 < b.2.1 then some true else if a.2.1 > b.2.1 then some false
  else if a.2.2.1 < b.2.2 then some true else if a.2.2.1 > b.2.2 then some false
  else none

/-- `operator < (IVec<5>, IVec<5>)`, utils.hpp:53-59: note the fourth line tests `a[3]<b[3]`, then `a[2]>b[2]` -/
def lt5 (a b : α × α × α × α × α) : Bool :=
  if a.1 < b.1 then true else if a.1 > b.1 then false
  else if a.2.1 < b.2.1 then true else if a.2.1 > b.2.1 then false
  else if a.2.2.1 < b.2.2.1 then true else if a.2.2.1 > b.2.2.1 then false
  else if a.2.2.2.1 < b.2.2.2.1 then true else if a.2.2.1 > b.2.2.1 then false
  else a.2.2.2.2 < b.2.2.2.2

end NgsAMG.Orders
