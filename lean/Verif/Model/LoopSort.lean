import Verif.Model.Permutation
import Mathlib.Data.List.OfFn
import Mathlib.Algebra.Order.Ring.Int

/-!
# Model: sorting and orientation of facet loops (stokes/common/loop_utils.hpp:21-103, stokes/common/stokes_pc.cpp:328-386, 603-738)

Elements of arrays whose size is fixed are list elements. The memory of the `LocalHeap` is not limited. The loops `while` have a bound for the number of
rounds; the result `none` is an exception, an access out of range, an uninitialized variable or reaching this bound (theorems show that it is not reached).
-/

namespace NgsAMG.LSort

variable {T : Type}

/-- `inds[0..cnt)` and `used` -/
structure St where
  inds : List ℕ
  used : ℕ → ℤ

/-- loop_utils.hpp:45-49, `add_ind` -/
def St.add (s : St) (ort : ℤ) (k : ℕ) : St := ⟨s.inds ++ [k], Function.update s.used k ort⟩

/-- loop_utils.hpp:58-62: the next element that fits, its orientation -/
def findFit (orient : T → Bool → T → ℤ) (loop : List T) (s : St) (curr : T) (fc : Bool) : Option (ℕ × T × ℤ) :=
  (List.range loop.length).findSome? fun k =>
    if s.used k = 0 then (loop[k]?).bind fun x => if orient curr fc x ≠ 0 then some (k, x, orient curr fc x) else none else none

/-- loop_utils.hpp:51-77, `extend_chunk`, at most so many rounds; `so` is `start_ort` -/
def extend (orient : T → Bool → T → ℤ) (loop : List T) (so : ℤ) : ℕ → St → T → Bool → Option St
  | 0, _, _, _ => none
  | n + 1, s, curr, fc =>
    match findFit orient loop s curr fc with
    | none => some s
    | some (k, x, ort) => extend orient loop so n (s.add (ort * so) k) x (decide (ort < 0))

/-- loop_utils.hpp:84-89: the first element that is not used -/
def findStart (loop : List T) (s : St) : Option (ℕ × T) :=
  (List.range loop.length).findSome? fun k => if s.used k = 0 then (loop[k]?).map fun x => (k, x) else none

/-- loop_utils.hpp:84-94: one chunk -/
def chunk (orient : T → Bool → T → ℤ) (loop : List T) (s : St) : Option St :=
  (findStart loop s).bind fun x =>
    (extend orient loop 1 (loop.length + 1) (s.add 1 x.1) x.2 false).bind fun s => extend orient loop (-1) (loop.length + 1) s x.2 true

/-- loop_utils.hpp:80-95, at most so many rounds -/
def chunks (orient : T → Bool → T → ℤ) (loop : List T) : ℕ → ℕ → St → Option (St × ℕ)
  | 0, _, _ => none
  | n + 1, nch, s =>
    if s.inds.length < loop.length then (chunk orient loop s).bind fun s => chunks orient loop n (nch + 1) s
    else some (s, nch)

/-- loop_utils.hpp:96-98 -/
def flipped (flip : T → T) (loop : List T) (used : ℕ → ℤ) (k : Fin loop.length) : T := if used k = -1 then flip loop[k] else loop[k]

/-- loop_utils.hpp:35-102, `SortAndOrientLoop`: the new loop and the number of chunks; the last line is `ApplyPermutation` -/
def sortLoop (flip : T → T) (orient : T → Bool → T → ℤ) (loop : List T) : Option (List T × ℕ) :=
  (chunks orient loop (loop.length + 1) 0 ⟨[], fun _ => 0⟩).bind fun r =>
    (Permutation.applyInPlace loop.length (flipped flip loop r.1.used) fun k => (r.1.inds.getD k 0 : ℕ)).map fun a => (List.ofFn a.1, r.2)

/-! ### loops of edges of the process -/

/-- loop_utils.hpp:21-24, `loopDecode`: positive orientation or not, and the edge -/
def loopDecode (c : ℤ) : Bool × ℤ := (decide (0 < c), |c| - 1)

/-- loop_utils.hpp:27-31, `loopEncode` -/
def loopEncode (v0 v1 e : ℕ) : ℤ := if v0 < v1 then (e : ℤ) + 1 else -(e : ℤ) - 1

/-- stokes_pc.cpp:711-732: `orient` for edges that are coded with signs -/
def orientCode (edge : ℕ → ℕ × ℕ) (a : ℤ) (fa : Bool) (b : ℤ) : ℤ :=
  let ea := edge (a.natAbs - 1)
  let eb := edge (b.natAbs - 1)
  let endA := if xor (decide (a < 0)) fa then ea.1 else ea.2
  if endA = eb.1 then 1 else if endA = eb.2 then -1 else 0

/-- stokes_pc.cpp:693-738, `localTransformLoop`: the edges of a loop that belongs to one process only, coded; `none` is an exception -/
def localLoop (f2e : ℕ → Option ℕ) (edge : ℕ → ℕ × ℕ) (facets : List ℕ) : Option (List ℤ) :=
  (facets.mapM fun f => (f2e f).map fun e : ℕ => 1 + (e : ℤ)).bind fun l =>
    (sortLoop (fun c => -c) (orientCode edge) l).bind fun r => if 1 < r.2 then none else some r.1

/-! ### loops shared by processes -/

/-- a vertex, as number of an equivalence class and number in it -/
abbrev GV := ℤ × ℤ

/-- stokes_pc.cpp:331-348: `flip` and `orient` for edges as pairs of vertices -/
def flipTup (t : GV × GV) : GV × GV := (t.2, t.1)

@[inherit_doc flipTup]
def orientTup (a : GV × GV) (fa : Bool) (b : GV × GV) : ℤ :=
  let endA := if fa then a.1 else a.2
  if endA = b.1 then 1 else if endA = b.2 then -1 else 0

/-- stokes_pc.cpp:603-625, `encodeLoop` -/
def encodeLoop (f2e : ℕ → Option ℕ) (edge : ℕ → ℕ × ℕ) (code : ℕ → GV) (facets : List ℕ) : Option (List (GV × GV)) :=
  facets.mapM fun f => (f2e f).map fun e => (code (edge e).1, code (edge e).2)

/-- stokes_pc.cpp:627-650 with 353-386, `reduceLoops`: the parts of all processes are put together and sorted; `none` is an exception -/
def reduceLoops (parts : List (List (GV × GV))) : Option (List (GV × GV)) :=
  if parts.flatten = [] then some []
  else (sortLoop flipTup orientTup parts.flatten).bind fun r => if 1 < r.2 then none else some r.1

/-- stokes_pc.cpp:652-690, `decodeLoop`: `vert` is the number of a vertex of the process (`none` if it does not have the class), edges between ghosts
are left out -/
def decodeLoop (vert : GV → Option ℕ) (ghost : ℕ → Bool) (econ : ℕ → ℕ → ℕ) (loop : List (GV × GV)) : List ℤ :=
  loop.filterMap fun t => (vert t.1).bind fun v0 => (vert t.2).bind fun v1 =>
    if ghost v0 && ghost v1 then none else some (loopEncode v0 v1 (econ v0 v1))

end NgsAMG.LSort
