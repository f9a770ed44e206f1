import Verif.Model.SortedArray
import Mathlib.Data.List.Sort
import Mathlib.Algebra.Order.Ring.Int

/-!
Model of `StokesContractMap::MapAdditionalData` (`/repo/src/stokes/common/stokes_map_impl.hpp:826-1119`, the part after the messages of
all members of the group were unpacked): loops, their distant processes and the ghost vertices of the mesh that is contracted to the first
process of a group. `none` is an access out of range.

Not modelled: packing and unpacking of the messages (the data of the members are input), the global numbers of the loops
(`EnumerateGlobally` of NGSolve; input), and the maps of the edges with degrees of freedom (994-1001, 1048-1053).
-/

namespace NgsAMG.LCtr

/-- `QuickSort` of a row, of NGSolve: a sorted row with the same entries -/
def sortRow {α : Type} [LinearOrder α] (row : List α) : List α := row.mergeSort (fun a b => decide (a ≤ b))

/-- `ndup`, stokes_map_impl.hpp:25-30 -/
def ndup {α : Type} [DecidableEq α] : List α → ℕ
  | x :: y :: l => (if y = x then 1 else 0) + ndup (y :: l)
  | _ => 0

/-- one round of the loop at stokes_map_impl.hpp:40-42; the state is `c` and the row of `tout` -/
def dupStep {α : Type} [DecidableEq α] (s : ℕ × List (Option α)) (x : α) : Option (ℕ × List (Option α)) :=
  match s.2[s.1]? with
  | some (some y) => if x ≠ y then (if s.1 + 1 < s.2.length then some (s.1 + 1, s.2.set (s.1 + 1) (some x)) else none) else some s
  | _ => none

/-- stokes_map_impl.hpp:30-43: a row of `tout` from the row of `tin` after the sorting; an entry that is not written is undefined -/
def dedupRow {α : Type} [DecidableEq α] (row : List α) : Option (List α) :=
  match row with
  | [] => some []
  | x :: l =>
    if row.length - ndup row = 0 then none
    else (l.foldlM dupStep (0, (List.replicate (row.length - ndup row) none).set 0 (some x))).bind fun s => s.2.mapM id

/-- `RemoveDuplicates`, stokes_map_impl.hpp:13-46, for a row; rows with less than two entries (19-22) and, with `issorted`, all rows (23) are not sorted -/
def removeDups {α : Type} [LinearOrder α] (issorted : Bool) (row : List α) : Option (List α) :=
  dedupRow (if row.length < 2 || issorted then row else sortRow row)

/-- what the message of a member of the group holds, and the maps of its nodes to those of the contracted mesh -/
structure Member where
  /-- `k_globnums[k]` -/
  gnums : List ℕ
  /-- `k_loops[k]`: `±(e + 1)` -/
  loops : List (List ℤ)
  /-- `k_dps[k]` -/
  dps : List (List ℕ)
  /-- `k_gvs[k]`; empty if the member has no array of ghost vertices (908-914) -/
  ghost : List Bool
  /-- `GetNodeMap<NT_EDGE>(k)` -/
  emap : List ℕ
  /-- `GetFlipNodes<NT_EDGE>(k)` -/
  flips : List Bool
  /-- `GetNodeMap<NT_VERTEX>(k)` -/
  vmap : List ℕ

/-- `allgnums`, stokes_map_impl.hpp:988-992 -/
def allGnums (ms : List Member) : Option (List ℕ) :=
  (ms.flatMap Member.gnums).foldlM (fun (a : List ℕ) g => (SortedArray.insertNodups g a).map Prod.snd) []

/-- `loop_maps[k]`, stokes_map_impl.hpp:1046-1047; a number that is not found would be -1, an index out of range at 1098 -/
def loopMap (all : List ℕ) (m : Member) : Option (List ℕ) :=
  m.gnums.mapM fun g => match SortedArray.find g all with
    | some (.pos i) => some i
    | _ => none

/-- an entry of a loop in the contracted mesh, stokes_map_impl.hpp:1091-1098 -/
def mapEntry (m : Member) (x : ℤ) : Option ℤ :=
  let ort : ℤ := if 0 < x then 1 else -1
  let enr := ort * x - 1
  if enr < 0 then none
  else (m.emap[enr.toNat]?).bind fun c => (m.flips[enr.toNat]?).map fun f => (if f then -ort else ort) * ((c : ℤ) + 1)

/-- the additions to `ccl` for a member, stokes_map_impl.hpp:1082-1099 -/
def loopAdds (all : List ℕ) (m : Member) : Option (List (ℕ × ℤ)) :=
  (loopMap all m).bind fun lm =>
    (lm.zipIdx.mapM fun e => (m.loops[e.2]?).bind fun l => (l.mapM (mapEntry m)).map fun xs => xs.map fun x => (e.1, x)).map List.flatten

/-- the additions to `ccdps` for a member, stokes_map_impl.hpp:1100-1105 -/
def dpAdds (procMap : List ℕ) (rank : ℕ) (all : List ℕ) (m : Member) : Option (List (ℕ × ℕ)) :=
  (loopMap all m).bind fun lm =>
    (lm.zipIdx.mapM fun e => (m.dps[e.2]?).bind fun l => (l.mapM fun p => procMap[p]?).map fun ps => (ps.filter fun p => p ≠ rank).map fun p => (e.1, p)).map List.flatten

/-- a table with `n` rows from the additions, and `RemoveDuplicates` of it, stokes_map_impl.hpp:1077-1112 -/
def ctrTable {α : Type} [LinearOrder α] (n : ℕ) (adds : List (ℕ × α)) : Option (List (List α)) :=
  if adds.all fun e => e.1 < n then
    (List.range n).mapM fun r => removeDups false ((adds.filter fun e => e.1 = r).map Prod.snd)
  else none

/-- `allgnums`, `cloops` and `cldps`, stokes_map_impl.hpp:988-1113 -/
def contract (procMap : List ℕ) (rank : ℕ) (ms : List Member) : Option (List ℕ × List (List ℤ) × List (List ℕ)) :=
  (allGnums ms).bind fun all => (ms.mapM (loopAdds all)).bind fun la => (ms.mapM (dpAdds procMap rank all)).bind fun da =>
    (ctrTable all.length la.flatten).bind fun cl => (ctrTable all.length da.flatten).map fun cd => (all, cl, cd)

/-- the bits set at stokes_map_impl.hpp:1006-1012 (loop over `k`) by one member -/
def nonGhosts (cgv : List Bool) (m : Member) : Option (List Bool) :=
  m.ghost.zipIdx.foldlM (fun (b : List Bool) e => if e.1 then some b
    else (m.vmap[e.2]?).bind fun v => if v < b.length then some (b.set v true) else none) cgv

/-- `cgv`, stokes_map_impl.hpp:1004-1013; `nv` is the number of vertices of the contracted mesh -/
def ghosts (nv : ℕ) (ms : List Member) : Option (List Bool) := (ms.foldlM nonGhosts (List.replicate nv false)).map fun b => b.map not

end NgsAMG.LCtr
