import Mathlib.Data.List.Basic

/-!
# Model of the maps between degrees of freedom and vertices of the finest mesh (`VertexAMGPC::SetUpMaps`)

Source: `/repo/src/base/precond/amg_pc_vertex_impl.hpp:177-266` and `400-461` (`RANGE_SUBSET` and `SELECTED_SUBSET` with `REGULAR_ORDERING`). Not modelled: the P2 orderings, the list
`v_nodes` of mesh nodes (470-495).

Conventions: `d2v_array` is a list with `none` for `-1`. `v2d_array` and the storage of `v2d_table` (a table with rows of equal size, stored one after the other) are a list with `none` for an
entry that was not written; an index behind the end of a row of the table is, as in memory, an entry of the next row. `none` as a result: access out of range or division by zero.
A range `[a, b)` has `a ≤ b` (sizes are differences of unsigned numbers).
-/

namespace NgsAMG.DofM

/-- `d2v_array` and `v2d_array` / `v2d_table` -/
structure Maps where
  d2v : List (Option ℕ)
  v2d : List (Option ℕ)
  deriving DecidableEq

/-- `d2v_array[d] = v; v2d[i] = d` -/
def putMaps (m : Maps) (d v i : ℕ) : Option Maps :=
  if d < m.d2v.length ∧ i < m.v2d.length then some ⟨m.d2v.set d (some v), m.v2d.set i (some d)⟩ else none

/-- amg_pc_vertex_impl.hpp:208, 213, 224, 236, 417, 422, 435: `d2v_array = -1`, storage for `n` entries of `v2d` -/
def initMaps (ndof n : ℕ) : Maps := ⟨List.replicate ndof none, List.replicate n none⟩

/-- the chosen degrees of freedom, in the order of the ranges -/
def dofsOf (ranges : List (ℕ × ℕ)) : List ℕ := ranges.flatMap fun r => List.range' r.1 (r.2 - r.1)

/-- amg_pc_vertex_impl.hpp:192-194: `in_ss` -/
def inSS (ranges : List (ℕ × ℕ)) : ℕ := (ranges.map fun r => r.2 - r.1).sum

/-- the two loops over the ranges and degrees of freedom, with the counter `c` -/
def fillFlat (dpv : ℕ) (m : Maps) (ds : List ℕ) : Option (Maps × ℕ) :=
  ds.foldlM (fun (s : Maps × ℕ) d => (putMaps s.1 d (s.2 / dpv) s.2).map fun m => (m, s.2 + 1)) (m, 0)

/-- amg_pc_vertex_impl.hpp:205-233: `RANGE_SUBSET` with one block size (`dpv = 1`: 212-221, `v2d_array`; otherwise 222-233, `v2d_table`) -/
def rangeSingle (ndof dpv : ℕ) (ranges : List (ℕ × ℕ)) : Option Maps :=
  if dpv = 0 then none else (fillFlat dpv (initMaps ndof (inSS ranges / dpv * dpv)) (dofsOf ranges)).map Prod.fst

/-- state of the loops at amg_pc_vertex_impl.hpp:242-263: the maps, `block_type`, `cnt_block`, `block_s`, `bos`, `range` -/
structure BSt where
  maps : Maps
  bt : ℕ
  cnt : ℕ
  bs : ℕ
  bos : ℕ
  lo : ℕ
  hi : ℕ
  deriving DecidableEq

/-- amg_pc_vertex_impl.hpp:249-252: one block -/
def mapBlock (dpv bs bos : ℕ) (m : Maps) (lo cnt : ℕ) : Option Maps :=
  (List.range bs).foldlM (fun m j => putMaps m (lo + j) cnt (cnt * dpv + (bos + j))) m

/-- amg_pc_vertex_impl.hpp:248-254: `n` blocks -/
def mapBlocks (dpv bs bos : ℕ) (m : Maps) (lo cnt n : ℕ) : Option Maps :=
  (List.range n).foldlM (fun m l => mapBlock dpv bs bos m (lo + l * bs) (cnt + l)) m

/-- amg_pc_vertex_impl.hpp:255-261, after the blocks: the next block size if all vertices have a block of this one -/
def nextType (nv : ℕ) (sizes : List ℕ) (s : BSt) : BSt :=
  if s.cnt = nv then ⟨s.maps, s.bt + 1, 0, if s.bt + 1 < sizes.length then sizes.getD (s.bt + 1) 0 else s.bs, s.bos + s.bs, s.lo, s.hi⟩ else s

/-- amg_pc_vertex_impl.hpp:245-247: `map_blocks` -/
def nBlocks (nv : ℕ) (s : BSt) : ℕ := min ((s.hi - s.lo) / s.bs) (nv - s.cnt)

/-- amg_pc_vertex_impl.hpp:245-261: body of the `while` loop -/
def blockBody (nv dpv : ℕ) (sizes : List ℕ) (s : BSt) : Option BSt :=
  if s.bs = 0 then none
  else (mapBlocks dpv s.bs s.bos s.maps s.lo s.cnt (nBlocks nv s)).map fun m =>
    nextType nv sizes ⟨m, s.bt, s.cnt + nBlocks nv s, s.bs, s.bos, s.lo + nBlocks nv s * s.bs, s.hi⟩

/-- what a loop has come to after some steps: out of range, ended, not yet ended -/
inductive Out
  | oob
  | done (s : BSt)
  | more (s : BSt)
  deriving DecidableEq

/-- amg_pc_vertex_impl.hpp:244-262: at most `fuel` rounds of the `while` loop -/
def runWhile (nv dpv : ℕ) (sizes : List ℕ) : ℕ → BSt → Out
  | 0, s => if s.lo < s.hi ∧ s.bt < sizes.length then .more s else .done s
  | fuel + 1, s =>
    if s.lo < s.hi ∧ s.bt < sizes.length then
      match blockBody nv dpv sizes s with
      | none => .oob
      | some s' => runWhile nv dpv sizes fuel s'
    else .done s

/-- amg_pc_vertex_impl.hpp:242-263: the loop over the ranges; at most `fuel` rounds for each -/
def runRanges (nv dpv : ℕ) (sizes : List ℕ) (fuel : ℕ) : List (ℕ × ℕ) → BSt → Out
  | [], s => .done s
  | r :: rs, s =>
    match runWhile nv dpv sizes fuel { s with lo := r.1, hi := r.2 } with
    | .done s' => runRanges nv dpv sizes fuel rs s'
    | o => o

/-- amg_pc_vertex_impl.hpp:234-264: `RANGE_SUBSET` with several block sizes -/
def rangeMulti (ndof : ℕ) (sizes : List ℕ) (ranges : List (ℕ × ℕ)) (fuel : ℕ) : Out :=
  runRanges (inSS ranges / sizes.sum) sizes.sum sizes fuel ranges
    ⟨initMaps ndof (inSS ranges / sizes.sum * sizes.sum), 0, 0, sizes.headD 0, 0, 0, 0⟩

/-- amg_pc_vertex_impl.hpp:424-431: the loop over the bits until `k` is the number of vertices -/
def selLoop (nv : ℕ) : List Bool → ℕ → ℕ → Maps → Option Maps
  | [], _, k, m => if k < nv then none else some m
  | b :: bits, j, k, m =>
    if k < nv then
      if b then (putMaps m j k k).bind (selLoop nv bits (j + 1) (k + 1)) else selLoop nv bits (j + 1) k m
    else some m

/-- the chosen degrees of freedom of a `BitArray` -/
def setBits (bits : List Bool) : List ℕ := (List.range bits.length).filter fun k => bits.getD k false

/-- amg_pc_vertex_impl.hpp:414-432: `SELECTED_SUBSET`, one degree of freedom per vertex -/
def selectOne (ndof : ℕ) (bits : List Bool) : Option Maps :=
  selLoop (setBits bits).length bits 0 0 (initMaps ndof (setBits bits).length)

/-- state of the loop at amg_pc_vertex_impl.hpp:441-457: the maps, `block_type`, `cnt_block`, `block_s`, `j`, `col_os` -/
structure SSt where
  maps : Maps
  bt : ℕ
  cnt : ℕ
  bs : ℕ
  j : ℕ
  os : ℕ
  deriving DecidableEq

/-- amg_pc_vertex_impl.hpp:445-448 -/
def endBlock (s : SSt) : SSt := if s.j = s.bs then { s with j := 0, cnt := s.cnt + 1 } else s

/-- amg_pc_vertex_impl.hpp:449-455; line 453 compares `block_type + 1` -/
def endType (nv : ℕ) (sizes : List ℕ) (s : SSt) : SSt :=
  if s.cnt = nv then ⟨s.maps, s.bt + 1, 0, if s.bt + 1 + 1 < sizes.length then sizes.getD (s.bt + 1) 0 else s.bs, s.j, s.os + s.bs⟩ else s

/-- amg_pc_vertex_impl.hpp:443-455: the loop body for a chosen degree of freedom -/
def selStep (nv dpv : ℕ) (sizes : List ℕ) (s : SSt) (d : ℕ) : Option SSt :=
  (putMaps s.maps d s.cnt (s.cnt * dpv + (s.os + s.j))).map fun m => endType nv sizes (endBlock { s with maps := m, j := s.j + 1 })

/-- amg_pc_vertex_impl.hpp:433-458: `SELECTED_SUBSET`, several degrees of freedom per vertex -/
def selectMulti (ndof : ℕ) (sizes : List ℕ) (bits : List Bool) : Option Maps :=
  if sizes.sum = 0 then none
  else ((setBits bits).foldlM (selStep ((setBits bits).length / sizes.sum) sizes.sum sizes)
    ⟨initMaps ndof ((setBits bits).length / sizes.sum * sizes.sum), 0, 0, sizes.headD 0, 0, 0⟩).map SSt.maps

end NgsAMG.DofM
