import Verif.Model.DofMaps
import Verif.Model.BTM

/-!
# Model of the set-up of the finest mesh from the matrix (`VertexAMGPC::BTM_Alg`)

Source: `/repo/src/base/precond/amg_pc_vertex_impl.hpp:941-1100` and `92-140` (`BuildEQCH`: which degrees of freedom the hierarchy is made from). The vertices are numbered by `SetVs` (`Verif.Model.BTM`, `setVs`), the edges by `SetNodes<NT_EDGE>` (`classify`, `edgeProg`,
`afterReduce`; `setEdgesDummy` on one process).

Conventions: as in `Verif.Model.DofMaps`. The pattern of the matrix is the list of its rows (`GetRowIndices`). `sort` is `vert_sort`, the new numbers of the vertices, which come from `SetVs`.
-/

namespace NgsAMG.DofM
open NgsAMG.SortedArray

/-- amg_pc_vertex_impl.hpp:123: `maxset` for ranges -/
def maxRange (ranges : List (ℕ × ℕ)) (ndLoc : ℕ) : ℕ := min (ranges.getLastD (0, 0)).2 ndLoc

/-- amg_pc_vertex_impl.hpp:128-132: `maxset` for a `BitArray`: one more than the last bit set -/
def maxBits (bits : List Bool) (ndLoc : ℕ) : ℕ := min (((setBits bits).getLast?.map (· + 1)).getD 0) ndLoc

/-- amg_pc_vertex_impl.hpp:996-1001: `v2d(k)`, the first degree of freedom of a vertex (`v2d_table[k][0]` or `v2d_array[k]`) -/
def firstDof (m : Maps) (dpv k : ℕ) : Option ℕ := (m.v2d[k * dpv]?).join

/-- amg_pc_vertex_impl.hpp:963: the distant processes of the vertices that are given to `SetVs`; `dps`: `fpd->GetDistantProcs(dof)` -/
def vertDps (m : Maps) (dpv nv : ℕ) (dps : ℕ → List ℕ) : Option (List (List ℕ)) := (List.range nv).mapM fun k => (firstDof m dpv k).map dps

/-- amg_pc_vertex_impl.hpp:970-986: `free_verts`; `free = none`: no `finest_freedofs` -/
def freeVerts (m : Maps) (dpv nv : ℕ) (sort : List ℕ) : Option (List Bool) → Option (List Bool)
  | none => some (List.replicate nv true)
  | some free => (List.range nv).foldlM (fun (fv : List Bool) k =>
      (firstDof m dpv k).bind fun d => (free[d]?).bind fun b => (sort[k]?).bind fun n =>
        if b then (if n < fv.length then some (fv.set n true) else none) else some fv) (List.replicate nv false)

/-- amg_pc_vertex_impl.hpp:1053-1058, `d2v(col)`: the vertex a degree of freedom is the first of (`some none`: `-1`) -/
def vertTab (m : Maps) (dpv col : ℕ) : Option (Option ℕ) :=
  (m.d2v[col]?).bind fun
    | none => some none
    | some v => (firstDof m dpv v).map fun d => if d = col then some v else none

/-- amg_pc_vertex_impl.hpp:1062: `d2v(col)` with one degree of freedom per vertex -/
def vertArr (m : Maps) (col : ℕ) : Option (Option ℕ) := m.d2v[col]?

/-- amg_pc_vertex_impl.hpp:1010-1013: the columns behind the diagonal entry; `pos + 1` is `0` if there is no diagonal entry -/
def behind (row : ℕ) (ri : List ℕ) : Option (List ℕ) :=
  (find row ri).map fun
    | .pos i => ri.drop (i + 1)
    | .sentinel => ri

/-- amg_pc_vertex_impl.hpp:1033-1036: the ends of an edge in ascending order -/
def ordered (a b : ℕ) : ℕ × ℕ := if a < b then (a, b) else (b, a)

/-- amg_pc_vertex_impl.hpp:1012-1017, 1033-1036: the edge for a column, if any; `vt` is `d2v(col)` -/
def colEdge (vt : ℕ → Option (Option ℕ)) (sort : List ℕ) (nk col : ℕ) : Option (Option (ℕ × ℕ)) :=
  (vt col).bind fun
    | none => some none
    | some j => (sort[j]?).map fun nj => some (ordered nk nj)

/-- amg_pc_vertex_impl.hpp:1007-1019: the edges found in the row of the vertex `k` -/
def vertEdges (g : List (List ℕ)) (m : Maps) (dpv : ℕ) (vt : ℕ → Option (Option ℕ)) (sort : List ℕ) (k : ℕ) : Option (List (ℕ × ℕ)) :=
  (firstDof m dpv k).bind fun row => (g[row]?).bind fun ri => (behind row ri).bind fun cols => (sort[k]?).bind fun nk =>
    (cols.mapM (colEdge vt sort nk)).map fun l => l.filterMap id

/-- amg_pc_vertex_impl.hpp:1021-1036: `epairs` -/
def edgePairs (g : List (List ℕ)) (m : Maps) (dpv nv : ℕ) (vt : ℕ → Option (Option ℕ)) (sort : List ℕ) : Option (List (ℕ × ℕ)) :=
  ((List.range nv).mapM (vertEdges g m dpv vt sort)).map List.flatten

/-- amg_pc_vertex_impl.hpp:1068-1072 and 1080-1083: the new vertices of the degrees of freedom -/
def newD2V (m : Maps) (dpv nv : ℕ) (sort : List ℕ) : Option (List (Option ℕ)) :=
  (List.range nv).foldlM (fun (d2v : List (Option ℕ)) k => (sort[k]?).bind fun n =>
    (List.range dpv).foldlM (fun (d2v : List (Option ℕ)) c => (m.v2d[k * dpv + c]?).join.bind fun d => if d < d2v.length then some (d2v.set d (some n)) else none) d2v) m.d2v

/-- amg_pc_vertex_impl.hpp:1073-1077: one step; the state is `v2d_table`, `cnt` -/
def tabStep (dpv : ℕ) (d2v : List (Option ℕ)) (s : List (Option ℕ) × List ℕ) (k : ℕ) : Option (List (Option ℕ) × List ℕ) :=
  (d2v[k]?).bind fun
    | none => some s
    | some v => (s.2[v]?).bind fun c => if v * dpv + c < s.1.length then some (s.1.set (v * dpv + c) (some k), s.2.set v (c + 1)) else none

/-- amg_pc_vertex_impl.hpp:1066-1078: the maps with the new numbers (`v2d_table`) -/
def updateTab (m : Maps) (dpv nv : ℕ) (sort : List ℕ) : Option Maps :=
  (newD2V m dpv nv sort).bind fun d2v => ((List.range d2v.length).foldlM (tabStep dpv d2v) (m.v2d, List.replicate nv 0)).map fun s => ⟨d2v, s.1⟩

/-- amg_pc_vertex_impl.hpp:1084-1086: one step; the state is `v2d_array` -/
def arrStep (d2v v2d : List (Option ℕ)) (k : ℕ) : Option (List (Option ℕ)) :=
  (d2v[k]?).bind fun
    | none => some v2d
    | some v => if v < v2d.length then some (v2d.set v (some k)) else none

/-- amg_pc_vertex_impl.hpp:1079-1087: the maps with the new numbers (`v2d_array`) -/
def updateArr (m : Maps) (nv : ℕ) (sort : List ℕ) : Option Maps :=
  (newD2V m 1 nv sort).bind fun d2v => ((List.range d2v.length).foldlM (arrStep d2v) m.v2d).map fun v2d => ⟨d2v, v2d⟩

end NgsAMG.DofM
