import Verif.Model.DofMesh

/-!
Model of the P2 orderings of `VertexAMGPC::SetUpMaps` (`/repo/src/base/precond/amg_pc_vertex_impl.hpp:267-396`: degrees of freedom at
the middle of an edge are no vertices but are interpolated from the two ends of the edge) and of the matrix of the P2 embedding built
by `VertexAMGPC::BuildED` (`/repo/src/elasticity/elasticity_pc_impl.hpp:563-667`).

Conventions: as in `Verif.Model.DofMaps`; `none` as a result is an access out of range, or an entry of a matrix that was not written.
The entries of the matrix are kept abstract: `one` is the identity on displacements (597), `half i j` is the displacement part of
`0.5 * Q` that takes the vertex `i` to the middle of `i` and `j` (621-652).
-/

namespace NgsAMG.P2E
open NgsAMG.DofM

/-- an entry of `edgePointParents`: degree of freedom in the middle, and the two (preliminary) vertices, `none` for `-1` -/
structure Parent where
  dof : ℕ
  v0 : Option ℕ
  v1 : Option ℕ
  deriving DecidableEq

/-! ### `P2_ORDERING_ALG` -/

/-- `NodalP2Triple`, amg_solver_settings.hpp:47-52 -/
structure Trip where
  vI : ℕ
  vJ : ℕ
  vMid : ℕ

/-- `isP2Vert`, amg_pc_vertex_impl.hpp:354-361 -/
def isMid (inSS : ℕ) (trips : List Trip) : Option (List Bool) :=
  trips.foldlM (fun b t => if t.vMid < b.length then some (b.set t.vMid true) else none) (List.replicate inSS false)

/-- one round of the loop at amg_pc_vertex_impl.hpp:374-382; the state is the maps and `n_verts` -/
def algStep (mid : List Bool) (s : Maps × ℕ) (k : ℕ) : Option (Maps × ℕ) :=
  (mid[k]?).bind fun b => if !b then (putMaps s.1 k s.2 s.2).map fun m => (m, s.2 + 1) else some s

/-- amg_pc_vertex_impl.hpp:351-382: the maps and `n_verts` -/
def algMaps (inSS : ℕ) (trips : List Trip) : Option (Maps × ℕ) :=
  (isMid inSS trips).bind fun mid => (List.range inSS).foldlM (algStep mid) (initMaps inSS (inSS - mid.count true), 0)

/-- `edgePointParents[k] = IVec<3>{vMid, d2v_array[vI], d2v_array[vJ]}`, amg_pc_vertex_impl.hpp:386-394 -/
def algParents (m : Maps) (trips : List Trip) : Option (List Parent) :=
  trips.mapM fun t => (m.d2v[t.vI]?).bind fun v0 => (m.d2v[t.vJ]?).map fun v1 => ⟨t.vMid, v0, v1⟩

/-! ### `P2_ORDERING` -/

/-- one round of the loop at amg_pc_vertex_impl.hpp:293-304; `ds` are the degrees of freedom of the vertex of the mesh -/
def p2Step (s : Maps × ℕ) (ds : List ℕ) : Option (Maps × ℕ) :=
  match ds with
  | [] => some s
  | d :: _ =>
    if d < s.1.d2v.length ∧ s.2 < s.1.v2d.length then some (⟨s.1.d2v.set d (some s.2), s.1.v2d.set s.2 (some s.2)⟩, s.2 + 1) else none

/-- amg_pc_vertex_impl.hpp:285-308: the maps and `n_verts`; `vdofs`: the degrees of freedom of the vertices of the mesh -/
def p2Maps (ndof : ℕ) (vdofs : List (List ℕ)) : Option (Maps × ℕ) :=
  (vdofs.foldlM p2Step (initMaps ndof vdofs.length, 0)).map fun s => (⟨s.1.d2v, s.1.v2d.take s.2⟩, s.2)

/-! ### The embedding -/

/-- amg_pc_vertex_impl.hpp:1079-1087 with amg_pc_vertex_impl.hpp:386-394: the maps are renumbered with `vert_sort`, the parents
(386-394) are not -/
def renumber (m : Maps) (nv : ℕ) (sort : List ℕ) (ps : List Parent) : Option (Maps × List Parent) :=
  (updateArr m nv sort).map fun m => (m, ps)

/-- `perow`, elasticity_pc_impl.hpp:572-585 -/
def perow (height : ℕ) (m : Maps) (ps : List Parent) : Option (List ℕ) :=
  (m.v2d.foldlM (fun (p : List ℕ) (d : Option ℕ) => d.bind fun d => if d < p.length then some (p.set d 1) else none) (List.replicate height 0)).bind fun p =>
    ps.foldlM (fun (p : List ℕ) e => if e.dof < p.length then some (p.set e.dof 2) else none) p

variable {B : Type} [Zero B]

/-- is the degree of freedom of the vertex free?, elasticity_pc_impl.hpp:600, 631, 644 -/
def isFree (free : Option (List Bool)) (d : ℕ) : Option Bool :=
  match free with
  | none => some true
  | some f => f[d]?

/-- the row of a vertex, elasticity_pc_impl.hpp:589-604; the rows are given as a list, a row is written from its start -/
def vertRow (one : B) (free : Option (List Bool)) (rows : List (List (ℕ × B))) (e : Option ℕ × ℕ) : Option (List (List (ℕ × B))) :=
  e.1.bind fun d => (isFree free d).bind fun b => if d < rows.length then some (rows.set d [(e.2, if b then one else 0)]) else none

/-- the row of a degree of freedom in the middle, elasticity_pc_impl.hpp:607-661; `nv` is the number of vertices with data -/
def midRow (half : ℕ → ℕ → B) (free : Option (List Bool)) (m : Maps) (nv : ℕ) (rows : List (List (ℕ × B))) (p : Parent) :
    Option (List (List (ℕ × B))) :=
  p.v0.bind fun a => p.v1.bind fun b =>
    let v0 := min a b
    let v1 := max a b
    if v0 < nv ∧ v1 < nv then
      ((m.v2d[v0]?).join.bind fun d => isFree free d).bind fun f0 => ((m.v2d[v1]?).join.bind fun d => isFree free d).bind fun f1 =>
        if p.dof < rows.length then
          some (rows.set p.dof [(v0, if f0 then half v0 v1 else 0), (v1, if f1 then half v1 v0 else 0)])
        else none
    else none

/-- `BuildED` with `use_p2_emb`, elasticity_pc_impl.hpp:570-666; a row with more or less entries than `perow` is undefined -/
def buildED (one : B) (half : ℕ → ℕ → B) (free : Option (List Bool)) (height nv : ℕ) (m : Maps) (ps : List Parent) :
    Option (List (List (ℕ × B))) :=
  (perow height m ps).bind fun pr =>
    (m.v2d.zipIdx.foldlM (vertRow one free) (List.replicate height [])).bind fun rows =>
      (ps.foldlM (midRow half free m nv) rows).bind fun rows => if rows.map List.length = pr then some rows else none

/-- the P2 embedding of the algebraic interface: `P2_ORDERING_ALG` (351-394), the renumbering, and `BuildED`; `height = in_ss` -/
def p2Embedding (one : B) (half : ℕ → ℕ → B) (free : Option (List Bool)) (inSS : ℕ) (trips : List Trip) (sort : List ℕ) :
    Option (Maps × List (List (ℕ × B))) :=
  (algMaps inSS trips).bind fun s => (algParents s.1 trips).bind fun ps => (renumber s.1 s.2 sort ps).bind fun r =>
    (buildED one half free inSS s.2 r.1 r.2).map fun rows => (r.1, rows)

end NgsAMG.P2E
