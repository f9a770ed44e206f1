import Verif.Model.Elast
import Verif.Model.CSR
import Mathlib.Data.List.Range

/-! Model of the transfer of the mesh data to the next coarser level on one process: h1/h1_impl.hpp, elasticity/elasticity_impl.hpp,
and of the piecewise prolongation `PWProlMap` (base/factory/vertex_factory_impl.hpp:1599-1660). On one process `Cumulate`,
`AllreduceNodalData` and the parallel status have no effect, and `Apply(.., master_only)` visits all nodes in order. -/

namespace NgsAMG.MapData

open Matrix Elast

/-- a mesh with attached data: vertices `0..nv-1`, edges numbered by their position; `GetNodes<NT_EDGE>()`,
`AttachedNodeData::Data()` (mesh/alg_mesh.hpp) -/
structure Mesh (VD ED : Type) where
  nv : ℕ
  vdata : ℕ → VD
  edges : List (ℕ × ℕ)
  edata : ℕ → ED

/-- `fedges[e].v` -/
def Mesh.edge {VD ED : Type} (M : Mesh VD ED) (e : ℕ) : ℕ × ℕ := M.edges.getD e (0, 0)

/-- the maps of a `BaseCoarseMap`, `none` is `-1` (base/coarsening/base_coarse.hpp:20-45): vertex map, edge map, number of coarse
vertices, coarse edges -/
structure CMap where
  vmap : ℕ → Option ℕ
  emap : ℕ → Option ℕ
  ncv : ℕ
  cedges : List (ℕ × ℕ)

/-- `cedges[ce].v` -/
def CMap.cedge (C : CMap) (e : ℕ) : ℕ × ℕ := C.cedges.getD e (0, 0)

/-- the loop `for (i : l) if (key(i) != -1) c[key(i)] += val(i)` all the functions below consist of -/
def scatterAdd {I M : Type} [Add M] (l : List I) (key : I → Option ℕ) (val : I → M) (c : ℕ → M) : ℕ → M :=
  l.foldl (fun c i => match key i with
    | none => c
    | some k => Function.update c k (c k + val i)) c

/-- the coarse vertex an edge to the ground contributes to (h1_impl.hpp:35-40, elasticity_impl.hpp:64-67): `none` if the edge is
mapped, or both ends are mapped to the same -/
def groundVertex (C : CMap) (ends : ℕ × ℕ) (e : ℕ) : Option ℕ :=
  if C.emap e = none then
    if C.vmap ends.1 ≠ C.vmap ends.2 then
      (if C.vmap ends.1 = none then C.vmap ends.2 else C.vmap ends.1)
    else none
  else none

/-- the fine vertex `fedge.v[l]` of that edge (h1_impl.hpp:37-38, elasticity_impl.hpp:66-67) and the other one -/
def groundFine (C : CMap) (ends : ℕ × ℕ) : ℕ × ℕ :=
  if C.vmap ends.1 = none then (ends.2, ends.1) else ends

/-- `H1VData::map_data_impl` (h1_impl.hpp:18-44); vertex data is a pair whose first component is the weight -/
def h1MapV (F : Mesh (ℝ × ℝ) ℝ) (C : CMap) : ℕ → ℝ × ℝ :=
  let c := scatterAdd (List.range F.nv) C.vmap F.vdata (fun _ => 0)
  scatterAdd (List.range F.edges.length) (fun e => groundVertex C (F.edge e) e) (fun e => (F.edata e, 0)) c

/-- `H1EData::map_data_impl` (h1_impl.hpp:47-57) -/
def h1MapE (F : Mesh (ℝ × ℝ) ℝ) (C : CMap) : ℕ → ℝ :=
  scatterAdd (List.range F.edges.length) C.emap F.edata (fun _ => 0)

/-- the coarse mesh with its H1 data -/
def h1Map (F : Mesh (ℝ × ℝ) ℝ) (C : CMap) : Mesh (ℝ × ℝ) ℝ :=
  { nv := C.ncv, vdata := h1MapV F C, edges := C.cedges, edata := h1MapE F C }

/-- `GetMapC2F` (base/coarsening/base_coarse.cpp:16-29): the members of a coarse vertex, in increasing order -/
def c2f {VD ED : Type} (F : Mesh VD ED) (C : CMap) (cv : ℕ) : List ℕ :=
  (List.range F.nv).filter fun v => C.vmap v = some cv

variable {D R : ℕ} (T : TOps D R)

/-- `AttachedEVD::map_data` (elasticity_impl.hpp:110-187); `isCenter` is `GetAggCenter()`. The first member of the aggregate gives
position, weight and scaling, all members which are not centers add their weight -/
noncomputable def elMapV [NeZero R] (F : Mesh (VData D R) (TM D R)) (C : CMap) (isCenter : ℕ → Bool) : ℕ → VData D R :=
  let cdata : ℕ → VData D R := fun cv => F.vdata ((c2f F C cv).headD 0)
  (List.range F.nv).foldl (fun c v => match C.vmap v with
    | none => c
    | some cv => if isCenter v then c else
        Function.update c cv { c cv with wt := addQtMQ 1 (c cv).wt (calcQHh T (c cv) (F.vdata v)) (F.vdata v).wt }) cdata

/-- coarse edge matrices in `AttachedEED::map_data` (elasticity_impl.hpp:49-62); `cvd` is the coarse vertex data -/
noncomputable def elMapE (F : Mesh (VData D R) (TM D R)) (C : CMap) (cvd : ℕ → VData D R) : ℕ → TM D R :=
  scatterAdd (List.range F.edges.length) C.emap (fun e =>
    let ce := C.cedge ((C.emap e).getD 0)
    let cmid := calcMPData (cvd ce.1) (cvd ce.2)
    let fmid := calcMPData (F.vdata (F.edge e).1) (F.vdata (F.edge e).2)
    let QHh := calcQHh T cmid fmid
    QHhᵀ * (F.edata e * QHh)) (fun _ => 0)

/-- weights added to the coarse vertices for edges to the ground in `AttachedEED::map_data` (elasticity_impl.hpp:43, 63-71) -/
noncomputable def elGround [NeZero R] (F : Mesh (VData D R) (TM D R)) (C : CMap) : ℕ → TM D R :=
  (List.range F.edges.length).foldl (fun c e => match groundVertex C (F.edge e) e with
    | none => c
    | some cv =>
        let v := groundFine C (F.edge e)
        Function.update c cv
          (addQtMQ 1 (c cv) (calcQij T (F.vdata v.1) (F.vdata v.2)) (F.edata e))) (fun _ => 0)

/-- the coarse mesh with its elasticity data: vertex data, then edge data, then the weights of edges to the ground are added
(elasticity_impl.hpp:73-76) -/
noncomputable def elMap [NeZero R] (F : Mesh (VData D R) (TM D R)) (C : CMap) (isCenter : ℕ → Bool) :
    Mesh (VData D R) (TM D R) :=
  let cvd := elMapV T F C isCenter
  { nv := C.ncv
    vdata := fun k => { cvd k with wt := (cvd k).wt + elGround T F C k }
    edges := C.cedges
    edata := elMapE T F C cvd }

/-- `PWProlMap` (vertex_factory_impl.hpp:1599-1660): one entry per mapped vertex, with value `CalcQHh(coarse, fine)` -/
def pwProl {VD ED E : Type} (calcQHh : VD → VD → E) (F : Mesh VD ED) (C : CMap) (cvd : ℕ → VD) : CSR E :=
  { height := F.nv
    width := C.ncv
    row := fun v => if v < F.nv then
        match C.vmap v with
        | none => []
        | some cv => [(cv, calcQHh (cvd cv) (F.vdata v))]
      else [] }

end NgsAMG.MapData
