import Verif.Model.SortedArray
import Mathlib.Data.Int.Notation
import Mathlib.Order.Nat

/-!
# Model: which facets are in a loop (stokes/common/stokes_pc.cpp:166-283, 576-601)

The mesh of a process (NGSolve) is input. `none` is undefined behaviour: a degree of freedom that does not exist is read or tested.
-/

namespace NgsAMG.FLoop

/-- what the functions ask `MeshAccess`, stokes_pc.cpp:166-283: the rank of the process, and `GetVertexSurfaceElements`/`GetEdgeSurfaceElements`,
`GetElFacets` of surface elements, `GetVertexElements`/`GetEdgeElements`, `GetElFacets` of volume elements, `GetEdgePNums`, `GetFaceEdges`,
`GetDistantProcs` of facets and nodes of the potential space (vertices in 2D, edges in 3D) -/
structure LMesh where
  rank : ℕ
  psnSels : ℕ → List ℕ
  selFacets : ℕ → List ℕ
  psnEls : ℕ → List ℕ
  elFacets : ℕ → List ℕ
  ends : ℕ → ℕ × ℕ
  facetEdges : ℕ → List ℕ
  facetDps : ℕ → List ℕ
  psnDps : ℕ → List ℕ

/-- `GetDofNrs` of a facet, and the free degrees of freedom (`none`: the null pointer), stokes_pc.cpp:576-585 -/
structure Space where
  dofs : ℕ → List ℤ
  free : Option (List Bool)

/-- `isFacetFree`, stokes_pc.cpp:576-585 (and `isFree`, 298-304). `Test` outside of the array is undefined -/
def Space.isFree (S : Space) (f : ℕ) : Option Bool :=
  match S.free with
  | none => some true
  | some b => (S.dofs f).head?.bind fun d => if 0 ≤ d then b[d.toNat]? else none

/-- `masterOfFacet`, stokes_pc.cpp:166-170 -/
def LMesh.master (m : LMesh) (f : ℕ) : Bool :=
  match m.facetDps f with
  | [] => true
  | d :: _ => m.rank < d

/-- the condition for facets of surface elements, stokes_pc.cpp:201-203, 250-251 -/
def condSurf (m : LMesh) (S : Space) (rel : ℕ → Bool) (f : ℕ) : Option Bool :=
  if rel f then (S.isFree f).map fun b => b && m.master f else some false

/-- the condition for facets of volume elements in 2D, stokes_pc.cpp:220-223 -/
def condVol2 (m : LMesh) (S : Space) (rel : ℕ → Bool) (v f : ℕ) : Option Bool :=
  if rel f then
    if (m.ends f).1 = v ∨ (m.ends f).2 = v then (S.isFree f).map fun b => b && m.master f else some false
  else some false

/-- the condition for facets of volume elements in 3D, stokes_pc.cpp:263-268 -/
def condVol3 (m : LMesh) (S : Space) (rel : ℕ → Bool) (v f : ℕ) : Option Bool :=
  if rel f then (S.isFree f).map fun b => b && m.master f && (m.facetEdges f).any fun e => e == v else some false

/-- the call of `insert_into_sorted_array_nodups` under a condition, stokes_pc.cpp:203-204, 223-224, 251-252, 264-269 -/
def addFacet (cond : ℕ → Option Bool) (loop : List ℕ) (f : ℕ) : Option (List ℕ) :=
  (cond f).bind fun c => if c then (SortedArray.insertNodups f loop).map (·.2) else some loop

/-- the loop over elements and their facets, stokes_pc.cpp:191-207, 211-228, 247-255, 260-273 -/
def addElements (cond : ℕ → Option Bool) (facets : ℕ → List ℕ) (els : List ℕ) (loop : List ℕ) : Option (List ℕ) :=
  els.foldlM (fun loop el => (facets el).foldlM (addFacet cond) loop) loop

/-- `makeFacetLoop2D`, stokes_pc.cpp:173-231: facets and distant processes -/
def makeFacetLoop2D (m : LMesh) (S : Space) (rel : ℕ → Bool) (v : ℕ) : Option (List ℕ × List ℕ) :=
  ((addElements (condSurf m S rel) m.selFacets (m.psnSels v) []).bind fun l =>
    addElements (condVol2 m S rel v) m.elFacets (m.psnEls v) l).map fun l => (l, m.psnDps v)

/-- `makeFacetLoop3D`, stokes_pc.cpp:234-283 -/
def makeFacetLoop3D (m : LMesh) (S : Space) (rel : ℕ → Bool) (v : ℕ) : Option (List ℕ × List ℕ) :=
  ((addElements (condSurf m S rel) m.selFacets (m.psnSels v) []).bind fun l =>
    addElements (condVol3 m S rel v) m.elFacets (m.psnEls v) l).map fun l => (l, m.psnDps v)

/-- `produceLoop`, stokes_pc.cpp:588-601: the row `row`, `r2a` is `R2A_PSN` -/
def produceLoop (dim3 : Bool) (m : LMesh) (S : Space) (rel : ℕ → Bool) (r2a : ℕ → ℕ) (row : ℕ) : Option (List ℕ × List ℕ) :=
  if dim3 then makeFacetLoop3D m S rel (r2a row) else makeFacetLoop2D m S rel (r2a row)

end NgsAMG.FLoop
