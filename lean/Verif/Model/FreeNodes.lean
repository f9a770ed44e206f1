import Verif.Model.FacetAux
import Verif.Model.MakeLoop

/-!
# Model: free loops, vertices and edges of the finest level (stokes/common/stokes_pc.cpp:758-894)

Arrays of bits are functions of the index. `none` is undefined behaviour (a bit that does not exist is tested). The results of the reductions
are given by the names of loops and vertices (as in the model of `FacetAuxiliaryInformation`, `FAux.reduceLor`): the values are 0 or 1, so the maximum is
the logical or.
-/

namespace NgsAMG.FreeN

/-- what a process knows: loops, numbers of vertices, edges and facets, vertices of an edge, edge of a facet (`F2E`, `none` is -1), elements of a
facet, vertex of an element (`EL2V`), the relevant facets, degrees of freedom of facets and the free ones -/
structure Level where
  loops : List (List ℤ)
  nVert : ℕ
  nFacet : ℕ
  edges : ℕ → ℕ × ℕ
  f2e : ℕ → Option ℕ
  facetEls : ℕ → List ℕ
  el2v : ℕ → Option ℕ
  nFacetR : ℕ
  r2aFacet : ℕ → ℕ
  fes : FLoop.Space

/-- stokes_pc.cpp:770-777: the bits of the empty loops -/
def Level.emptyLoops (L : Level) : ℕ → Bool :=
  (List.range L.loops.length).foldl (fun b k => if (L.loops.getD k []).length = 0 then Function.update b k true else b) fun _ => false

/-- bits as numbers, stokes_pc.cpp:782-783, 845-846 -/
def toInt (b : ℕ → Bool) (k : ℕ) : ℤ := if b k then 1 else 0

/-- stokes_pc.cpp:785-788, 848-850: bits of the values that are not zero are set -/
def orBits (n : ℕ) (a : ℕ → ℤ) (b : ℕ → Bool) : ℕ → Bool :=
  (List.range n).foldl (fun b k => if a k ≠ 0 then Function.update b k true else b) b

/-- stokes_pc.cpp:770-791: the free loops of process `p` of `np` -/
def freeLoops (np : ℕ) (lname : ℕ → ℕ → ℕ) (L : ℕ → Level) (p k : ℕ) : Bool :=
  !(if 2 < np then
      orBits (L p).loops.length
        (FAux.reduceLor np (fun q => (L q).loops.length) lname (fun q => toInt (L q).emptyLoops) p) (L p).emptyLoops k
    else (L p).emptyLoops k)

/-- stokes_pc.cpp:828-835: the end of the edge that is not the vertex of the first element -/
def Level.markEnd (L : Level) (b : ℕ → Bool) (f e : ℕ) : ℕ → Bool :=
  match L.facetEls f with
  | [] => b
  | el :: _ =>
    let b := if some (L.edges e).1 = L.el2v el then Function.update b (L.edges e).2 true else b
    if some (L.edges e).2 = L.el2v el then Function.update b (L.edges e).1 true else b

/-- stokes_pc.cpp:814-839: one facet -/
def Level.vertStep (L : Level) (b : ℕ → Bool) (f : ℕ) : Option (ℕ → Bool) :=
  match L.f2e f with
  | none => some b
  | some e => (L.fes.isFree f).map fun free => if !free then L.markEnd b f e else b

/-- stokes_pc.cpp:807-839: the Dirichlet vertices before the reduction -/
def Level.diriVerts (L : Level) : Option (ℕ → Bool) := (List.range L.nFacet).foldlM L.vertStep fun _ => false

/-- stokes_pc.cpp:798-856: the free vertices of process `p`; only if there are Dirichlet conditions -/
def freeVerts (np : ℕ) (vname : ℕ → ℕ → ℕ) (L : ℕ → Level) (p : ℕ) : Option (ℕ → Bool) :=
  (L p).diriVerts.map fun b k =>
    !(if 2 < np then
        orBits (L p).nVert
          (FAux.reduceLor np (fun q => (L q).nVert) vname (fun q => toInt (((L q).diriVerts).getD fun _ => false)) p) b k
      else b k)

/-- stokes_pc.cpp:877-885: one relevant facet -/
def Level.edgeStep (L : Level) (b : ℕ → Bool) (r : ℕ) : Option (ℕ → Bool) :=
  (L.fes.isFree (L.r2aFacet r)).map fun free =>
    if !free then
      match L.f2e (L.r2aFacet r) with
      | none => b
      | some e => Function.update b e true
    else b

/-- stokes_pc.cpp:867-891: the free edges of a process -/
def Level.freeEdges (L : Level) : Option (ℕ → Bool) :=
  ((List.range L.nFacetR).foldlM L.edgeStep fun _ => false).map fun b k => !b k

end NgsAMG.FreeN
