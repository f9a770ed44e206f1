import Verif.Props.FreeNodes1
import Verif.Model.LoopSort
import Verif.Spec.Walks

/-!
# C109: what the free nodes are not
-/

namespace NgsAMG.FreeN

/-- a square of two triangles `(0,1,2)` and `(1,2,3)`, the sides are the facets `(0,1) (0,2) (1,2) (1,3) (2,3)`, four of them with surface elements -/
def square : FLoop.LMesh where
  rank := 0
  psnSels v := if v = 0 then [0, 1] else if v = 1 then [0, 2] else if v = 2 then [1, 3] else [2, 3]
  selFacets s := if s < 2 then [s] else [s + 1]
  psnEls v := if v = 0 then [0] else if v = 3 then [1] else [0, 1]
  elFacets e := if e = 0 then [0, 1, 2] else [2, 3, 4]
  ends f := [(0, 1), (0, 2), (1, 2), (1, 3), (2, 3)].getD f (0, 0)
  facetEdges _ := []
  facetDps _ := []
  psnDps _ := []

/-- Dirichlet conditions on the whole boundary -/
def squareSpace : FLoop.Space := ⟨fun f => [f], some [false, false, true, false, false]⟩

/-- the mesh of the preconditioner: vertices 0 and 1 are the triangles, 2 and 3 are fictitious ones for the boundary -/
def squareLevel : Level where
  loops := [[], [1], [1], []]
  nVert := 4
  nFacet := 5
  edges e := [(0, 1), (0, 2), (0, 3), (1, 2), (1, 3)].getD e (0, 0)
  f2e f := [some 1, some 2, some 0, some 3, some 4].getD f none
  facetEls f := [[0], [0], [0, 1], [1], [1]].getD f []
  el2v e := some e
  nFacetR := 5
  r2aFacet := id
  fes := squareSpace

/-- A loop that touches the Dirichlet boundary stays free: the facets given for node 1 are the diagonal only (the sides 0 and 3 at this node have
Dirichlet conditions), its row is edge 0, which is not empty, so the node is free; but the flow of this row has divergence in the two triangles, which
are no fictitious vertices. -/
theorem open_loop_free :
    FLoop.produceLoop false square squareSpace (fun _ => true) id 1 = some ([2], []) ∧
      LSort.localLoop squareLevel.f2e squareLevel.edges [2] = some [1] ∧ squareLevel.loops[1]? = some [1] ∧
      FLoop.Touch false square 1 0 ∧ squareLevel.Diri 0 ∧
      freeLoops 1 (fun _ k => k) (fun _ => squareLevel) 0 1 = true ∧
      LSort.boundary (LSort.codeSrc squareLevel.edges) (LSort.codeTgt squareLevel.edges) [1] 0 = -1 ∧
      LSort.boundary (LSort.codeSrc squareLevel.edges) (LSort.codeTgt squareLevel.edges) [1] 1 = 1 := by
  refine ⟨by decide +kernel, by decide +kernel, rfl, ?_, rfl, by decide +kernel, by decide +kernel, by decide +kernel⟩
  unfold FLoop.Touch
  rw [if_neg Bool.false_ne_true]
  exact Or.inr rfl

/-- the fictitious vertices, and only these, are not free there; and the edges of the boundary -/
example : (freeVerts 1 (fun _ k => k) (fun _ => squareLevel) 0).map (fun b => (List.range 4).map b) = some [true, true, false, false] := by
  decide +kernel

example : squareLevel.freeEdges.map (fun b => (List.range 5).map b) = some [true, false, false, false, false] := by decide +kernel

/-- So the documented claim "loops that touch a Dirichlet boundary are set to Dirichlet" fails. -/
theorem touching_loops_refuted :
    ¬∀ (m : FLoop.LMesh) (L : Level) (row : ℕ) (l : List ℕ) (d : List ℕ) (codes : List ℤ) (f : ℕ),
      FLoop.produceLoop false m L.fes (fun _ => true) id row = some (l, d) → LSort.localLoop L.f2e L.edges l = some codes →
      L.loops[row]? = some codes → FLoop.Touch false m row f → L.Diri f → freeLoops 1 (fun _ k => k) (fun _ => L) 0 row = false := by
  intro h
  obtain ⟨h1, h2, h3, h4, h5, h6, _⟩ := open_loop_free
  have := h square squareLevel 1 [2] [] [1] 0 h1 h2 h3 h4 h5
  rw [h6] at this
  cases this

/-- a process with one loop -/
def oneLoop (l : List ℤ) : Level := { squareLevel with loops := [l] }

/-- Two processes do not reduce: they can disagree on whether a common loop is free. -/
theorem two_disagree :
    freeLoops 2 (fun _ k => k) (fun q => oneLoop (if q = 0 then [] else [1])) 0 0 = false ∧
      freeLoops 2 (fun _ k => k) (fun q => oneLoop (if q = 0 then [] else [1])) 1 0 = true := by
  constructor <;> decide +kernel

/-- Three processes: a row that is empty on one process only takes the loop from all of them. -/
example : ∀ p < 3, freeLoops 3 (fun _ k => k) (fun q => oneLoop (if q = 1 then [] else [1])) p 0 = false := by decide +kernel

/-- two elements with a facet in between that has a Dirichlet condition -/
def interiorDiri : Level where
  loops := []
  nVert := 2
  nFacet := 1
  edges _ := (0, 1)
  f2e _ := some 0
  facetEls _ := [0, 1]
  el2v e := some e
  nFacetR := 1
  r2aFacet := id
  fes := ⟨fun f => [f], some [false]⟩

/-- A Dirichlet condition on a facet between two elements takes the vertex of the second element from the free vertices, which is no fictitious vertex, and
keeps that of the first. -/
theorem interior_vertex_dropped :
    (freeVerts 1 (fun _ k => k) (fun _ => interiorDiri) 0).map (fun b => (b 0, b 1)) = some (true, false) ∧ interiorDiri.el2v 1 = some 1 := by
  constructor
  · decide +kernel
  · rfl

/-- The hypotheses of the theorems of C109 hold for the square. -/
example : ∃ b, freeVerts 3 (fun _ k => k) (fun _ => squareLevel) 0 = some b ∧ b 2 = false := by
  have hd : ∀ f < squareLevel.nFacet, squareLevel.f2e f ≠ none → squareLevel.fes.HasDof f := by
    intro f hf _ b hb
    cases hb
    exact ⟨f, rfl, hf⟩
  obtain ⟨b, hb, h⟩ := freeVerts_iff (np := 3) (by omega) (fun _ k => k) (fun _ => squareLevel) (fun _ _ => hd) (p := 0) (by omega)
  refine ⟨b, hb, ?_⟩
  by_contra hc
  exact (h 2 (by decide)).1 (by simpa using hc) ⟨0, by omega, 2, by decide, rfl, 0, by decide, rfl, 1, 0, [], 0, rfl, rfl, rfl, Or.inl rfl⟩

end NgsAMG.FreeN
