import Verif.Props.FacetAux3
import Mathlib.Tactic.IntervalCases

/-!
# C107: the bits of the relevant facets are wrong
-/

namespace NgsAMG.FAux

/-- two triangles with a common side (facet 2), the space is defined on the second one -/
def twoTrigs : PMesh where
  nEl := 2
  nPsn := 4
  nFacet := 5
  defined e := e == 1
  elPsns e := if e = 0 then [0, 1, 2] else [1, 2, 3]
  elFacets e := if e = 0 then [0, 1, 2] else [2, 3, 4]

/-- names on one process -/
def oneNames : Names := ⟨fun _ k => k, fun _ k => k, fun _ k => k⟩

theorem twoTrigs_ok : Meshes 1 oneNames fun _ => twoTrigs := by
  refine ⟨?_, ?_, ?_⟩
  · intro q _ e he j hj
    have he' : e < 2 := he
    interval_cases e <;> revert j <;> decide
  · intro q _ e he j hj
    have he' : e < 2 := he
    interval_cases e <;> revert j <;> decide
  · intro q hq p hp e e' _ _ h
    exact ⟨by omega, h⟩

/-- One process: facet 0 belongs to no element the space is defined on, but `IsFacetRel` holds. -/
theorem isFacetRel_irrelevant :
    ∃ I, setup 1 oneNames (fun _ => twoTrigs) true (fun _ => twoTrigs.facetOps) 0 = some I ∧ I.isFacetRel 0 = true ∧ I.facet.a2r 0 = -1 ∧
      ¬Touches 1 (fun _ => twoTrigs) oneNames.facet PMesh.elFacets 0 0 := by
  have h : ((setup 1 oneNames (fun _ => twoTrigs) true (fun _ => twoTrigs.facetOps) 0).map fun I => (I.isFacetRel 0, I.facet.a2r 0)) =
      some (true, -1) := by decide +kernel
  obtain ⟨I, hI, h2⟩ := Option.map_eq_some_iff.1 h
  rw [Prod.mk.injEq] at h2
  refine ⟨I, hI, h2.1, h2.2, ?_⟩
  rintro ⟨q, _, e, he, hd, j, hj, hn⟩
  have he' : e < 2 := he
  have hn' : j = 0 := hn
  subst hn'
  interval_cases e
  · exact absurd hd (by decide : ¬twoTrigs.defined 0 = true)
  · exact absurd hj (by decide : 0 ∉ twoTrigs.elFacets 1)

/-- the two triangles on two processes: the space is defined on that of process 1 only -/
def trigOf (q : ℕ) : PMesh where
  nEl := 1
  nPsn := 3
  nFacet := 3
  defined _ := q == 1
  elPsns _ := [0, 1, 2]
  elFacets _ := [0, 1, 2]

/-- facet 2 of process 0 is facet 0 of process 1, and so are the nodes 1, 2 and 0, 1 -/
def twoNames : Names where
  el q _ := q
  psn q k := if q = 0 then k else k + 1
  facet q k := if q = 0 then k else k + 2

theorem trigOf_ok : Meshes 2 twoNames trigOf := by
  refine ⟨?_, ?_, ?_⟩
  · intro q _ e _ j hj
    have hj' : j ∈ [0, 1, 2] := hj
    show j < 3
    simp at hj'
    omega
  · intro q _ e _ j hj
    have hj' : j ∈ [0, 1, 2] := hj
    show j < 3
    simp at hj'
    omega
  · intro q hq p hp e e' he he' h
    have he2 : e < 1 := he
    have he3 : e' < 1 := he'
    exact ⟨h, by omega⟩

/-- Two processes: the common facet is relevant (an element of process 1), has number 0 of the relevant facets on both, but `IsFacetRel` fails for it on
process 0 and holds on process 1. -/
theorem isFacetRel_disagree :
    ∃ I J, setup 2 twoNames trigOf true (fun q => (trigOf q).facetOps) 0 = some I ∧
      setup 2 twoNames trigOf true (fun q => (trigOf q).facetOps) 1 = some J ∧ twoNames.facet 0 2 = twoNames.facet 1 0 ∧
      I.facet.a2r 2 = 0 ∧ J.facet.a2r 0 = 0 ∧ I.isFacetRel 2 = false ∧ J.isFacetRel 0 = true ∧
      Touches 2 trigOf twoNames.facet PMesh.elFacets 0 2 := by
  have h : ((setup 2 twoNames trigOf true (fun q => (trigOf q).facetOps) 0).map fun I => (I.facet.a2r 2, I.isFacetRel 2)) =
      some (0, false) := by decide +kernel
  have h' : ((setup 2 twoNames trigOf true (fun q => (trigOf q).facetOps) 1).map fun I => (I.facet.a2r 0, I.isFacetRel 0)) =
      some (0, true) := by decide +kernel
  obtain ⟨I, hI, h2⟩ := Option.map_eq_some_iff.1 h
  obtain ⟨J, hJ, h3⟩ := Option.map_eq_some_iff.1 h'
  rw [Prod.mk.injEq] at h2 h3
  exact ⟨I, J, hI, hJ, rfl, h2.1, h3.1, h2.2, h3.2, 1, by omega, 0, by decide, rfl, 0, by decide, rfl⟩

/-- So the claim "`IsFacetRel(k)` iff facet `k` is a facet of an element, of any process, the space is defined on" fails, on one process as well. -/
theorem isFacetRel_refuted :
    ¬∀ (np : ℕ) (N : Names) (M : ℕ → PMesh) (sched : ℕ → List ℕ) (p : ℕ) (haveMaps : Bool) (I : Info), Meshes np N M →
      (∀ q < np, (sched q).Perm (M q).facetOps) → p < np → setup np N M haveMaps sched p = some I →
      ∀ k < (M p).nFacet, I.isFacetRel k = true ↔ Touches np M N.facet PMesh.elFacets p k := by
  intro h
  obtain ⟨I, hI, h1, _, h2⟩ := isFacetRel_irrelevant
  exact h2 ((h 1 oneNames _ _ 0 true I twoTrigs_ok (fun _ _ => List.Perm.refl _) (by omega) hI 0 (by decide)).1 h1)

/-- The hypotheses of the theorems of C107 hold here; the results are not trivial: relevant are the facets 2, 3, 4 and the nodes 1, 2, 3 -/
example : ∃ I, setup 1 oneNames (fun _ => twoTrigs) true (fun _ => twoTrigs.facetOps) 0 = some I ∧
    IsNumbering 5 (Touches 1 (fun _ => twoTrigs) oneNames.facet PMesh.elFacets 0) I.facet.n I.facet.a2r I.facet.r2a := by
  obtain ⟨I, hI, _, h⟩ := maps_facets twoTrigs_ok (sched := fun _ => twoTrigs.facetOps) (fun _ _ => List.Perm.refl _) (p := 0) (by omega) true
  exact ⟨I, hI, h⟩

example : (setup 1 oneNames (fun _ => twoTrigs) true (fun _ => [4, 3, 2]) 0).map (fun I => (List.range I.facet.n).map I.facet.r2a) =
    some [2, 3, 4] := by decide +kernel

example : (setup 1 oneNames (fun _ => twoTrigs) true (fun _ => [4, 3, 2]) 0).map (fun I => (List.range I.psn.n).map I.psn.r2a) =
    some [1, 2, 3] := by decide +kernel

/-- without `definedon` all facets of two triangles are relevant, and the marks are right -/
example : ∃ I, setup 1 oneNames (fun _ => { twoTrigs with defined := fun _ => true }) false
    (fun _ => { twoTrigs with defined := fun _ => true }.facetOps) 0 = some I ∧ ∀ k < 5, I.isFacetRel k = true := by
  have hok : Meshes 1 oneNames fun _ => { twoTrigs with defined := fun _ => true } :=
    ⟨twoTrigs_ok.psn, twoTrigs_ok.facet, twoTrigs_ok.el⟩
  refine isFacetRel_all_partial hok (fun _ _ => List.Perm.refl _) (p := 0) (by omega) false ?_
  intro k hk
  have hk' : k < 5 := hk
  refine ⟨0, by omega, if k < 2 then 0 else 1, ?_, rfl, k, ?_, rfl⟩
  · show _ < 2
    split_ifs <;> omega
  · interval_cases k <;> decide

end NgsAMG.FAux
