import Verif.Props.MakeLoop2
import Verif.Props.FacetAux4
import Mathlib.Tactic.IntervalCases

/-!
# C108: with the bits of C107 a facet can be in no loop at all
-/

namespace NgsAMG.FLoop

/-- If all facets are relevant (a space defined everywhere, without facets of coarser meshes) the marks are right, so every free facet is, for each of its
nodes, in the loop of exactly one process. -/
theorem facet_once_partial {dim3 : Bool} {np : ℕ} {m : ℕ → LMesh} {N : FAux.Names} {M : ℕ → FAux.PMesh}
    (h : DistMesh dim3 np m (fun p => (M p).nFacet) N.facet N.psn) (hM : FAux.Meshes np N M) {sched : ℕ → List ℕ}
    (hs : ∀ q < np, (sched q).Perm (M q).facetOps) {haveMaps : Bool} {I : ℕ → FAux.Info}
    (hI : ∀ p < np, FAux.setup np N M haveMaps sched p = some (I p))
    (hall : ∀ p < np, ∀ k < (M p).nFacet, FAux.Touches np M N.facet FAux.PMesh.elFacets p k) (S : ℕ → Space)
    (hS : ∀ p < np, ∀ f < (M p).nFacet, (S p).HasDof f) {p f v : ℕ} (hp : p < np) (hf : f < (M p).nFacet) (ht : Touch dim3 (m p) v f)
    (hfree : ∀ q < np, ∀ f' < (M q).nFacet, N.facet q f' = N.facet p f → (S q).Free f') :
    ∃ q < np, ∃ f' v' l, N.facet q f' = N.facet p f ∧ N.psn q v' = N.psn p v ∧
      produceLoop dim3 (m q) (S q) (I q).isFacetRel id v' = some (l, (m q).psnDps v') ∧ f' ∈ l ∧
      ∀ q2 < np, ∀ f2 v2 l2 d2, f2 < (M q2).nFacet → N.facet q2 f2 = N.facet p f →
        produceLoop dim3 (m q2) (S q2) (I q2).isFacetRel id v2 = some (l2, d2) → f2 ∈ l2 → q2 = q := by
  refine facet_once h S (fun p => (I p).isFacetRel) (fun p hp f hf _ => hS p hp f hf) hp hf ht fun q hq f' hf' hn => ⟨?_, hfree q hq f' hf' hn⟩
  obtain ⟨J, hJ, hr⟩ := FAux.isFacetRel_all_partial hM hs hq haveMaps (hall q hq)
  rw [hI q hq] at hJ
  cases hJ
  exact hr f' hf'

/-- the two triangles of `FAux.trigOf` on two processes: facets are the sides, facet 2 of process 0 is facet 0 of process 1 -/
def trigMesh (p : ℕ) : LMesh where
  rank := p
  psnSels _ := []
  selFacets _ := []
  psnEls _ := [0]
  elFacets _ := [0, 1, 2]
  ends f := if f = 0 then (0, 1) else if f = 1 then (0, 2) else (1, 2)
  facetEdges _ := []
  facetDps f := if p = 0 ∧ f = 2 then [1] else if p = 1 ∧ f = 0 then [0] else []
  psnDps v := if p = 0 ∧ (v = 1 ∨ v = 2) then [1] else if p = 1 ∧ (v = 0 ∨ v = 1) then [0] else []

/-- all facets are free -/
def allFree : Space := ⟨fun _ => [], none⟩

theorem trigMesh_ends (p v f : ℕ) : Touch false (trigMesh p) v f ↔
    (f = 0 ∧ (v = 0 ∨ v = 1)) ∨ (f = 1 ∧ (v = 0 ∨ v = 2)) ∨ (f ≠ 0 ∧ f ≠ 1 ∧ (v = 1 ∨ v = 2)) := by
  unfold Touch
  rw [if_neg Bool.false_ne_true]
  show ((if f = 0 then (0, 1) else if f = 1 then (0, 2) else (1, 2) : ℕ × ℕ)).1 = v ∨
    ((if f = 0 then (0, 1) else if f = 1 then (0, 2) else (1, 2) : ℕ × ℕ)).2 = v ↔ _
  split_ifs <;> simp <;> omega

theorem trigMesh_ok : DistMesh false 2 trigMesh (fun _ => 3) FAux.twoNames.facet FAux.twoNames.psn := by
  have hmem : ∀ p f, f < 3 → f ∈ (trigMesh p).elFacets 0 := by
    intro p f hf
    show f ∈ [0, 1, 2]
    simp
    omega
  refine ⟨?_, fun _ _ => rfl, ?_, ?_, ?_, ?_⟩
  · intro p _
    refine ⟨fun v s hs => by simp [trigMesh] at hs, fun v f hf _ => ⟨0, by simp [trigMesh], hmem p f hf⟩, ?_⟩
    intro v e _ f hf
    have hf' : f ∈ [0, 1, 2] := hf
    simp at hf'
    omega
  · intro p _ f _ f' _ h
    simp only [FAux.twoNames] at h
    split_ifs at h <;> omega
  · intro p _ f _
    show (if p = 0 ∧ f = 2 then [1] else if p = 1 ∧ f = 0 then [0] else [] : List ℕ).Pairwise (· < ·)
    split_ifs <;> simp
  · intro p hp f hf q
    show q ∈ (if p = 0 ∧ f = 2 then [1] else if p = 1 ∧ f = 0 then [0] else [] : List ℕ) ↔ _
    simp only [FAux.twoNames]
    constructor
    · intro h
      split_ifs at h with h1 h2
      · simp at h
        obtain ⟨rfl, rfl⟩ := h1
        subst h
        exact ⟨by omega, by omega, 0, by omega, by simp⟩
      · simp at h
        obtain ⟨rfl, rfl⟩ := h2
        subst h
        exact ⟨by omega, by omega, 2, by omega, by simp⟩
      · simp at h
    · rintro ⟨hq, hqp, f', hf', h⟩
      split_ifs at h ⊢ <;> simp <;> omega
  · intro p hp q hq f hf f' hf' hn v ht
    rw [trigMesh_ends] at ht
    simp only [FAux.twoNames] at hn ⊢
    have hcase : (p = q ∧ f = f') ∨ (p = 0 ∧ q = 1 ∧ f = 2 ∧ f' = 0) ∨ (p = 1 ∧ q = 0 ∧ f = 0 ∧ f' = 2) := by
      split_ifs at hn <;> omega
    rcases hcase with ⟨rfl, rfl⟩ | ⟨rfl, rfl, rfl, rfl⟩ | ⟨rfl, rfl, rfl, rfl⟩
    · exact ⟨v, rfl, (trigMesh_ends _ _ _).2 ht⟩
    · refine ⟨v - 1, ?_, (trigMesh_ends _ _ _).2 ?_⟩
      · simp
        omega
      · omega
    · refine ⟨v + 1, ?_, (trigMesh_ends _ _ _).2 ?_⟩
      · simp
      · omega

/-- `FacetAuxiliaryInformation` of process `p` for the space on the triangle of process 1 -/
def trigInfo (p : ℕ) : Option FAux.Info := FAux.setup 2 FAux.twoNames FAux.trigOf true (fun q => (FAux.trigOf q).facetOps) p

/-- With the marks of `FacetAuxiliaryInformation`: the common facet is relevant and free, the space is defined on the element of process 1, but it is
in no loop of either process. -/
theorem facet_lost :
    ∃ I J, trigInfo 0 = some I ∧ trigInfo 1 = some J ∧ FAux.Touches 2 FAux.trigOf FAux.twoNames.facet FAux.PMesh.elFacets 0 2 ∧
      (∀ v l d, produceLoop false (trigMesh 0) allFree I.isFacetRel id v = some (l, d) → 2 ∉ l) ∧
      ∀ v l d, produceLoop false (trigMesh 1) allFree J.isFacetRel id v = some (l, d) → 0 ∉ l := by
  obtain ⟨I, J, hI, hJ, _, _, _, h1, h2, h3⟩ := FAux.isFacetRel_disagree
  have hfr : ∀ f, allFree.HasDof f := by
    intro f b hb
    cases hb
  refine ⟨I, J, hI, hJ, h3, ?_, ?_⟩
  · intro v l d hl hin
    obtain ⟨l', hl', _, hm⟩ := produceLoop_correct false (trigMesh 0) allFree I.isFacetRel 3 (trigMesh_ok.ok 0 (by omega))
      (fun f _ _ => hfr f) id v
    rw [hl'] at hl
    cases hl
    have := ((hm 2).1 hin).2.2.1
    rw [h1] at this
    cases this
  · intro v l d hl hin
    obtain ⟨l', hl', _, hm⟩ := produceLoop_correct false (trigMesh 1) allFree J.isFacetRel 3 (trigMesh_ok.ok 1 (by omega))
      (fun f _ _ => hfr f) id v
    rw [hl'] at hl
    cases hl
    have := ((hm 0).1 hin).2.2.2.2 0 rfl
    exact absurd this (by decide)

/-- a Dirichlet space: the degree of freedom of a facet is its relevant number (`NoCoH1FESpace::GetDofNrs`, ncfespace.cpp:245-262) -/
def ncSpace (I : FAux.Info) (free : List Bool) : Space := ⟨fun f => [I.facet.a2r f], some free⟩

/-- One process, two triangles, the space defined on the second: facet 0 is marked by mistake, has the degree of freedom -1, and the bit -1 of the free
degrees of freedom is tested. -/
theorem test_out_of_range :
    ∃ I, FAux.setup 1 FAux.oneNames (fun _ => FAux.twoTrigs) true (fun _ => FAux.twoTrigs.facetOps) 0 = some I ∧ I.facet.n = 3 ∧
      ∀ (m : LMesh), m.psnSels 1 = [] → m.psnEls 1 = [0, 1] → m.elFacets = FAux.twoTrigs.elFacets → m.ends 0 = (0, 1) →
        produceLoop false m (ncSpace I [true, true, true]) I.isFacetRel id 1 = none := by
  have hr : ((FAux.setup 1 FAux.oneNames (fun _ => FAux.twoTrigs) true (fun _ => FAux.twoTrigs.facetOps) 0).map fun I =>
      (I.isFacetRel 0, I.facet.a2r 0, I.facet.n)) = some (true, -1, 3) := by decide +kernel
  obtain ⟨I, hI, h⟩ := Option.map_eq_some_iff.1 hr
  rw [Prod.mk.injEq, Prod.mk.injEq] at h
  refine ⟨I, hI, h.2.2, fun m hs he hf hends => ?_⟩
  unfold produceLoop makeFacetLoop2D
  rw [if_neg Bool.false_ne_true]
  show (((addElements _ _ (m.psnSels 1) []).bind fun l => addElements _ _ (m.psnEls 1) l).map _) = none
  rw [hs, he, hf]
  have h0 : addFacet (condVol2 m (ncSpace I [true, true, true]) I.isFacetRel 1) [] 0 = none := by
    unfold addFacet condVol2
    rw [if_pos h.1, hends]
    simp [ncSpace, Space.isFree, h.2.1]
  have h1 : addElements (condVol2 m (ncSpace I [true, true, true]) I.isFacetRel 1) FAux.twoTrigs.elFacets [0, 1] [] = none := by
    unfold addElements
    rw [List.foldlM_cons]
    have h3 : (FAux.twoTrigs.elFacets 0).foldlM (addFacet (condVol2 m (ncSpace I [true, true, true]) I.isFacetRel 1)) [] = none := by
      show ([0, 1, 2] : List ℕ).foldlM _ _ = none
      rw [List.foldlM_cons, h0]
      rfl
    rw [h3]
    rfl
  have h2 : addElements (condSurf m (ncSpace I [true, true, true]) I.isFacetRel) m.selFacets [] [] = some [] := rfl
  rw [h2, Option.bind_some]
  exact congrArg _ h1

/-! The hypotheses of `facet_once` hold: with all facets relevant the common facet is in the loops of process 0, and only there. -/

example : produceLoop false (trigMesh 0) allFree (fun _ => true) id 1 = some ([0, 2], [1]) := by decide +kernel

example : produceLoop false (trigMesh 1) allFree (fun _ => true) id 0 = some ([1], [0]) := by decide +kernel

example : ∃ q < 2, ∃ f' v' l, FAux.twoNames.facet q f' = 2 ∧ FAux.twoNames.psn q v' = 1 ∧
    produceLoop false (trigMesh q) allFree (fun _ => true) id v' = some (l, (trigMesh q).psnDps v') ∧ f' ∈ l := by
  obtain ⟨q, hq, f', v', l, h1, h2, h3, h4, _⟩ := facet_once trigMesh_ok (fun _ => allFree) (fun _ _ => true)
    (fun _ _ _ _ _ b hb => by cases hb) (p := 1) (f := 0) (v := 0) (by omega) (by omega) ((trigMesh_ends 1 0 0).2 (by omega))
    (fun _ _ _ _ _ => ⟨rfl, fun b hb => by cases hb⟩)
  exact ⟨q, hq, f', v', l, h1, h2, h3, h4⟩

end NgsAMG.FLoop
