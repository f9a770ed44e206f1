import Verif.Props.FacetAux2

/-!
# C107: relevant elements, nodes and facets
-/

namespace NgsAMG.FAux

/-- nodes and facets of the elements exist, and no element is on two processes -/
structure Meshes (np : ℕ) (N : Names) (M : ℕ → PMesh) : Prop where
  psn : ∀ q < np, ∀ e < (M q).nEl, ∀ j ∈ (M q).elPsns e, j < (M q).nPsn
  facet : ∀ q < np, ∀ e < (M q).nEl, ∀ j ∈ (M q).elFacets e, j < (M q).nFacet
  el : ∀ q < np, ∀ p < np, ∀ e e', e < (M q).nEl → e' < (M p).nEl → N.el q e = N.el p e' → q = p ∧ e = e'

variable {np : ℕ} {N : Names} {M : ℕ → PMesh} {sched : ℕ → List ℕ} {p : ℕ}

theorem facet_mark_iff (hM : Meshes np N M) (hs : ∀ q < np, (sched q).Perm (M q).facetOps) (k : ℕ) :
    reduceLor np (fun q => (M q).nFacet) N.facet (fun q => bitsToInt (setBits (sched q))) p k ≠ 0 ↔
      Touches np M N.facet PMesh.elFacets p k := by
  rw [reduceLor_ne]
  unfold Touches
  constructor
  · rintro ⟨q, hq, j, hj, hn, hd⟩
    unfold bitsToInt at hd
    rw [setBits_eq] at hd
    have hm : j ∈ sched q := by
      by_contra hc
      simp [hc] at hd
    obtain ⟨e, he, hde, hje⟩ := (mem_facetOps _ _).1 ((hs q hq).mem_iff.1 hm)
    exact ⟨q, hq, e, he, hde, j, hje, hn⟩
  · rintro ⟨q, hq, e, he, hde, j, hje, hn⟩
    refine ⟨q, hq, j, hM.facet q hq e he j hje, hn, ?_⟩
    have hm : j ∈ sched q := (hs q hq).mem_iff.2 ((mem_facetOps _ _).2 ⟨e, he, hde, hje⟩)
    unfold bitsToInt
    rw [setBits_eq]
    simp [hm]

theorem psn_mark_iff (hM : Meshes np N M) (k : ℕ) :
    reduceLor np (fun q => (M q).nPsn) N.psn (fun q => (M q).mark.2) p k ≠ 0 ↔ Touches np M N.psn PMesh.elPsns p k := by
  rw [reduceLor_ne]
  unfold Touches
  constructor
  · rintro ⟨q, hq, j, hj, hn, hd⟩
    obtain ⟨e, he, hde, hje⟩ := (mark_psn _ _).1 hd
    exact ⟨q, hq, e, he, hde, j, hje, hn⟩
  · rintro ⟨q, hq, e, he, hde, j, hje, hn⟩
    exact ⟨q, hq, j, hM.psn q hq e he j hje, hn, (mark_psn _ _).2 ⟨e, he, hde, hje⟩⟩

theorem el_mark_iff (hM : Meshes np N M) (hp : p < np) (k : ℕ) (hk : k < (M p).nEl) :
    reduceLor np (fun q => (M q).nEl) N.el (fun q => (M q).mark.1) p k ≠ 0 ↔ (M p).defined k = true := by
  rw [reduceLor_ne]
  constructor
  · rintro ⟨q, hq, j, hj, hn, hd⟩
    obtain ⟨rfl, rfl⟩ := hM.el q hq p hp j k hj hk hn
    exact ((mark_el _ _).1 hd).2
  · intro hd
    exact ⟨p, hp, k, hk, rfl, (mark_el _ _).2 ⟨hk, hd⟩⟩

theorem isNumbering_ne {n : ℕ} {P : ℕ → Prop} {m : ℕ} {a : ℕ → ℤ} {r : ℕ → ℕ} (h : IsNumbering n P m a r) (k : ℕ) (hk : k < n) :
    a k ≠ -1 ↔ P k := by
  constructor
  · intro ha
    by_contra hc
    exact ha (h.none k hk hc)
  · intro hp
    obtain ⟨i, _, _, h2⟩ := h.onto k hk hp
    rw [h2]
    omega

/-- everything but the bits of the facets -/
theorem setup_spec (hM : Meshes np N M) (hs : ∀ q < np, (sched q).Perm (M q).facetOps) (hp : p < np) (haveMaps : Bool) :
    ∃ I, setup np N M haveMaps sched p = some I ∧ I.haveMaps = haveMaps ∧
      (haveMaps = true →
        (IsNumbering (M p).nEl (fun e => (M p).defined e = true) I.el.n I.a2rEl I.r2aEl ∧
          IsNumbering (M p).nPsn (Touches np M N.psn PMesh.elPsns p) I.psn.n I.a2rPsn I.r2aPsn)) ∧
      (haveMaps = false →
        (IsNumbering (M p).nEl (fun _ => True) I.el.n I.a2rEl I.r2aEl ∧
          IsNumbering (M p).nPsn (fun _ => True) I.psn.n I.a2rPsn I.r2aPsn)) ∧
      IsNumbering (M p).nFacet (Touches np M N.facet PMesh.elFacets p) I.facet.n I.facet.a2r I.facet.r2a ∧
      I.facet.n ≤ (M p).nFacet ∧
      ∀ k, I.isFacetRel k = true ↔ (k < I.facet.n ∨ ∃ e < (M p).nEl, (M p).defined e = true ∧ k ∈ (M p).elFacets e) := by
  obtain ⟨f, hf, hfn, hfl⟩ := markToSubset_numbering
    (reduceLor np (fun q => (M q).nFacet) N.facet (fun q => bitsToInt (setBits (sched q))) p) (M p).nFacet
    (Touches np M N.facet PMesh.elFacets p) fun j _ => facet_mark_iff hM hs j
  have hbits : ∀ k, updateBits f.n (setBits (sched p)) k = true ↔
      (k < f.n ∨ ∃ e < (M p).nEl, (M p).defined e = true ∧ k ∈ (M p).elFacets e) := by
    intro k
    rw [updateBits_eq, setBits_eq, Bool.or_eq_true, decide_eq_true_iff, decide_eq_true_iff, (hs p hp).mem_iff, mem_facetOps]
  cases haveMaps with
  | true =>
    obtain ⟨e, he, hen, _⟩ := markToSubset_numbering (reduceLor np (fun q => (M q).nEl) N.el (fun q => (M q).mark.1) p) (M p).nEl
      (fun e => (M p).defined e = true) fun j hj => el_mark_iff hM hp j hj
    obtain ⟨s, hss, hsn, _⟩ := markToSubset_numbering (reduceLor np (fun q => (M q).nPsn) N.psn (fun q => (M q).mark.2) p) (M p).nPsn
      (Touches np M N.psn PMesh.elPsns p) fun j _ => psn_mark_iff hM j
    refine ⟨⟨true, (M p).nEl, (M p).nPsn, (M p).nFacet, e, s, f, updateBits f.n (setBits (sched p))⟩, ?_, rfl, fun _ => ⟨hen, hsn⟩, fun h => (by cases h), hfn, hfl, hbits⟩
    unfold setup setupMaps setupFacets
    rw [if_pos rfl, he, hss, hf]
    rfl
  | false =>
    refine ⟨⟨false, (M p).nEl, (M p).nPsn, (M p).nFacet, ⟨fun _ => 0, (M p).nEl, fun _ => 0⟩, ⟨fun _ => 0, (M p).nPsn, fun _ => 0⟩, f,
      updateBits f.n (setBits (sched p))⟩, ?_, rfl, fun h => (by cases h), fun _ => ⟨?_, ?_⟩, hfn, hfl, hbits⟩
    · unfold setup setupMaps setupFacets
      rw [if_neg (by simp), hf]
      rfl
    · exact ⟨fun k hk => ⟨hk, trivial⟩, fun _ _ h _ => h, fun j hj _ => ⟨j, hj, rfl, rfl⟩, fun _ _ h => absurd trivial h⟩
    · exact ⟨fun k hk => ⟨hk, trivial⟩, fun _ _ h _ => h, fun j hj _ => ⟨j, hj, rfl, rfl⟩, fun _ _ h => absurd trivial h⟩

/-- With `definedon`: the elements the space is defined on, and the nodes of such elements of any process, are numbered consecutively in their order,
the maps in both directions are inverse to each other, and `IsElementRel`/`IsPSNRel` tell which these are. -/
theorem maps_definedon (hM : Meshes np N M) (hs : ∀ q < np, (sched q).Perm (M q).facetOps) (hp : p < np) :
    ∃ I, setup np N M true sched p = some I ∧
      IsNumbering (M p).nEl (fun e => (M p).defined e = true) I.el.n I.a2rEl I.r2aEl ∧
      (∀ e < (M p).nEl, I.isElRel e = true ↔ (M p).defined e = true) ∧
      IsNumbering (M p).nPsn (Touches np M N.psn PMesh.elPsns p) I.psn.n I.a2rPsn I.r2aPsn ∧
      ∀ k < (M p).nPsn, I.isPsnRel k = true ↔ Touches np M N.psn PMesh.elPsns p k := by
  obtain ⟨I, hI, hm, h1, _⟩ := setup_spec hM hs hp true
  obtain ⟨h1, h2⟩ := h1 rfl
  refine ⟨I, hI, h1, fun e he => ?_, h2, fun k hk => ?_⟩
  · rw [← isNumbering_ne h1 e he]
    simp [Info.isElRel, Info.a2rEl, hm]
  · rw [← isNumbering_ne h2 k hk]
    simp [Info.isPsnRel, Info.a2rPsn, hm]

/-- Without `definedon` the maps are those of all elements and all nodes. -/
theorem maps_everywhere (hM : Meshes np N M) (hs : ∀ q < np, (sched q).Perm (M q).facetOps) (hp : p < np) :
    ∃ I, setup np N M false sched p = some I ∧
      IsNumbering (M p).nEl (fun _ => True) I.el.n I.a2rEl I.r2aEl ∧ (∀ e, I.isElRel e = true) ∧
      IsNumbering (M p).nPsn (fun _ => True) I.psn.n I.a2rPsn I.r2aPsn ∧ ∀ k, I.isPsnRel k = true := by
  obtain ⟨I, hI, hm, _, h1, _⟩ := setup_spec hM hs hp false
  obtain ⟨h1, h2⟩ := h1 rfl
  exact ⟨I, hI, h1, fun e => by simp [Info.isElRel, hm], h2, fun k => by simp [Info.isPsnRel, hm]⟩

/-- The maps of the facets: the facets of elements (of any process) the space is defined on, numbered consecutively in their order. -/
theorem maps_facets (hM : Meshes np N M) (hs : ∀ q < np, (sched q).Perm (M q).facetOps) (hp : p < np) (haveMaps : Bool) :
    ∃ I, setup np N M haveMaps sched p = some I ∧ I.nFacetAll = (M p).nFacet ∧
      IsNumbering (M p).nFacet (Touches np M N.facet PMesh.elFacets p) I.facet.n I.facet.a2r I.facet.r2a := by
  obtain ⟨I, hI, _, _, _, h, _⟩ := setup_spec hM hs hp haveMaps
  refine ⟨I, hI, ?_, h⟩
  unfold setup at hI
  obtain ⟨es, _, hI⟩ := Option.bind_eq_some_iff.1 hI
  obtain ⟨f, _, rfl⟩ := Option.map_eq_some_iff.1 hI
  rfl

/-- All processes with a facet agree on whether it is relevant (by the maps). -/
theorem facets_agree (hM : Meshes np N M) (hs : ∀ q < np, (sched q).Perm (M q).facetOps) {q : ℕ} (hp : p < np) (hq : q < np)
    (haveMaps : Bool) {I J : Info} (hI : setup np N M haveMaps sched p = some I) (hJ : setup np N M haveMaps sched q = some J) (k l : ℕ)
    (hk : k < (M p).nFacet) (hl : l < (M q).nFacet) (hkl : N.facet p k = N.facet q l) :
    I.facet.a2r k = -1 ↔ J.facet.a2r l = -1 := by
  obtain ⟨I', hI', _, hi⟩ := maps_facets hM hs hp haveMaps
  obtain ⟨J', hJ', _, hj⟩ := maps_facets hM hs hq haveMaps
  rw [hI] at hI'
  rw [hJ] at hJ'
  cases hI'
  cases hJ'
  rw [← not_iff_not]
  refine (isNumbering_ne hi k hk).trans (Iff.trans ?_ (isNumbering_ne hj l hl).symm)
  unfold Touches
  rw [hkl]

/-- `IsFacetRel` tells exactly the relevant facets if and only if these are the first facets. -/
theorem isFacetRel_iff_first_partial (hM : Meshes np N M) (hs : ∀ q < np, (sched q).Perm (M q).facetOps) (hp : p < np) (haveMaps : Bool) :
    ∃ I, setup np N M haveMaps sched p = some I ∧
      ((∀ k < (M p).nFacet, I.isFacetRel k = true ↔ Touches np M N.facet PMesh.elFacets p k) ↔
        ∃ m ≤ (M p).nFacet, ∀ k < (M p).nFacet, Touches np M N.facet PMesh.elFacets p k ↔ k < m) := by
  obtain ⟨I, hI, _, _, _, h, hle, hb⟩ := setup_spec hM hs hp haveMaps
  refine ⟨I, hI, ?_⟩
  have loc : ∀ k, (∃ e < (M p).nEl, (M p).defined e = true ∧ k ∈ (M p).elFacets e) → Touches np M N.facet PMesh.elFacets p k := by
    rintro k ⟨e, he, hd, hk⟩
    exact ⟨p, hp, e, he, hd, k, hk, rfl⟩
  constructor
  · intro hr
    refine ⟨I.facet.n, hle, fun k hk => ⟨fun ht => ?_, fun hkn => (hr k hk).1 ((hb k).2 (Or.inl hkn))⟩⟩
    -- the numbers of 0, …, n-1 are already all
    by_contra hc
    obtain ⟨i, hi, hik, _⟩ := h.onto k hk ht
    have hall : ∀ j < I.facet.n, ∃ i < I.facet.n, I.facet.r2a i = j := by
      intro j hj
      obtain ⟨i, hi, hij, _⟩ := h.onto j (by omega) ((hr j (by omega)).1 ((hb j).2 (Or.inl hj)))
      exact ⟨i, hi, hij⟩
    have hsub : insert k (Finset.range I.facet.n) ⊆ (Finset.range I.facet.n).image I.facet.r2a := by
      intro j hj
      rcases Finset.mem_insert.1 hj with rfl | hj
      · exact Finset.mem_image.2 ⟨i, Finset.mem_range.2 hi, hik⟩
      · obtain ⟨i', hi', hij'⟩ := hall j (Finset.mem_range.1 hj)
        exact Finset.mem_image.2 ⟨i', Finset.mem_range.2 hi', hij'⟩
    have h1 := Finset.card_le_card hsub
    have h2 := Finset.card_image_le (s := Finset.range I.facet.n) (f := I.facet.r2a)
    rw [Finset.card_insert_of_notMem (by simpa using hc), Finset.card_range] at h1
    rw [Finset.card_range] at h2
    omega
  · rintro ⟨m, hm, hr⟩ k hk
    have hmn : I.facet.n = m := by
      have e1 : (Finset.range I.facet.n).image I.facet.r2a = Finset.range m := by
        ext j
        rw [Finset.mem_image, Finset.mem_range]
        constructor
        · rintro ⟨i, hi, rfl⟩
          obtain ⟨h1, h2⟩ := h.sub i (Finset.mem_range.1 hi)
          exact (hr _ h1).1 h2
        · intro hj
          obtain ⟨i, hi, hij, _⟩ := h.onto j (by omega) ((hr j (by omega)).2 hj)
          exact ⟨i, Finset.mem_range.2 hi, hij⟩
      have e2 := congrArg Finset.card e1
      rw [Finset.card_image_of_injOn, Finset.card_range, Finset.card_range] at e2
      · exact e2
      · intro x hx y hy hxy
        have hx' := Finset.mem_range.1 (Finset.mem_coe.1 hx)
        have hy' := Finset.mem_range.1 (Finset.mem_coe.1 hy)
        rcases lt_trichotomy x y with hc | hc | hc
        · have := h.mono x y hc hy'
          omega
        · exact hc
        · have := h.mono y x hc hx'
          omega
    rw [hb, hr k hk]
    constructor
    · rintro (hk2 | hk2)
      · omega
      · exact (hr k hk).1 (loc k hk2)
    · intro hk2
      exact Or.inl (by omega)

/-- In particular it is right if all facets are relevant. -/
theorem isFacetRel_all_partial (hM : Meshes np N M) (hs : ∀ q < np, (sched q).Perm (M q).facetOps) (hp : p < np) (haveMaps : Bool)
    (hall : ∀ k < (M p).nFacet, Touches np M N.facet PMesh.elFacets p k) :
    ∃ I, setup np N M haveMaps sched p = some I ∧ ∀ k < (M p).nFacet, I.isFacetRel k = true := by
  obtain ⟨I, hI, h⟩ := isFacetRel_iff_first_partial hM hs hp haveMaps
  exact ⟨I, hI, fun k hk => ((h.2 ⟨(M p).nFacet, le_rfl, fun j hj => ⟨fun _ => hj, fun _ => hall j hj⟩⟩) k hk).2 (hall k hk)⟩

/-- Facets of local elements the space is defined on always are relevant for `IsFacetRel`. -/
theorem isFacetRel_local_partial (hM : Meshes np N M) (hs : ∀ q < np, (sched q).Perm (M q).facetOps) (hp : p < np) (haveMaps : Bool) :
    ∃ I, setup np N M haveMaps sched p = some I ∧
      ∀ e < (M p).nEl, (M p).defined e = true → ∀ k ∈ (M p).elFacets e, I.isFacetRel k = true := by
  obtain ⟨I, hI, _, _, _, _, _, hb⟩ := setup_spec hM hs hp haveMaps
  exact ⟨I, hI, fun e he hd k hk => (hb k).2 (Or.inr ⟨e, he, hd, hk⟩)⟩

end NgsAMG.FAux
