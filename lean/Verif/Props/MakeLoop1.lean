import Verif.Model.MakeLoop
import Verif.Props.SortedArray

/-!
# C108: the facets of one process in a loop
-/

namespace NgsAMG.FLoop

theorem addFacets_spec (cond : ℕ → Option Bool) (fs : List ℕ) (hc : ∀ f ∈ fs, ∃ c, cond f = some c) (l : List ℕ)
    (hl : l.Pairwise (· < ·)) :
    ∃ l', fs.foldlM (addFacet cond) l = some l' ∧ l'.Pairwise (· < ·) ∧ ∀ f, f ∈ l' ↔ f ∈ l ∨ (f ∈ fs ∧ cond f = some true) := by
  induction fs generalizing l with
  | nil => exact ⟨l, rfl, hl, by simp⟩
  | cons x fs ih =>
    obtain ⟨c, hcx⟩ := hc x (by simp)
    have hc' : ∀ f ∈ fs, ∃ c, cond f = some c := fun f hf => hc f (by simp [hf])
    cases c with
    | true =>
      obtain ⟨n, b, h1, h2, h3, -⟩ := SortedArray.insertNodups_correct x l hl
      obtain ⟨l', h4, h5, h6⟩ := ih hc' b h2
      refine ⟨l', ?_, h5, fun f => ?_⟩
      · rw [List.foldlM_cons]
        simp [addFacet, hcx, h1, h4]
      · rw [h6, h3]
        constructor
        · rintro ((rfl | h) | h)
          · exact Or.inr ⟨by simp, hcx⟩
          · exact Or.inl h
          · exact Or.inr ⟨by simp [h.1], h.2⟩
        · rintro (h | ⟨h, h'⟩)
          · exact Or.inl (Or.inr h)
          · rcases List.mem_cons.1 h with rfl | h
            · exact Or.inl (Or.inl rfl)
            · exact Or.inr ⟨h, h'⟩
    | false =>
      obtain ⟨l', h4, h5, h6⟩ := ih hc' l hl
      refine ⟨l', ?_, h5, fun f => ?_⟩
      · rw [List.foldlM_cons]
        simp [addFacet, hcx, h4]
      · rw [h6]
        constructor
        · rintro (h | h)
          · exact Or.inl h
          · exact Or.inr ⟨by simp [h.1], h.2⟩
        · rintro (h | ⟨h, h'⟩)
          · exact Or.inl h
          · rcases List.mem_cons.1 h with rfl | h
            · rw [hcx] at h'
              simp at h'
            · exact Or.inr ⟨h, h'⟩

theorem addElements_spec (cond : ℕ → Option Bool) (facets : ℕ → List ℕ) (els : List ℕ)
    (hc : ∀ e ∈ els, ∀ f ∈ facets e, ∃ c, cond f = some c) (l : List ℕ) (hl : l.Pairwise (· < ·)) :
    ∃ l', addElements cond facets els l = some l' ∧ l'.Pairwise (· < ·) ∧
      ∀ f, f ∈ l' ↔ f ∈ l ∨ ((∃ e ∈ els, f ∈ facets e) ∧ cond f = some true) := by
  unfold addElements
  induction els generalizing l with
  | nil => exact ⟨l, rfl, hl, by simp⟩
  | cons x els ih =>
    obtain ⟨b, h1, h2, h3⟩ := addFacets_spec cond (facets x) (hc x (by simp)) l hl
    obtain ⟨l', h4, h5, h6⟩ := ih (fun e he => hc e (by simp [he])) b h2
    refine ⟨l', ?_, h5, fun f => ?_⟩
    · rw [List.foldlM_cons, h1]
      exact h4
    · rw [h6, h3]
      simp only [List.mem_cons, exists_eq_or_imp]
      tauto

/-- the degree of freedom of the facet is free (all are if there is no array) -/
def Space.Free (S : Space) (f : ℕ) : Prop :=
  ∀ b, S.free = some b → ∃ d : ℕ, (S.dofs f).head? = some (d : ℤ) ∧ b[d]? = some true

/-- the facet has a degree of freedom and there is a bit for it (if there is an array) -/
def Space.HasDof (S : Space) (f : ℕ) : Prop :=
  ∀ b, S.free = some b → ∃ d : ℕ, (S.dofs f).head? = some (d : ℤ) ∧ d < b.length

theorem Space.isFree_total {S : Space} {f : ℕ} (h : S.HasDof f) : ∃ c, S.isFree f = some c := by
  unfold Space.isFree
  cases hb : S.free with
  | none => exact ⟨true, rfl⟩
  | some b =>
    obtain ⟨d, h1, h2⟩ := h b hb
    refine ⟨b[d], ?_⟩
    simp [h1, h2]

theorem Space.isFree_iff {S : Space} {f : ℕ} : S.isFree f = some true ↔ S.Free f := by
  unfold Space.isFree Space.Free
  cases hb : S.free with
  | none => simp
  | some b =>
    constructor
    · intro h b' hb'
      cases hb'
      obtain ⟨d, hd, h2⟩ := Option.bind_eq_some_iff.1 h
      by_cases h0 : 0 ≤ d
      · rw [if_pos h0] at h2
        exact ⟨d.toNat, by rw [hd, Int.toNat_of_nonneg h0], h2⟩
      · rw [if_neg h0] at h2
        cases h2
    · intro h
      obtain ⟨d, h1, h2⟩ := h b rfl
      simp [h1, h2]

/-- the facet contains the vertex (2D) or the edge (3D) -/
def Touch (dim3 : Bool) (m : LMesh) (v f : ℕ) : Prop :=
  if dim3 then v ∈ m.facetEdges f else (m.ends f).1 = v ∨ (m.ends f).2 = v

/-- the functions of the mesh fit together: the facet of a surface element at a node contains the node; a facet is a facet of a volume element, which
is at the node if the facet is -/
structure MeshOk (dim3 : Bool) (m : LMesh) (nFacet : ℕ) : Prop where
  sel : ∀ v, ∀ s ∈ m.psnSels v, ∀ f ∈ m.selFacets s, f < nFacet ∧ Touch dim3 m v f
  el : ∀ v, ∀ f < nFacet, Touch dim3 m v f → ∃ e ∈ m.psnEls v, f ∈ m.elFacets e
  elFacet : ∀ v, ∀ e ∈ m.psnEls v, ∀ f ∈ m.elFacets e, f < nFacet

/-- no facet with this number on processes with a lower number, as far as the distant processes tell -/
def LMesh.Master (m : LMesh) (f : ℕ) : Prop := ∀ d, (m.facetDps f).head? = some d → m.rank < d

theorem LMesh.master_iff (m : LMesh) (f : ℕ) : m.master f = true ↔ m.Master f := by
  unfold LMesh.master LMesh.Master
  cases h : m.facetDps f <;> simp

/-- The loop of a node: sorted, without duplicates, exactly the relevant free facets that contain it and of which the process is the master; and the
distant processes of the node. -/
theorem produceLoop_correct (dim3 : Bool) (m : LMesh) (S : Space) (rel : ℕ → Bool) (nFacet : ℕ) (hm : MeshOk dim3 m nFacet)
    (hS : ∀ f < nFacet, rel f = true → S.HasDof f) (r2a : ℕ → ℕ) (row : ℕ) :
    ∃ l, produceLoop dim3 m S rel r2a row = some (l, m.psnDps (r2a row)) ∧ l.Pairwise (· < ·) ∧
      ∀ f, f ∈ l ↔ f < nFacet ∧ Touch dim3 m (r2a row) f ∧ rel f = true ∧ S.Free f ∧ m.Master f := by
  have hfree : ∀ f < nFacet, rel f = true → ∃ c, S.isFree f = some c := fun f hf hr => Space.isFree_total (hS f hf hr)
  have hsurf : ∀ f < nFacet, ∃ c, condSurf m S rel f = some c := by
    intro f hf
    unfold condSurf
    by_cases hr : rel f = true
    · obtain ⟨c, hc⟩ := hfree f hf hr
      exact ⟨_, by rw [if_pos hr, hc]; rfl⟩
    · exact ⟨false, by rw [if_neg hr]⟩
  have hsurf' : ∀ f, condSurf m S rel f = some true ↔ rel f = true ∧ S.Free f ∧ m.Master f := by
    intro f
    unfold condSurf
    by_cases hr : rel f = true
    · rw [if_pos hr, Option.map_eq_some_iff, ← Space.isFree_iff, ← LMesh.master_iff]
      constructor
      · rintro ⟨a, ha, h⟩
        rw [Bool.and_eq_true] at h
        exact ⟨hr, by rw [ha, h.1], h.2⟩
      · rintro ⟨_, h1, h2⟩
        exact ⟨true, h1, by rw [h2]; rfl⟩
    · rw [if_neg hr]
      simp [hr]
  obtain ⟨l1, h1, h2, h3⟩ := addElements_spec (condSurf m S rel) m.selFacets (m.psnSels (r2a row))
    (fun e he f hf => hsurf f (hm.sel _ e he f hf).1) [] List.Pairwise.nil
  have fin : ∀ (cond : ℕ → Option Bool), (∀ f < nFacet, ∃ c, cond f = some c) →
      (∀ f, cond f = some true ↔ Touch dim3 m (r2a row) f ∧ rel f = true ∧ S.Free f ∧ m.Master f) →
      ∃ l, ((addElements (condSurf m S rel) m.selFacets (m.psnSels (r2a row)) []).bind fun l =>
        addElements cond m.elFacets (m.psnEls (r2a row)) l).map (fun l => (l, m.psnDps (r2a row))) = some (l, m.psnDps (r2a row)) ∧
        l.Pairwise (· < ·) ∧ ∀ f, f ∈ l ↔ f < nFacet ∧ Touch dim3 m (r2a row) f ∧ rel f = true ∧ S.Free f ∧ m.Master f := by
    intro cond ht hi
    obtain ⟨l2, h4, h5, h6⟩ := addElements_spec cond m.elFacets (m.psnEls (r2a row))
      (fun e he f hf => ht f (hm.elFacet _ e he f hf)) l1 h2
    refine ⟨l2, by rw [h1, Option.bind_some, h4]; rfl, h5, fun f => ?_⟩
    rw [h6, h3, hsurf', hi]
    constructor
    · rintro ((h | ⟨⟨s, hs, hf⟩, h⟩) | ⟨⟨e, he, hf⟩, h⟩)
      · simp at h
      · obtain ⟨ha, hb⟩ := hm.sel _ s hs f hf
        exact ⟨ha, hb, h⟩
      · exact ⟨hm.elFacet _ e he f hf, h⟩
    · rintro ⟨ha, hb, h⟩
      exact Or.inr ⟨hm.el _ f ha hb, hb, h⟩
  unfold produceLoop
  cases dim3 with
  | true =>
    rw [if_pos rfl]
    refine fin (condVol3 m S rel (r2a row)) ?_ ?_
    · intro f hf
      unfold condVol3
      by_cases hr : rel f = true
      · obtain ⟨c, hc⟩ := hfree f hf hr
        exact ⟨_, by rw [if_pos hr, hc]; rfl⟩
      · exact ⟨false, by rw [if_neg hr]⟩
    · intro f
      unfold condVol3 Touch
      rw [if_pos rfl]
      by_cases hr : rel f = true
      · rw [if_pos hr, Option.map_eq_some_iff, ← Space.isFree_iff, ← LMesh.master_iff]
        constructor
        · rintro ⟨a, ha, h⟩
          simp only [Bool.and_eq_true, List.any_eq_true, beq_iff_eq, exists_eq_right] at h
          exact ⟨h.2, hr, by rw [ha, h.1.1], h.1.2⟩
        · rintro ⟨h0, _, h1, h2⟩
          exact ⟨true, h1, by simp [h2, h0]⟩
      · rw [if_neg hr]
        simp [hr]
  | false =>
    rw [if_neg (by simp)]
    refine fin (condVol2 m S rel (r2a row)) ?_ ?_
    · intro f hf
      unfold condVol2
      by_cases hr : rel f = true
      · obtain ⟨c, hc⟩ := hfree f hf hr
        rw [if_pos hr]
        split_ifs
        · exact ⟨_, by rw [hc]; rfl⟩
        · exact ⟨false, rfl⟩
      · exact ⟨false, by rw [if_neg hr]⟩
    · intro f
      unfold condVol2 Touch
      rw [if_neg Bool.false_ne_true]
      by_cases hr : rel f = true
      · rw [if_pos hr]
        split_ifs with he
        · rw [Option.map_eq_some_iff, ← Space.isFree_iff, ← LMesh.master_iff]
          constructor
          · rintro ⟨a, ha, h⟩
            rw [Bool.and_eq_true] at h
            exact ⟨he, hr, by rw [ha, h.1], h.2⟩
          · rintro ⟨_, _, h1, h2⟩
            exact ⟨true, h1, by rw [h2]; rfl⟩
        · simp [he]
      · rw [if_neg hr]
        simp [hr]

end NgsAMG.FLoop
