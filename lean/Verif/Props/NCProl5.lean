import Verif.Props.NCProl4

/-!
# Property C101, flows: the flows of the coarse edges computed by `map_data` are those the prolongation needs
-/

namespace NgsAMG.NCProl
open NgsAMG.SparseMM NgsAMG.Spec
variable {K : Type} [Field K] [LinearOrder K] {b : ℕ}

/-- the flow of a coarse edge is the sum over the fine edges mapped to it -/
theorem sumFlow_eq (I : Inp b K) (edges : List ℕ) (cedge : ℕ → ℕ × ℕ) (E : ℕ) (l : Fin b) :
    (sumFlow I edges cedge E).1 l = (edges.map fun e => if I.emap e = some E then mapFac I e (cedge E) * I.flow e l else 0).sum := by
  unfold sumFlow
  suffices h : ∀ (f : ℕ → (Fin b → K) × K), (edges.foldl (fun f e => match I.emap e with
      | none => f
      | some E => Function.update f E (fun l => (f E).1 l + mapFac I e (cedge E) * I.flow e l, (f E).2 + I.norm (I.flow e))) f E).1 l =
      (f E).1 l + (edges.map fun e => if I.emap e = some E then mapFac I e (cedge E) * I.flow e l else 0).sum by
    exact (h _).trans (by simp)
  induction edges with
  | nil => simp
  | cons e t ih =>
    intro f
    rw [List.foldl_cons, ih, List.map_cons, List.sum_cons]
    cases he : I.emap e with
    | none => simp
    | some E' =>
      by_cases hE : E' = E
      · subst hE
        simp [add_assoc]
      · dsimp only
        rw [Function.update_of_ne (Ne.symm hE), if_neg (by simpa using hE), zero_add]

/-- how the edges of the meshes are listed: fine edges once, coarse edges from the smaller to the larger vertex -/
structure EdgesOK (I : Inp b K) (edges : List ℕ) (cedge : ℕ → ℕ × ℕ) : Prop where
  nodup : edges.Nodup
  all : ∀ v w e, (w, e) ∈ I.con v → e ∈ edges
  con : ∀ e ∈ edges, I.emap e ≠ none → ((I.edge e).2, e) ∈ I.con (I.edge e).1
  ends : ∀ C D E, (D, E) ∈ I.ccon C → (cedge E = (C, D) ∧ C < D) ∨ (cedge E = (D, C) ∧ D < C)

/-- an edge of a coarse edge at `cv`, seen from its vertex in the agglomerate -/
theorem edge_sides {I : Inp b K} (hI : MeshOK I) {edges : List ℕ} {cedge : ℕ → ℕ × ℕ} (hE : EdgesOK I edges cedge) {cv D E : ℕ}
    (hD : (D, E) ∈ I.ccon cv) {v w e : ℕ} (hc : (w, e) ∈ I.con v) (he : I.emap e = some E) :
    (I.vmap v = some cv ∧ I.vmap w = some D) ∨ (I.vmap v = some D ∧ I.vmap w = some cv) := by
  have h1 : ¬ (I.vmap v = none ∨ I.vmap v = I.vmap w) := fun h => by
    rw [hI.emapN v w e hc h] at he
    cases he
  have h2 : I.vmap w ≠ none := fun h => by
    rw [hI.emapN w v e (hI.symm v w e hc) (Or.inl h)] at he
    cases he
  rw [not_or] at h1
  obtain ⟨C', hC'⟩ := Option.ne_none_iff_exists'.1 h1.1
  obtain ⟨D', hD'⟩ := Option.ne_none_iff_exists'.1 h2
  obtain ⟨E', e1, e2⟩ := hI.emap v w e C' D' hc hC' hD' (fun h => h1.2 (by rw [hC', hD', h]))
  rw [he] at e1
  cases e1
  rw [hC', hD']
  rcases hE.ends _ _ _ hD with h | h <;> rcases hE.ends _ _ _ e2 with g | g <;>
    · have := h.1.symm.trans g.1
      simp only [Prod.mk.injEq] at this
      simp [this.1, this.2]

theorem sign_eq {I : Inp b K} (hI : MeshOK I) {edges : List ℕ} {cedge : ℕ → ℕ × ℕ} (hE : EdgesOK I edges cedge) {cv D E : ℕ}
    (hD : (D, E) ∈ I.ccon cv) {v w e : ℕ} (hc : (w, e) ∈ I.con v) (he : I.emap e = some E) (hv : I.vmap v = some cv) :
    sgn cv D * mapFac I e (cedge E) = (sgn v w : K) := by
  have hne : cv ≠ D := by
    rcases hE.ends _ _ _ hD with h | h <;> omega
  have hw : I.vmap w = some D := by
    rcases edge_sides hI hE hD hc he with h | h
    · exact h.2
    · rw [hv] at h
      exact absurd (Option.some.inj h.1) hne
  unfold sgn mapFac
  rcases hI.ends _ _ _ hc with h | h <;> rcases hE.ends _ _ _ hD with g | g
  · rw [h.1, g.1, hv, if_pos h.2, if_pos g.2]; simp
  · rw [h.1, g.1, hv, if_pos h.2, if_neg (by omega : ¬ cv < D)]; simp [hne]
  · rw [h.1, g.1, hw, if_neg (by omega : ¬ v < w), if_pos g.2]; simp [hne.symm]
  · rw [h.1, g.1, hw, if_neg (by omega : ¬ v < w), if_neg (by omega : ¬ cv < D)]; simp

/-- **C101**: if the flows of the coarse edges are computed by `map_data` (on one process) and only exact zeros are cut off, they are the sums of the
flows of the fine edges, seen from every agglomerate: the hypothesis of `div_const` -/
theorem flow_ok {I : Inp b K} (hI : MeshOK I) {edges : List ℕ} {cedge : ℕ → ℕ × ℕ} (hE : EdgesOK I edges cedge) (eps : K)
    (hcf : ∀ E, I.cflow E = mapFlow I eps edges cedge E) {a : List ℕ} {cv : ℕ} (ha : a ∈ I.aggs) (hcv : ∀ v, v ∈ a ↔ I.vmap v = some cv)
    (hcut : ∀ D E, (D, E) ∈ I.ccon cv → I.norm (sumFlow I edges cedge E).1 < eps * (sumFlow I edges cedge E).2 → (sumFlow I edges cedge E).1 = fun _ => 0) :
    FlowOK I a cv := by
  rintro ⟨D, E⟩ hD l
  have hcl : I.cflow E = (sumFlow I edges cedge E).1 := by
    rw [hcf]
    unfold mapFlow
    split
    · rename_i h
      exact (hcut D E hD h).symm
    · rfl
  dsimp only
  rw [hcl, sumFlow_eq, ← List.sum_map_mul_left]
  have hcn : ∀ v, (I.con v).Nodup := fun v => List.Nodup.of_map _ (hI.once v)
  rw [sum_list_fin hE.nodup, sum_list_fin (hI.nodup a ha), Finset.sum_congr rfl fun v _ => sum_list_fin (hcn v) _, Finset.sum_sigma']
  have hne : cv ≠ D := by
    rcases hE.ends _ _ _ hD with h | h <;> omega
  -- drop the edges that are mapped elsewhere
  rw [← Finset.sum_filter_of_ne (p := fun e => I.emap e = some E) (s := edges.toFinset),
    ← Finset.sum_filter_of_ne (p := fun x : (_ : ℕ) × (ℕ × ℕ) => I.emap x.2.2 = some E)]
  · symm
    refine Finset.sum_bij (fun x _ => x.2.2) ?_ ?_ ?_ ?_
    · rintro ⟨v, w, e⟩ hx
      simp only [Finset.mem_filter, Finset.mem_sigma, List.mem_toFinset] at hx ⊢
      exact ⟨hE.all v w e hx.1.2, hx.2⟩
    · rintro ⟨v, w, e⟩ hx ⟨v', w', e'⟩ hx' heq
      simp only [Finset.mem_filter, Finset.mem_sigma, List.mem_toFinset] at hx hx' heq
      subst heq
      rw [hcv] at hx hx'
      have hw := edge_sides hI hE hD hx.1.2 hx.2
      have hw' := edge_sides hI hE hD hx'.1.2 hx.2
      have k1 : I.vmap w = some D := by
        rcases hw with h | h
        · exact h.2
        · exact absurd (Option.some.inj (hx.1.1.symm.trans h.1)) hne
      rcases hI.ends _ _ _ hx.1.2 with h | h <;> rcases hI.ends _ _ _ hx'.1.2 with g | g <;>
        · have hh := h.1.symm.trans g.1
          simp only [Prod.mk.injEq] at hh
          first
          | (obtain ⟨rfl, rfl⟩ := hh; rfl)
          | (obtain ⟨h1, h2⟩ := hh
             subst h1 h2
             first
             | rfl
             | (have := k1.symm.trans hx'.1.1
                exact absurd (Option.some.inj this).symm hne))
    · intro e he
      simp only [Finset.mem_filter, List.mem_toFinset] at he
      have hc := hE.con e he.1 (by rw [he.2]; simp)
      rcases edge_sides hI hE hD hc he.2 with h | h
      · exact ⟨⟨_, _, e⟩, by simp only [Finset.mem_filter, Finset.mem_sigma, List.mem_toFinset]; exact ⟨⟨(hcv _).2 h.1, hc⟩, he.2⟩, rfl⟩
      · exact ⟨⟨_, _, e⟩, by simp only [Finset.mem_filter, Finset.mem_sigma, List.mem_toFinset]; exact ⟨⟨(hcv _).2 h.2, hI.symm _ _ _ hc⟩, he.2⟩, rfl⟩
    · rintro ⟨v, w, e⟩ hx
      simp only [Finset.mem_filter, Finset.mem_sigma, List.mem_toFinset] at hx ⊢
      rw [if_pos hx.2, if_pos hx.2, ← mul_assoc, sign_eq hI hE hD hx.1.2 hx.2 ((hcv v).1 hx.1.1)]
  · intro x _ h
    by_contra h'
    rw [if_neg h'] at h
    exact h rfl
  · intro x _ h
    by_contra h'
    rw [if_neg h'] at h
    simp at h

end NgsAMG.NCProl
