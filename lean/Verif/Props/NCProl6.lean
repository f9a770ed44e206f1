import Verif.Props.NCProl5

/-!
# Property C101, termination: when the function returns
-/

namespace NgsAMG.NCProl
open NgsAMG.SparseMM NgsAMG.Spec
variable {K : Type} [Field K] [LinearOrder K] {b : ℕ}

/-- rows have the allocated sizes -/
def Sized (I : Inp b K) (P : List (Row b K)) : Prop :=
  P.length = I.d2e.length ∧ ∀ d e : ℕ, I.d2e[d]? = some e → ∃ r, P[d]? = some r ∧ perow I e = some r.length

theorem Sized.set {I : Inp b K} {P : List (Row b K)} (h : Sized I P) {d e : ℕ} (hd : I.d2e[d]? = some e) {r : Row b K} (hr : perow I e = some r.length) :
    Sized I (P.set d r) := by
  refine ⟨by simp [h.1], fun d' e' hd' => ?_⟩
  by_cases hh : d' = d
  · subst hh
    rw [hd] at hd'
    cases hd'
    have hlt : d' < P.length := by rw [h.1]; exact (List.getElem?_eq_some_iff.1 hd).1
    exact ⟨r, List.getElem?_set_self hlt, hr⟩
  · rw [List.getElem?_set_ne (Ne.symm hh)]
    exact h.2 d' e' hd'

theorem extRow_length (I : Inp b K) (cv : ℕ) (X : Fin (I.ccon cv).length → Mt b b K) : (extRow I cv X).length = (I.ccon cv).length := by
  have hset : ∀ (l : List (Fin (I.ccon cv).length)) (p : Fin (I.ccon cv).length → ℕ) (r : List (Mt b b K)),
      (l.foldl (fun r j => r.set (p j) (X j)) r).length = r.length := by
    intro l p
    induction l with
    | nil => intro r; rfl
    | cons x t ih => intro r; rw [List.foldl_cons, ih, List.length_set]
  unfold extRow
  dsimp only
  rw [List.length_zip]
  refine (congrArg (min _) (hset _ _ _)).trans ?_
  simp [List.length_insertionSort, cols_length]

theorem alloc_total {I : Inp b K} (h : ∀ e ∈ I.d2e, perow I e ≠ none) : ∃ P, alloc I = some P ∧ Sized I P := by
  have : ∃ P, alloc I = some P := by
    unfold alloc
    revert h
    generalize I.d2e = l
    intro h
    induction l with
    | nil => exact ⟨[], rfl⟩
    | cons x t ih =>
      obtain ⟨P, hP⟩ := ih fun e he => h e (List.mem_cons_of_mem _ he)
      obtain ⟨n, hn⟩ := Option.ne_none_iff_exists'.1 (h x List.mem_cons_self)
      exact ⟨List.replicate n I.junk :: P, by rw [List.mapM_cons, hn, hP]; rfl⟩
  obtain ⟨P, hP⟩ := this
  obtain ⟨h1, h2⟩ := alloc_rows hP
  refine ⟨P, hP, h1, fun d e hd => ?_⟩
  obtain ⟨n, n1, n2⟩ := h2 d e hd
  exact ⟨_, n2, by simpa using n1⟩

theorem fill_total {I : Inp b K} (hfree : ∀ e ∈ I.d2e, I.emap e ≠ none → I.free e = true)
    (hc : ∀ e ∈ I.d2e, ∀ E, I.emap e = some E → I.ce2d E ≠ none) : ∀ P, Sized I P → ∃ Q, fillFacets I P = some Q ∧ Sized I Q := by
  unfold fillFacets
  suffices h : ∀ (l : List (ℕ × ℕ)), (∀ x ∈ l, I.d2e[x.2]? = some x.1) → ∀ P, Sized I P → ∃ Q, l.foldlM (facetStep I) P = some Q ∧ Sized I Q from
    h _ fun x hx => List.mem_zipIdx_iff_getElem?.1 hx
  intro l
  induction l with
  | nil => exact fun _ P hP => ⟨P, rfl, hP⟩
  | cons x t ih =>
    intro hl P hP
    have hx := hl x List.mem_cons_self
    have hxm : x.1 ∈ I.d2e := List.mem_of_getElem? hx
    have : ∃ Q, facetStep I P x = some Q ∧ Sized I Q := by
      unfold facetStep
      cases he : I.emap x.1 with
      | none => exact ⟨P, rfl, hP⟩
      | some E =>
        obtain ⟨c, hc'⟩ := Option.ne_none_iff_exists'.1 (hc x.1 hxm E he)
        have hp : perow I x.1 = some 1 := by
          unfold perow
          rw [hfree x.1 hxm (by rw [he]; simp), he]
          rfl
        obtain ⟨r, r1, r2⟩ := hP.2 _ _ hx
        rw [hp] at r2
        obtain ⟨y, rfl⟩ := List.length_eq_one_iff.1 (Option.some.inj r2).symm
        refine ⟨P.set x.2 [(c, 1)], ?_, hP.set hx hp⟩
        dsimp only
        rw [hc']
        dsimp only
        unfold setFirst
        rw [r1]
    obtain ⟨Q, q1, q2⟩ := this
    obtain ⟨R, r1, r2⟩ := ih (fun y hy => hl y (List.mem_cons_of_mem _ hy)) Q q2
    exact ⟨R, by rw [List.foldlM_cons, q1]; exact r1, r2⟩

theorem write_total {I : Inp b K} {cv : ℕ} {n : ℕ} (ed : Fin n → ℕ) (X : Fin n → Fin (I.ccon cv).length → Mt b b K)
    (hed : ∀ k, ∃ d, I.e2d (ed k) = some d ∧ I.d2e[d]? = some (ed k) ∧ perow I (ed k) = some (I.ccon cv).length) :
    ∀ (l : List (Fin n)) (P : List (Row b K)), Sized I P → ∃ Q, l.foldlM (fun Q k => writeRow I cv Q (ed k) (X k)) P = some Q ∧ Sized I Q := by
  intro l
  induction l with
  | nil => exact fun P hP => ⟨P, rfl, hP⟩
  | cons k t ih =>
    intro P hP
    obtain ⟨d, d1, d2, d3⟩ := hed k
    obtain ⟨r, r1, r2⟩ := hP.2 _ _ d2
    rw [d3] at r2
    have hw : writeRow I cv P (ed k) (X k) = some (P.set d (extRow I cv (X k))) := by
      unfold writeRow
      rw [d1]
      dsimp only
      rw [r1]
      dsimp only
      rw [if_pos (Option.some.inj r2).symm]
    obtain ⟨R, q1, q2⟩ := ih _ (hP.set d2 (by rw [extRow_length]; exact d3) : Sized I (P.set d (extRow I cv (X k))))
    exact ⟨R, by rw [List.foldlM_cons, hw]; exact q1, q2⟩

/-- What the function needs to return, besides `MeshOK` -/
structure RunOK (I : Inp b K) : Prop where
  /-- an agglomerate consists of ghosts or has none -/
  ghosts : ∀ a ∈ I.aggs, ∀ v ∈ a, ∀ w ∈ a, I.ghost v = I.ghost w
  /-- Dirichlet edges are neither mapped nor inside an agglomerate -/
  diri : ∀ e ∈ I.d2e, I.free e = false → I.emap e = none ∧ ∀ a ∈ I.aggs, ¬ Interior I a e
  /-- no free edge joins two vertices outside of all agglomerates -/
  weird : ∀ e ∈ I.d2e, I.free e = true → I.vmap (I.edge e).1 ≠ none ∨ I.vmap (I.edge e).2 ≠ none
  /-- coarse edges of fine edges with degrees of freedom have degrees of freedom -/
  cdof : ∀ e ∈ I.d2e, ∀ E, I.emap e = some E → I.ce2d E ≠ none
  /-- the local problems can be solved -/
  unit : ∀ a ∈ I.aggs, ∀ cv, (∀ v, v ∈ a ↔ I.vmap v = some cv) → (∀ v ∈ a, I.ghost v = false) → 2 ≤ a.length → (∃ e, Interior I a e) →
    (∃ v w e, v ∈ a ∧ (w, e) ∈ I.con v ∧ w ∉ a) → IsUnit (matM I a (facets I a cv)).det

theorem perow_total {I : Inp b K} (hR : RunOK I) {e : ℕ} (he : e ∈ I.d2e) : perow I e ≠ none := by
  unfold perow
  cases hf : I.free e with
  | false => simp
  | true =>
    simp only [Bool.not_true, Bool.false_eq_true, if_false]
    cases I.emap e with
    | some E => simp
    | none =>
      dsimp only
      split
      · rename_i h
        have := hR.weird e he hf
        rw [← h] at this
        simpa using this
      · simp

theorem step_total {I : Inp b K} (hI : MeshOK I) (hR : RunOK I) {a : List ℕ} (ha : a ∈ I.aggs) {P : List (Row b K)} (hP : Sized I P) :
    ∃ Q, aggStep I P a = some Q ∧ Sized I Q := by
  cases a with
  | nil => exact ⟨P, rfl, hP⟩
  | cons v0 t =>
    obtain ⟨cv, hcv⟩ := hI.agg _ ha
    have hv0 := (hcv v0).1 List.mem_cons_self
    unfold aggStep
    dsimp only
    cases hg : I.ghost v0 with
    | true => exact ⟨P, rfl, hP⟩
    | false =>
      simp only [Bool.false_eq_true, if_false]
      have hgh : ∀ v ∈ v0 :: t, I.ghost v = false := fun v hv => (hR.ghosts _ ha v hv v0 List.mem_cons_self).trans hg
      split
      · exact ⟨P, rfl, hP⟩
      rename_i hlen
      rw [hv0]
      dsimp only
      split
      · exact ⟨P, rfl, hP⟩
      rename_i hx
      split
      · exact ⟨P, rfl, hP⟩
      rename_i hi
      have hint : ∃ e, Interior I (v0 :: t) e := by
        obtain ⟨x, hx⟩ := List.exists_mem_of_ne_nil _ (fun h => hi (List.length_eq_zero_iff.2 h))
        rw [List.mem_filter] at hx
        have : x = (x.1, true) := Prod.ext rfl hx.2
        exact ⟨x.1, interior_of_facet (cv := cv) (this ▸ hx.1)⟩
      have hext : ∃ v w e, v ∈ v0 :: t ∧ (w, e) ∈ I.con v ∧ w ∉ v0 :: t := by
        obtain ⟨x, hx⟩ := List.exists_mem_of_ne_nil _ (fun h => hx (List.length_eq_zero_iff.2 h))
        rw [List.mem_filter] at hx
        obtain ⟨e, f⟩ := x
        obtain ⟨v, w, q1, q2, q3 | q3⟩ := mem_facets.1 hx.1
        · have hf : f = false := by simpa using hx.2
          have h3 := q3.2.2
          rw [hf, List.contains_iff_mem.2 ((hcv w).2 q3.1)] at h3
          cases h3
        · exact ⟨v, w, e, q1, q2, fun h => q3.1 ((hcv w).1 h)⟩
      have hu := hR.unit _ ha cv hcv hgh (by omega) hint hext
      -- all facets are edges of vertices of the agglomerate
      have hfac : ∀ e ∈ ffacets (facets I (v0 :: t) cv), ∃ v w, v ∈ v0 :: t ∧ (w, e) ∈ I.con v := by
        intro e he
        rw [mem_ffacets, List.mem_map] at he
        obtain ⟨⟨e', f⟩, h1, rfl⟩ := he
        obtain ⟨v, w, q1, q2, _⟩ := mem_facets.1 h1
        exact ⟨v, w, q1, q2⟩
      have hok : okIdx I P (v0 :: t) (facets I (v0 :: t) cv) cv = true := by
        unfold okIdx
        simp only [Bool.and_eq_true, List.all_eq_true]
        refine ⟨⟨fun v hv x hx => ?_, fun e he => ?_⟩, fun x hx => ?_⟩
        · rw [List.contains_iff_mem, mem_ffacets, List.mem_map]
          by_cases hw : I.vmap x.1 = some cv
          · exact ⟨(x.2, true), facet_of_interior hI hcv ⟨v, x.1, hv, (hcv _).2 hw, hx⟩, rfl⟩
          · exact ⟨(x.2, false), mem_facets.2 ⟨v, x.1, hv, hx, Or.inr ⟨hw, rfl⟩⟩, rfl⟩
        · obtain ⟨v, w, q1, q2⟩ := hfac e he
          obtain ⟨d, hd⟩ := Option.isSome_iff_exists.1 (hI.solid v w e (hgh v q1) q2)
          rw [hd]
          have := (List.getElem?_eq_some_iff.1 ((hI.dofs d e).2 hd)).1
          simpa [hP.1] using this
        · obtain ⟨v, w, e, q1, q2, q3⟩ := hI.cedge cv x.1 x.2 hx
          obtain ⟨d, hd⟩ := Option.isSome_iff_exists.1 (hI.solid v w e (hgh v ((hcv v).2 q2)) q1)
          exact Option.isSome_iff_ne_none.2 (hR.cdof e (List.mem_of_getElem? ((hI.dofs d e).2 hd)) _ q3)
      unfold solveAgg
      rw [if_neg (by rw [hok]; simp), if_pos hu]
      refine write_total _ _ (fun k => ?_) _ P hP
      have hin : Interior I (v0 :: t) ((ffacets (facets I (v0 :: t) cv)).getD ((ffiinds (facets I (v0 :: t) cv))[k]) 0) := interior_of_facet (cv := cv) ffi_edges
      generalize (ffacets (facets I (v0 :: t) cv)).getD ((ffiinds (facets I (v0 :: t) cv))[k]) 0 = e at hin
      obtain ⟨v, w, hv, hw, hc⟩ := id hin
      obtain ⟨d, hd⟩ := Option.isSome_iff_exists.1 (hI.solid v w e (hgh v hv) hc)
      have hde := (hI.dofs d e).2 hd
      refine ⟨d, hd, hde, ?_⟩
      have hN : I.emap e = none := hI.emapN v w e hc (Or.inr (by rw [(hcv v).1 hv, (hcv w).1 hw]))
      have hf : I.free e = true := by
        by_contra h
        exact (hR.diri e (List.mem_of_getElem? hde) (by simpa using h)).2 _ ha hin
      unfold perow
      rw [hf, hN]
      simp only [Bool.not_true, Bool.false_eq_true, if_false]
      rcases hI.ends _ _ _ hc with h | h <;>
        · rw [h.1, (hcv v).1 hv, (hcv w).1 hw, if_pos rfl]
          rfl

/-- **C101**: with regular local problems, unmapped Dirichlet edges and degrees of freedom for all coarse edges the function returns -/
theorem prol_total {I : Inp b K} (hI : MeshOK I) (hR : RunOK I) : ∃ P, prol I = some P := by
  obtain ⟨P0, h0, s0⟩ := alloc_total fun e he => perow_total hR he
  obtain ⟨P1, h1, s1⟩ := fill_total (fun e he hm => by
    by_contra h
    exact hm (hR.diri e he (by simpa using h)).1) hR.cdof P0 s0
  have : ∀ (l : List (List ℕ)), (∀ a ∈ l, a ∈ I.aggs) → ∀ P, Sized I P → ∃ Q, l.foldlM (aggStep I) P = some Q := by
    intro l
    induction l with
    | nil => exact fun _ P _ => ⟨P, rfl⟩
    | cons a t ih =>
      intro hl P hP
      obtain ⟨Q, q1, q2⟩ := step_total hI hR (hl a List.mem_cons_self) hP
      obtain ⟨R, hR'⟩ := ih (fun x hx => hl x (List.mem_cons_of_mem _ hx)) Q q2
      exact ⟨R, by rw [List.foldlM_cons, q1]; exact hR'⟩
  obtain ⟨P, hP⟩ := this I.aggs (fun _ h => h) P1 s1
  exact ⟨P, by unfold prol; rw [h0]; dsimp only [Option.bind_some]; rw [h1]; exact hP⟩

end NgsAMG.NCProl
