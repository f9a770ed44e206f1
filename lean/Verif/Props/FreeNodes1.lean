import Verif.Model.FreeNodes
import Verif.Props.FacetAux2
import Verif.Props.MakeLoop1

/-!
# C109: free loops, vertices and edges
-/

namespace NgsAMG.FreeN

theorem foldl_if_update (c : ℕ → Prop) [DecidablePred c] (l : List ℕ) (b : ℕ → Bool) (k : ℕ) :
    l.foldl (fun b k => if c k then Function.update b k true else b) b k = true ↔ (b k = true ∨ (k ∈ l ∧ c k)) := by
  induction l generalizing b with
  | nil => simp
  | cons x l ih =>
    rw [List.foldl_cons, ih]
    by_cases hx : c x
    · rw [if_pos hx]
      by_cases hk : k = x
      · subst hk
        simp [hx]
      · simp [hk]
    · rw [if_neg hx]
      by_cases hk : k = x
      · subst hk
        simp [hx]
      · simp [hk]

theorem emptyLoops_iff (L : Level) (k : ℕ) : L.emptyLoops k = true ↔ L.loops[k]? = some [] := by
  unfold Level.emptyLoops
  rw [foldl_if_update]
  constructor
  · rintro (h | ⟨h, h2⟩)
    · cases h
    · have hk := List.mem_range.1 h
      rw [List.getD_eq_getElem?_getD, List.getElem?_eq_getElem hk] at h2
      rw [List.getElem?_eq_getElem hk]
      exact congrArg some (List.length_eq_zero_iff.1 h2)
  · intro h
    obtain ⟨hk, h2⟩ := List.getElem?_eq_some_iff.1 h
    refine Or.inr ⟨List.mem_range.2 hk, ?_⟩
    rw [List.getD_eq_getElem?_getD, h]
    rfl

theorem toInt_ne (b : ℕ → Bool) (k : ℕ) : toInt b k ≠ 0 ↔ b k = true := by
  unfold toInt
  by_cases h : b k = true <;> simp [h]

theorem orBits_iff (n : ℕ) (a : ℕ → ℤ) (b : ℕ → Bool) (k : ℕ) : orBits n a b k = true ↔ (b k = true ∨ (k < n ∧ a k ≠ 0)) := by
  unfold orBits
  rw [foldl_if_update, List.mem_range]

/-- More than two processes: a loop is free iff no process with that loop has an empty row for it. -/
theorem freeLoops_iff {np : ℕ} (hnp : 2 < np) (lname : ℕ → ℕ → ℕ) (L : ℕ → Level) {p k : ℕ} (hp : p < np) (hk : k < (L p).loops.length) :
    freeLoops np lname L p k = true ↔
      ∀ q < np, ∀ j, lname q j = lname p k → (L q).loops[j]? ≠ some [] := by
  unfold freeLoops
  rw [if_pos hnp, Bool.not_eq_true', ← Bool.not_eq_true, orBits_iff, FAux.reduceLor_ne, emptyLoops_iff]
  simp only [toInt_ne, emptyLoops_iff]
  constructor
  · intro h q hq j hn he
    exact h (Or.inr ⟨hk, q, hq, j, (List.getElem?_eq_some_iff.1 he).1, hn, he⟩)
  · rintro h (h1 | ⟨_, q, hq, j, _, hn, he⟩)
    · exact h p hp k rfl h1
    · exact h q hq j hn he

/-- At most two processes: a loop is free iff the own row is not empty. -/
theorem freeLoops_small_partial {np : ℕ} (hnp : np ≤ 2) (lname : ℕ → ℕ → ℕ) (L : ℕ → Level) (p k : ℕ) :
    freeLoops np lname L p k = true ↔ (L p).loops[k]? ≠ some [] := by
  unfold freeLoops
  rw [if_neg (by omega), Bool.not_eq_true', ← Bool.not_eq_true, emptyLoops_iff]

/-- More than two processes agree on the free loops. -/
theorem freeLoops_agree {np : ℕ} (hnp : 2 < np) (lname : ℕ → ℕ → ℕ) (L : ℕ → Level) {p q k j : ℕ} (hp : p < np) (hq : q < np)
    (hk : k < (L p).loops.length) (hj : j < (L q).loops.length) (hn : lname p k = lname q j) :
    freeLoops np lname L p k = freeLoops np lname L q j := by
  rw [Bool.eq_iff_iff, freeLoops_iff hnp lname L hp hk, freeLoops_iff hnp lname L hq hj, hn]

/-- the facet has a Dirichlet condition -/
def Level.Diri (L : Level) (f : ℕ) : Prop := L.fes.isFree f = some false

/-- vertex `v` is the end of the edge of facet `f`, the other end is the vertex of the first element of `f` -/
def Level.FarEnd (L : Level) (f v : ℕ) : Prop :=
  ∃ e el els w, L.f2e f = some e ∧ L.facetEls f = el :: els ∧ L.el2v el = some w ∧ (L.edges e = (w, v) ∨ L.edges e = (v, w))

theorem markEnd_iff (L : Level) (b : ℕ → Bool) (f e v : ℕ) (he : L.f2e f = some e) :
    L.markEnd b f e v = true ↔ (b v = true ∨ L.FarEnd f v) := by
  unfold Level.markEnd Level.FarEnd
  cases hf : L.facetEls f with
  | nil => simp
  | cons el els =>
    have key : ∀ (b' : ℕ → Bool) (c : Prop) [Decidable c] (x : ℕ),
        (if c then Function.update b' x true else b') v = true ↔ (b' v = true ∨ (c ∧ v = x)) := by
      intro b' c _ x
      split_ifs with hc
      · by_cases hv : v = x
        · subst hv
          simp [hc]
        · simp [hv]
      · simp [hc]
    show (if some (L.edges e).2 = L.el2v el then Function.update (if some (L.edges e).1 = L.el2v el then Function.update b (L.edges e).2 true else b)
      (L.edges e).1 true else (if some (L.edges e).1 = L.el2v el then Function.update b (L.edges e).2 true else b)) v = true ↔ _
    rw [key, key]
    constructor
    · rintro ((h | ⟨h, rfl⟩) | ⟨h, rfl⟩)
      · exact Or.inl h
      · exact Or.inr ⟨e, el, els, _, he, rfl, h.symm, Or.inl rfl⟩
      · exact Or.inr ⟨e, el, els, _, he, rfl, h.symm, Or.inr rfl⟩
    · rintro (h | ⟨e', el', els', w, he', h1, h2, h3⟩)
      · exact Or.inl (Or.inl h)
      · rw [he] at he'
        cases he'
        cases h1
        rcases h3 with h3 | h3
        · rw [h3]
          exact Or.inl (Or.inr ⟨h2.symm, rfl⟩)
        · rw [h3]
          exact Or.inr ⟨h2.symm, rfl⟩

theorem diriVerts_fold (L : Level) (l : List ℕ) (h : ∀ f ∈ l, L.f2e f ≠ none → L.fes.HasDof f) (b : ℕ → Bool) :
    ∃ b', l.foldlM L.vertStep b = some b' ∧ ∀ v, b' v = true ↔ (b v = true ∨ ∃ f ∈ l, L.Diri f ∧ L.FarEnd f v) := by
  induction l generalizing b with
  | nil => exact ⟨b, rfl, by simp⟩
  | cons x l ih =>
    have step : ∃ b', L.vertStep b x = some b' ∧ ∀ v, b' v = true ↔ (b v = true ∨ (L.Diri x ∧ L.FarEnd x v)) := by
      unfold Level.vertStep Level.Diri
      cases he : L.f2e x with
      | none =>
        refine ⟨b, rfl, fun v => ⟨Or.inl, ?_⟩⟩
        rintro (h1 | ⟨_, e, _, _, _, h1, _⟩)
        · exact h1
        · rw [he] at h1
          cases h1
      | some e =>
        obtain ⟨c, hc⟩ := FLoop.Space.isFree_total (h x (by simp) (by rw [he]; simp))
        refine ⟨_, by rw [hc]; rfl, fun v => ?_⟩
        cases c with
        | true => simp [hc]
        | false =>
          show L.markEnd b x e v = true ↔ _
          rw [markEnd_iff L b x e v he]
          simp [hc]
    obtain ⟨b1, h1, h2⟩ := step
    obtain ⟨b', h3, h4⟩ := ih (fun f hf => h f (by simp [hf])) b1
    refine ⟨b', by rw [List.foldlM_cons, h1]; exact h3, fun v => ?_⟩
    rw [h4, h2]
    simp only [List.mem_cons, exists_eq_or_imp]
    tauto

theorem diriVerts_spec (L : Level) (h : ∀ f < L.nFacet, L.f2e f ≠ none → L.fes.HasDof f) :
    ∃ b, L.diriVerts = some b ∧ ∀ v, b v = true ↔ ∃ f < L.nFacet, L.Diri f ∧ L.FarEnd f v := by
  obtain ⟨b, h1, h2⟩ := diriVerts_fold L (List.range L.nFacet) (fun f hf => h f (List.mem_range.1 hf)) fun _ => false
  refine ⟨b, h1, fun v => ?_⟩
  rw [h2]
  simp

/-- More than two processes: a vertex is not free iff on some process it is the far end of a Dirichlet facet; the function never tests bits that do not
exist. -/
theorem freeVerts_iff {np : ℕ} (hnp : 2 < np) (vname : ℕ → ℕ → ℕ) (L : ℕ → Level)
    (h : ∀ q < np, ∀ f < (L q).nFacet, (L q).f2e f ≠ none → (L q).fes.HasDof f) {p : ℕ} (hp : p < np) :
    ∃ b, freeVerts np vname L p = some b ∧ ∀ v < (L p).nVert,
      (b v = true ↔ ¬∃ q < np, ∃ w < (L q).nVert, vname q w = vname p v ∧ ∃ f < (L q).nFacet, (L q).Diri f ∧ (L q).FarEnd f w) := by
  obtain ⟨b, hb, hb2⟩ := diriVerts_spec (L p) (h p hp)
  unfold freeVerts
  rw [hb]
  refine ⟨_, rfl, fun v hvp => ?_⟩
  beta_reduce
  rw [if_pos hnp, Bool.not_eq_true', ← Bool.not_eq_true, orBits_iff, FAux.reduceLor_ne, hb2]
  have hq : ∀ q < np, ∀ w, toInt (((L q).diriVerts).getD fun _ => false) w ≠ 0 ↔ ∃ f < (L q).nFacet, (L q).Diri f ∧ (L q).FarEnd f w := by
    intro q hq w
    obtain ⟨bq, hbq, hbq2⟩ := diriVerts_spec (L q) (h q hq)
    rw [toInt_ne, hbq, Option.getD_some, hbq2]
  constructor
  · rintro h1 ⟨q, hqn, w, hw, hn, hf⟩
    exact h1 (Or.inr ⟨hvp, q, hqn, w, hw, hn, (hq q hqn w).2 hf⟩)
  · rintro h1 (h2 | ⟨_, q, hqn, w, hw, hn, hf⟩)
    · exact h1 ⟨p, hp, v, hvp, rfl, h2⟩
    · exact h1 ⟨q, hqn, w, hw, hn, (hq q hqn w).1 hf⟩

/-- More than two processes agree on the free vertices. -/
theorem freeVerts_agree {np : ℕ} (hnp : 2 < np) (vname : ℕ → ℕ → ℕ) (L : ℕ → Level)
    (h : ∀ q < np, ∀ f < (L q).nFacet, (L q).f2e f ≠ none → (L q).fes.HasDof f) {p q : ℕ} (hp : p < np) (hq : q < np) :
    ∃ b c, freeVerts np vname L p = some b ∧ freeVerts np vname L q = some c ∧
      ∀ v < (L p).nVert, ∀ w < (L q).nVert, vname p v = vname q w → b v = c w := by
  obtain ⟨b, hb, hb2⟩ := freeVerts_iff hnp vname L h hp
  obtain ⟨c, hc, hc2⟩ := freeVerts_iff hnp vname L h hq
  refine ⟨b, c, hb, hc, fun v hv w hw hn => ?_⟩
  rw [Bool.eq_iff_iff, hb2 v hv, hc2 w hw, hn]

/-- At most two processes: only the own facets count. -/
theorem freeVerts_small_partial {np : ℕ} (hnp : np ≤ 2) (vname : ℕ → ℕ → ℕ) (L : ℕ → Level) {p : ℕ}
    (h : ∀ f < (L p).nFacet, (L p).f2e f ≠ none → (L p).fes.HasDof f) :
    ∃ b, freeVerts np vname L p = some b ∧ ∀ v, b v = true ↔ ¬∃ f < (L p).nFacet, (L p).Diri f ∧ (L p).FarEnd f v := by
  obtain ⟨b, hb, hb2⟩ := diriVerts_spec (L p) h
  unfold freeVerts
  rw [hb]
  refine ⟨_, rfl, fun v => ?_⟩
  beta_reduce
  rw [if_neg (by omega), Bool.not_eq_true', ← Bool.not_eq_true, hb2]

theorem freeEdges_fold (L : Level) (l : List ℕ) (h : ∀ r ∈ l, L.fes.HasDof (L.r2aFacet r)) (b : ℕ → Bool) :
    ∃ b', l.foldlM L.edgeStep b = some b' ∧
      ∀ e, b' e = true ↔ (b e = true ∨ ∃ r ∈ l, L.Diri (L.r2aFacet r) ∧ L.f2e (L.r2aFacet r) = some e) := by
  induction l generalizing b with
  | nil => exact ⟨b, rfl, by simp⟩
  | cons x l ih =>
    have step : ∃ b', L.edgeStep b x = some b' ∧
        ∀ e, b' e = true ↔ (b e = true ∨ (L.Diri (L.r2aFacet x) ∧ L.f2e (L.r2aFacet x) = some e)) := by
      unfold Level.edgeStep Level.Diri
      obtain ⟨c, hc⟩ := FLoop.Space.isFree_total (h x (by simp))
      refine ⟨_, by rw [hc]; rfl, fun e => ?_⟩
      cases c with
      | true => simp [hc]
      | false =>
        cases hf : L.f2e (L.r2aFacet x) with
        | none => simp
        | some e' =>
          by_cases hee : e = e'
          · subst hee
            simp [hc]
          · have hee' : ¬e' = e := fun h => hee h.symm
            simp [hee, hee', hc]
    obtain ⟨b1, h1, h2⟩ := step
    obtain ⟨b', h3, h4⟩ := ih (fun f hf => h f (by simp [hf])) b1
    refine ⟨b', by rw [List.foldlM_cons, h1]; exact h3, fun e => ?_⟩
    rw [h4, h2]
    simp only [List.mem_cons, exists_eq_or_imp]
    tauto

/-- An edge is not free iff it is the edge of a relevant facet with a Dirichlet condition. -/
theorem freeEdges_iff (L : Level) (h : ∀ r < L.nFacetR, L.fes.HasDof (L.r2aFacet r)) :
    ∃ b, L.freeEdges = some b ∧ ∀ e, b e = true ↔ ¬∃ r < L.nFacetR, L.Diri (L.r2aFacet r) ∧ L.f2e (L.r2aFacet r) = some e := by
  obtain ⟨b, h1, h2⟩ := freeEdges_fold L (List.range L.nFacetR) (fun f hf => h f (List.mem_range.1 hf)) fun _ => false
  unfold Level.freeEdges
  rw [h1]
  refine ⟨_, rfl, fun e => ?_⟩
  rw [Bool.not_eq_true', ← Bool.not_eq_true, h2]
  simp

end NgsAMG.FreeN
