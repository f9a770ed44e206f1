import Verif.Model.NCProl
import Verif.Spec.Divergence
import Mathlib.Data.List.Nodup
import Mathlib.Data.List.Perm.Basic

/-!
# Property C101, rows: which step writes which row of the prolongation
-/

namespace NgsAMG.NCProl
open NgsAMG.SparseMM NgsAMG.Spec
variable {K : Type} [Field K] [LinearOrder K] {b : ℕ}

/-- What the meshes, the numbering of the degrees of freedom and the maps between the meshes have to satisfy. -/
structure MeshOK (I : Inp b K) : Prop where
  /-- `f_dof2e` and `f_e2dof` are inverse to each other -/
  dofs : ∀ d e, I.d2e[d]? = some e ↔ I.e2d e = some d
  /-- `fecon` lists the edges at a vertex -/
  ends : ∀ v w e, (w, e) ∈ I.con v → (I.edge e = (v, w) ∧ v < w) ∨ (I.edge e = (w, v) ∧ w < v)
  /-- from both sides -/
  symm : ∀ v w e, (w, e) ∈ I.con v → (v, e) ∈ I.con w
  /-- each once -/
  once : ∀ v, ((I.con v).map Prod.snd).Nodup
  /-- edges of vertices that are not ghosts have degrees of freedom -/
  solid : ∀ v w e, I.ghost v = false → (w, e) ∈ I.con v → (I.e2d e).isSome
  /-- an agglomerate has all vertices that are mapped to some coarse vertex -/
  agg : ∀ a ∈ I.aggs, ∃ cv, ∀ v, v ∈ a ↔ I.vmap v = some cv
  /-- vertices of an agglomerate are listed once -/
  nodup : ∀ a ∈ I.aggs, a.Nodup
  /-- agglomerates do not overlap -/
  disj : I.aggs.Pairwise List.Disjoint
  /-- an edge between agglomerates is mapped to the coarse edge between them -/
  emap : ∀ v w e C D, (w, e) ∈ I.con v → I.vmap v = some C → I.vmap w = some D → C ≠ D → ∃ E, I.emap e = some E ∧ (D, E) ∈ I.ccon C
  /-- other edges are not mapped -/
  emapN : ∀ v w e, (w, e) ∈ I.con v → I.vmap v = none ∨ I.vmap v = I.vmap w → I.emap e = none
  /-- coarse edges come from fine edges -/
  cedge : ∀ C D E, (D, E) ∈ I.ccon C → ∃ v w e, (w, e) ∈ I.con v ∧ I.vmap v = some C ∧ I.emap e = some E
  /-- coarse edges are listed once -/
  conce : ∀ C, ((I.ccon C).map Prod.snd).Nodup
  /-- different coarse edges have different degrees of freedom -/
  cinj : ∀ C x y d, x ∈ I.ccon C → y ∈ I.ccon C → I.ce2d x.2 = some d → I.ce2d y.2 = some d → x.2 = y.2

/-- edge `e` joins two vertices of `a` -/
def Interior (I : Inp b K) (a : List ℕ) (e : ℕ) : Prop := ∃ v w, v ∈ a ∧ w ∈ a ∧ (w, e) ∈ I.con v

theorem setFirst_spec {P Q : List (Row b K)} {d c : ℕ} (h : setFirst P d c = some Q) :
    ∃ a t, P[d]? = some (a :: t) ∧ Q = P.set d ((c, 1) :: t) := by
  unfold setFirst at h
  split at h
  · rename_i a t heq
    exact ⟨a, t, heq, by simpa using h.symm⟩
  · cases h

theorem facetFold (I : Inp b K) : ∀ (l : List (ℕ × ℕ)) (P Q : List (Row b K)), (l.map Prod.snd).Nodup →
    l.foldlM (facetStep I) P = some Q → Q.length = P.length ∧ (∀ d, d ∉ l.map Prod.snd → Q[d]? = P[d]?) ∧
    ∀ x ∈ l, (I.emap x.1 = none → Q[x.2]? = P[x.2]?) ∧
      ∀ E, I.emap x.1 = some E → ∃ c a t, I.ce2d E = some c ∧ P[x.2]? = some (a :: t) ∧ Q[x.2]? = some ((c, 1) :: t) := by
  intro l
  induction l with
  | nil =>
    intro P Q _ h
    obtain rfl : P = Q := by simpa using h
    exact ⟨rfl, fun _ _ => rfl, fun x hx => by simp at hx⟩
  | cons x l ih =>
    intro P Q hn h
    rw [List.map_cons, List.nodup_cons] at hn
    rw [List.foldlM_cons] at h
    obtain ⟨P1, h1, h2⟩ := Option.bind_eq_some_iff.1 h
    obtain ⟨i1, i2, i3⟩ := ih P1 Q hn.2 h2
    have hx : P1.length = P.length ∧ (∀ d, d ≠ x.2 → P1[d]? = P[d]?) ∧ (I.emap x.1 = none → P1[x.2]? = P[x.2]?) ∧
        ∀ E, I.emap x.1 = some E → ∃ c a t, I.ce2d E = some c ∧ P[x.2]? = some (a :: t) ∧ P1[x.2]? = some ((c, 1) :: t) := by
      unfold facetStep at h1
      split at h1
      · rename_i he
        obtain rfl : P = P1 := by simpa using h1
        exact ⟨rfl, fun _ _ => rfl, fun _ => rfl, fun E hE => by rw [he] at hE; cases hE⟩
      · rename_i E he
        split at h1
        · cases h1
        · rename_i c hc
          obtain ⟨a, t, q1, rfl⟩ := setFirst_spec h1
          have hlt : x.2 < P.length := (List.getElem?_eq_some_iff.1 q1).1
          refine ⟨by simp, fun d hd => by rw [List.getElem?_set_ne hd.symm], fun h0 => by simp [he] at h0, fun E' hE' => ?_⟩
          rw [he] at hE'
          cases hE'
          exact ⟨c, a, t, hc, q1, by rw [List.getElem?_set_self hlt]⟩
    obtain ⟨x1, x2, x3, x4⟩ := hx
    refine ⟨i1.trans x1, fun d hd => ?_, fun y hy => ?_⟩
    · rw [List.map_cons, List.mem_cons, not_or] at hd
      rw [i2 d hd.2, x2 d hd.1]
    · rcases List.mem_cons.1 hy with rfl | hy
      · rw [i2 _ hn.1]
        exact ⟨x3, x4⟩
      · have hne : y.2 ≠ x.2 := fun h => hn.1 (h ▸ List.mem_map_of_mem hy)
        obtain ⟨j1, j2⟩ := i3 y hy
        rw [x2 _ hne] at j1 j2
        exact ⟨j1, j2⟩

theorem zipIdx_snd {α : Type} (l : List α) : (l.zipIdx.map Prod.snd).Nodup := by
  rw [List.zipIdx_map_snd]
  exact List.nodup_range'

theorem mem_zipIdx0 {α : Type} {l : List α} {d : ℕ} {e : α} (h : l[d]? = some e) : (e, d) ∈ l.zipIdx := by
  rw [List.mem_zipIdx_iff_getElem?]
  exact h

theorem alloc_rows {I : Inp b K} {P : List (Row b K)} (h : alloc I = some P) : P.length = I.d2e.length ∧
    ∀ d e : ℕ, I.d2e[d]? = some e → ∃ n, perow I e = some n ∧ P[d]? = some (List.replicate n I.junk) := by
  unfold alloc at h
  generalize I.d2e = l at h ⊢
  induction l generalizing P with
  | nil =>
    obtain rfl : [] = P := by simpa using h
    exact ⟨rfl, fun d e hd => by simp at hd⟩
  | cons x l ih =>
    rw [List.mapM_cons] at h
    obtain ⟨r, h1, h2⟩ := Option.bind_eq_some_iff.1 h
    obtain ⟨t, h3, h4⟩ := Option.bind_eq_some_iff.1 h2
    obtain rfl : r :: t = P := by simpa using h4
    obtain ⟨i1, i2⟩ := ih h3
    refine ⟨by simp [i1], fun d e hd => ?_⟩
    cases d with
    | zero =>
      obtain rfl : x = e := by simpa using hd
      obtain ⟨n, q1, q2⟩ := Option.map_eq_some_iff.1 h1
      exact ⟨n, q1, by simp [q2]⟩
    | succ d => exact i2 d e (by simpa using hd)

/-- the row of edge `e` after the facets have been filled -/
def RowOf (I : Inp b K) (e : ℕ) (r : Row b K) : Prop :=
  (∀ E, I.emap e = some E → ∃ c, I.ce2d E = some c ∧ r = [(c, 1)]) ∧
  (I.emap e = none → ∃ n, perow I e = some n ∧ r = List.replicate n I.junk)

theorem filled_rows {I : Inp b K} {P0 P : List (Row b K)} (h0 : alloc I = some P0) (h : fillFacets I P0 = some P) :
    P.length = I.d2e.length ∧ ∀ d e : ℕ, I.d2e[d]? = some e → ∃ r, P[d]? = some r ∧ RowOf I e r := by
  obtain ⟨a1, a2⟩ := alloc_rows h0
  obtain ⟨f1, _, f3⟩ := facetFold I _ _ _ (zipIdx_snd _) h
  refine ⟨f1.trans a1, fun d e hd => ?_⟩
  obtain ⟨n, hn, hr⟩ := a2 d e hd
  obtain ⟨g1, g2⟩ := f3 (e, d) (mem_zipIdx0 hd)
  cases he : I.emap e with
  | none =>
    refine ⟨_, (g1 he).trans hr, fun E hE => ?_, fun _ => ⟨n, hn, rfl⟩⟩
    rw [he] at hE
    cases hE
  | some E =>
    obtain ⟨c, a, t, q1, q2, q3⟩ := g2 E he
    dsimp only at q2 q3
    rw [hr] at q2
    have q2 := Option.some.inj q2
    have ht : t = [] := by
      have hl := congrArg List.length q2
      rw [List.length_replicate, List.length_cons] at hl
      unfold perow at hn
      rw [he] at hn
      split at hn
      · have := Option.some.inj hn
        omega
      · have := Option.some.inj hn
        exact List.length_eq_zero_iff.1 (by omega)
    subst ht
    refine ⟨_, q3, fun E' hE' => ?_, fun hE' => ?_⟩
    · rw [he] at hE'
      cases hE'
      exact ⟨c, q1, rfl⟩
    · rw [he] at hE'
      cases hE'

/-! ### rows written for an agglomerate -/

theorem mem_facets {I : Inp b K} {a : List ℕ} {cv e : ℕ} {f : Bool} : (e, f) ∈ facets I a cv ↔
    ∃ v w, v ∈ a ∧ (w, e) ∈ I.con v ∧ ((I.vmap w = some cv ∧ v < w ∧ f = a.contains w) ∨ (I.vmap w ≠ some cv ∧ f = false)) := by
  unfold facets
  simp only [List.mem_flatMap, List.mem_filterMap, Prod.exists]
  constructor
  · rintro ⟨v, hv, w, e', hc, h⟩
    refine ⟨v, w, hv, ?_⟩
    by_cases h1 : I.vmap w = some cv
    · rw [if_pos h1] at h
      by_cases h2 : v < w
      · rw [if_pos h2] at h
        cases h
        exact ⟨hc, Or.inl ⟨h1, h2, rfl⟩⟩
      · rw [if_neg h2] at h
        cases h
    · rw [if_neg h1] at h
      cases h
      exact ⟨hc, Or.inr ⟨h1, rfl⟩⟩
  · rintro ⟨v, w, hv, hc, h⟩
    refine ⟨v, hv, w, e, hc, ?_⟩
    rcases h with ⟨h1, h2, rfl⟩ | ⟨h1, rfl⟩
    · rw [if_pos h1, if_pos h2]
    · rw [if_neg h1]

theorem interior_of_facet {I : Inp b K} {a : List ℕ} {cv e : ℕ} (h : (e, true) ∈ facets I a cv) : Interior I a e := by
  obtain ⟨v, w, hv, hc, h | h⟩ := mem_facets.1 h
  · exact ⟨v, w, hv, by simpa using h.2.2.symm, hc⟩
  · simp at h

theorem facet_of_interior {I : Inp b K} (hI : MeshOK I) {a : List ℕ} {cv e : ℕ} (ha : ∀ v, v ∈ a ↔ I.vmap v = some cv)
    (h : Interior I a e) : (e, true) ∈ facets I a cv := by
  obtain ⟨v, w, hv, hw, hc⟩ := h
  rcases hI.ends v w e hc with h | h
  · exact mem_facets.2 ⟨v, w, hv, hc, Or.inl ⟨(ha w).1 hw, h.2, by simpa using hw⟩⟩
  · exact mem_facets.2 ⟨w, v, hw, hI.symm v w e hc, Or.inl ⟨(ha v).1 hv, h.2, by simpa using hv⟩⟩

theorem facets_nodup {I : Inp b K} (hI : MeshOK I) {a : List ℕ} {cv : ℕ} (hn : a.Nodup) (ha : ∀ v, v ∈ a ↔ I.vmap v = some cv) :
    ((facets I a cv).map Prod.fst).Nodup := by
  have h : ∀ v, ((((I.con v).filterMap fun x =>
      if I.vmap x.1 = some cv then (if v < x.1 then some (x.2, a.contains x.1) else none) else some (x.2, false)).map Prod.fst).Sublist
      ((I.con v).map Prod.snd)) := by
    intro v
    induction I.con v with
    | nil => exact List.Sublist.refl _
    | cons x l ih =>
      rw [List.filterMap_cons]
      by_cases h1 : I.vmap x.1 = some cv
      · by_cases h2 : v < x.1
        · simp only [if_pos h1, if_pos h2, List.map_cons]
          exact ih.cons_cons _
        · simp only [if_pos h1, if_neg h2, List.map_cons]
          exact ih.cons _
      · simp only [if_neg h1, List.map_cons]
        exact ih.cons_cons _
  unfold facets
  rw [List.map_flatMap, List.nodup_flatMap]
  refine ⟨fun v _ => (hI.once v).sublist (h v), ?_⟩
  rw [List.pairwise_iff_getElem]
  intro i j hi hj hij e he1 he2
  have hne : a[i] ≠ a[j] := fun h => absurd ((List.Nodup.getElem_inj_iff hn).1 h) (by omega)
  have hex : ∀ v ∈ a, e ∈ ((I.con v).filterMap fun x =>
      if I.vmap x.1 = some cv then (if v < x.1 then some (x.2, a.contains x.1) else none) else some (x.2, false)).map Prod.fst →
      ∃ w, (w, e) ∈ I.con v ∧ (w ∈ a → v < w) := by
    intro v hv h
    obtain ⟨⟨e', f⟩, h1, rfl⟩ := List.mem_map.1 h
    obtain ⟨⟨w, e2⟩, h2, h3⟩ := List.mem_filterMap.1 h1
    by_cases q1 : I.vmap w = some cv
    · by_cases q2 : v < w
      · simp only [if_pos q1, if_pos q2] at h3
        cases h3
        exact ⟨w, h2, fun _ => q2⟩
      · simp only [if_pos q1, if_neg q2] at h3
        cases h3
    · simp only [if_neg q1] at h3
      cases h3
      exact ⟨w, h2, fun hw => absurd ((ha w).1 hw) q1⟩
  obtain ⟨w1, c1, l1⟩ := hex _ (List.getElem_mem hi) he1
  obtain ⟨w2, c2, l2⟩ := hex _ (List.getElem_mem hj) he2
  have m1 := List.getElem_mem hi
  have m2 := List.getElem_mem hj
  rcases hI.ends _ _ _ c1 with p | p <;> rcases hI.ends _ _ _ c2 with q | q <;>
    · have hh := p.1.symm.trans q.1
      simp only [Prod.mk.injEq] at hh
      first
        | exact hne hh.1
        | exact hne hh.2
        | (have e1 := hh.1; have e2 := hh.2; have := l1 (by rw [e2]; exact m2); have := l2 (by rw [← e1]; exact m1); omega)
        | (have e1 := hh.1; have e2 := hh.2; have := l1 (by rw [e1]; exact m2); have := l2 (by rw [← e2]; exact m1); omega)

theorem mem_ffacets {fs : List (ℕ × Bool)} {e : ℕ} : e ∈ ffacets fs ↔ e ∈ fs.map Prod.fst := by
  unfold ffacets
  exact List.mem_insertionSort _

theorem ffacets_nodup {fs : List (ℕ × Bool)} (h : (fs.map Prod.fst).Nodup) : (ffacets fs).Nodup :=
  (List.perm_insertionSort _ _).symm.nodup h

theorem getD_idxOf {l : List ℕ} {e : ℕ} (h : e ∈ l) : l.getD (l.idxOf e) 0 = e := by
  have := List.idxOf_lt_length_of_mem h
  rw [List.getD_eq_getElem?_getD, List.getElem?_eq_getElem this, Option.getD_some, List.getElem_idxOf]

/-- the edges of the interior positions -/
theorem ffi_edges {fs : List (ℕ × Bool)} {k : Fin (ffiinds fs).length} :
    ((ffacets fs).getD ((ffiinds fs)[k]) 0, true) ∈ fs := by
  have h : (ffiinds fs)[k] ∈ ffiinds fs := List.getElem_mem _
  unfold ffiinds at h
  rw [List.mem_insertionSort, List.mem_map] at h
  obtain ⟨x, hx, hk⟩ := h
  rw [List.mem_filter] at hx
  have he : x.1 ∈ ffacets fs := mem_ffacets.2 (List.mem_map_of_mem hx.1)
  unfold ffiinds
  rw [← hk, getD_idxOf he]
  have : x = (x.1, true) := Prod.ext rfl (by simpa using hx.2)
  rw [← this]
  exact hx.1

theorem exists_ffi {fs : List (ℕ × Bool)} {e : ℕ} (h : (e, true) ∈ fs) :
    ∃ k : Fin (ffiinds fs).length, (ffiinds fs)[k] = (ffacets fs).idxOf e := by
  have hm : (ffacets fs).idxOf e ∈ ffiinds fs := by
    unfold ffiinds
    rw [List.mem_insertionSort]
    exact List.mem_map.2 ⟨(e, true), List.mem_filter.2 ⟨h, rfl⟩, rfl⟩
  obtain ⟨i, hi, he⟩ := List.getElem_of_mem hm
  exact ⟨⟨i, hi⟩, he⟩

theorem ffiinds_nodup {fs : List (ℕ × Bool)} (h : (fs.map Prod.fst).Nodup) : (ffiinds fs).Nodup := by
  unfold ffiinds
  refine (List.perm_insertionSort _ _).symm.nodup ?_
  have h1 : ((fs.filter fun x => x.2).map Prod.fst).Nodup := h.sublist ((List.filter_sublist).map _)
  rw [show (fun x : ℕ × Bool => (ffacets fs).idxOf x.1) = (fun e => (ffacets fs).idxOf e) ∘ Prod.fst from rfl, ← List.map_map]
  refine h1.map_on fun x hx y hy hxy => ?_
  have hm : ∀ z ∈ (fs.filter fun x => x.2).map Prod.fst, z ∈ ffacets fs := fun z hz =>
    mem_ffacets.2 ((List.filter_sublist.map Prod.fst).subset hz)
  exact (List.idxOf_inj (hm x hx)).1 hxy

theorem writeRow_spec {I : Inp b K} {cv e : ℕ} {P Q : List (Row b K)} {X : Fin (I.ccon cv).length → Mt b b K} (h : writeRow I cv P e X = some Q) :
    ∃ d, I.e2d e = some d ∧ d < P.length ∧ Q = P.set d (extRow I cv X) := by
  unfold writeRow at h
  split at h
  · cases h
  · rename_i d hd
    split at h
    · rename_i r hr
      split at h
      · exact ⟨d, hd, (List.getElem?_eq_some_iff.1 hr).1, (Option.some.inj h).symm⟩
      · cases h
    · cases h

theorem writeFold {I : Inp b K} {cv : ℕ} {n : ℕ} (ed : Fin n → ℕ) (X : Fin n → Fin (I.ccon cv).length → Mt b b K)
    (hinj : ∀ i j d, I.e2d (ed i) = some d → I.e2d (ed j) = some d → i = j) :
    ∀ (l : List (Fin n)) (P Q : List (Row b K)), l.Nodup → l.foldlM (fun Q k => writeRow I cv Q (ed k) (X k)) P = some Q →
    Q.length = P.length ∧ (∀ d, (∀ k ∈ l, I.e2d (ed k) ≠ some d) → Q[d]? = P[d]?) ∧
    ∀ k ∈ l, ∃ d, I.e2d (ed k) = some d ∧ Q[d]? = some (extRow I cv (X k)) := by
  intro l
  induction l with
  | nil =>
    intro P Q _ h
    obtain rfl : P = Q := by simpa using h
    exact ⟨rfl, fun _ _ => rfl, fun x hx => by simp at hx⟩
  | cons k l ih =>
    intro P Q hn h
    rw [List.nodup_cons] at hn
    rw [List.foldlM_cons] at h
    obtain ⟨P1, h1, h2⟩ := Option.bind_eq_some_iff.1 h
    obtain ⟨i1, i2, i3⟩ := ih P1 Q hn.2 h2
    obtain ⟨d, d1, d2, rfl⟩ := writeRow_spec h1
    refine ⟨by rw [i1, List.length_set], fun d' hd' => ?_, fun j hj => ?_⟩
    · rw [i2 d' fun q hq => hd' q (List.mem_cons_of_mem _ hq), List.getElem?_set_ne]
      rintro rfl
      exact hd' k List.mem_cons_self d1
    · rcases List.mem_cons.1 hj with rfl | hj
      · refine ⟨d, d1, ?_⟩
        rw [i2 d, List.getElem?_set_self d2]
        intro q hq hqd
        exact hn.1 (hinj _ _ d d1 hqd ▸ hq)
      · exact i3 j hj

theorem e2d_inj {I : Inp b K} (hI : MeshOK I) {e e' d : ℕ} (h : I.e2d e = some d) (h' : I.e2d e' = some d) : e = e' := by
  have := (hI.dofs d e).2 h
  have h2 := (hI.dofs d e').2 h'
  rw [this] at h2
  exact Option.some.inj h2

theorem solveAgg_rows {I : Inp b K} (hI : MeshOK I) {P Q : List (Row b K)} {a : List ℕ} {fs : List (ℕ × Bool)} {cv : ℕ}
    (hn : (fs.map Prod.fst).Nodup) (h : solveAgg I P a fs cv = some Q) :
    okIdx I P a fs cv = true ∧ IsUnit (matM I a fs).det ∧ Q.length = P.length ∧
    (∀ d, (∀ e, (e, true) ∈ fs → I.e2d e ≠ some d) → Q[d]? = P[d]?) ∧
    ∀ k : Fin (ffiinds fs).length, ∃ d, I.e2d ((ffacets fs).getD ((ffiinds fs)[k]) 0) = some d ∧
      Q[d]? = some (extRow I cv fun j l m => pext I P a fs cv (.inl (k, l)) (j, m)) := by
  unfold solveAgg at h
  split at h
  · cases h
  · rename_i hok
    split at h
    · rename_i hu
      obtain ⟨q1, q2, q3⟩ := writeFold (I := I) (cv := cv) (fun k => (ffacets fs).getD ((ffiinds fs)[k]) 0)
        (fun k j => fun l m => pext I P a fs cv (.inl (k, l)) (j, m)) (fun i j d hi hj => by
          have he := e2d_inj hI hi hj
          have m : ∀ k : Fin (ffiinds fs).length, (ffiinds fs)[k] < (ffacets fs).length := by
            intro k
            have hk : (ffiinds fs)[k] ∈ ffiinds fs := List.getElem_mem _
            unfold ffiinds at hk
            rw [List.mem_insertionSort, List.mem_map] at hk
            obtain ⟨x, hx, hk⟩ := hk
            have hx' : x.1 ∈ ffacets fs := mem_ffacets.2 (List.mem_map_of_mem (List.mem_filter.1 hx).1)
            have := List.idxOf_lt_length_of_mem hx'
            unfold ffiinds
            omega
          have e1 : (ffacets fs).getD ((ffiinds fs)[i]) 0 = (ffacets fs)[(ffiinds fs)[i]]'(m i) := by
            rw [List.getD_eq_getElem?_getD, List.getElem?_eq_getElem (m i), Option.getD_some]
          have e2 : (ffacets fs).getD ((ffiinds fs)[j]) 0 = (ffacets fs)[(ffiinds fs)[j]]'(m j) := by
            rw [List.getD_eq_getElem?_getD, List.getElem?_eq_getElem (m j), Option.getD_some]
          rw [e1, e2] at he
          have h3 := (List.Nodup.getElem_inj_iff (ffacets_nodup hn)).1 he
          exact Fin.ext ((List.Nodup.getElem_inj_iff (ffiinds_nodup hn)).1 h3))
        (List.finRange _) P Q (List.nodup_finRange _) h
      refine ⟨by simpa using hok, hu, q1, fun d hd => q2 d fun k _ => hd _ ffi_edges, fun k => q3 k (List.mem_finRange k)⟩
    · cases h

theorem aggStep_frame {I : Inp b K} (hI : MeshOK I) {P Q : List (Row b K)} {a : List ℕ} (ha : a ∈ I.aggs) (h : aggStep I P a = some Q) :
    Q.length = P.length ∧ ∀ d, (∀ e, Interior I a e → I.e2d e ≠ some d) → Q[d]? = P[d]? := by
  obtain ⟨cv, hcv⟩ := hI.agg a ha
  have hn := hI.nodup a ha
  unfold aggStep at h
  split at h
  · cases h
    exact ⟨rfl, fun _ _ => rfl⟩
  · rename_i v0 t
    split at h
    · cases h
      exact ⟨rfl, fun _ _ => rfl⟩
    · split at h
      · cases h
        exact ⟨rfl, fun _ _ => rfl⟩
      · rw [(hcv v0).1 List.mem_cons_self] at h
        dsimp only at h
        split at h
        · cases h
          exact ⟨rfl, fun _ _ => rfl⟩
        · split at h
          · cases h
            exact ⟨rfl, fun _ _ => rfl⟩
          · obtain ⟨_, _, q1, q2, _⟩ := solveAgg_rows hI (facets_nodup hI hn hcv) h
            exact ⟨q1, fun d hd => q2 d fun e he => hd e (interior_of_facet he)⟩

theorem fold_frame {I : Inp b K} (hI : MeshOK I) : ∀ (l : List (List ℕ)) (P Q : List (Row b K)), (∀ a ∈ l, a ∈ I.aggs) →
    l.foldlM (aggStep I) P = some Q → Q.length = P.length ∧ ∀ d, (∀ a ∈ l, ∀ e, Interior I a e → I.e2d e ≠ some d) → Q[d]? = P[d]? := by
  intro l
  induction l with
  | nil =>
    intro P Q _ h
    obtain rfl : P = Q := by simpa using h
    exact ⟨rfl, fun _ _ => rfl⟩
  | cons a l ih =>
    intro P Q hl h
    rw [List.foldlM_cons] at h
    obtain ⟨P1, h1, h2⟩ := Option.bind_eq_some_iff.1 h
    obtain ⟨i1, i2⟩ := ih P1 Q (fun x hx => hl x (List.mem_cons_of_mem _ hx)) h2
    obtain ⟨j1, j2⟩ := aggStep_frame hI (hl a List.mem_cons_self) h1
    exact ⟨i1.trans j1, fun d hd => (i2 d fun x hx => hd x (List.mem_cons_of_mem _ hx)).trans (j2 d (hd a List.mem_cons_self))⟩

theorem interior_unique {I : Inp b K} (hI : MeshOK I) {a a' : List ℕ} {e : ℕ} (h : Interior I a e) (h' : Interior I a' e) :
    ∃ v, v ∈ a ∧ v ∈ a' := by
  obtain ⟨v, w, hv, hw, hc⟩ := h
  obtain ⟨v', w', hv', hw', hc'⟩ := h'
  rcases hI.ends _ _ _ hc with p | p <;> rcases hI.ends _ _ _ hc' with q | q <;>
    · have hh := p.1.symm.trans q.1
      simp only [Prod.mk.injEq] at hh
      first
        | exact ⟨v, hv, hh.1 ▸ hv'⟩
        | exact ⟨v, hv, hh.1 ▸ hw'⟩
        | exact ⟨w, hw, hh.1 ▸ hv'⟩
        | exact ⟨w, hw, hh.1 ▸ hw'⟩

/-- the steps before, at and behind agglomerate `a` -/
theorem prol_split {I : Inp b K} (hI : MeshOK I) {P : List (Row b K)} (hP : prol I = some P) {a : List ℕ} (ha : a ∈ I.aggs) :
    ∃ Q Q', aggStep I Q a = some Q' ∧ Q.length = I.d2e.length ∧ P.length = I.d2e.length ∧
      (∀ e d, I.e2d e = some d → (∀ a' ∈ I.aggs, ¬ Interior I a' e) →
        ∃ r, P[d]? = some r ∧ Q[d]? = some r ∧ RowOf I e r) ∧
      (∀ e d, I.e2d e = some d → Interior I a e → P[d]? = Q'[d]? ∧ ∃ r, Q[d]? = some r ∧ RowOf I e r) := by
  unfold prol at hP
  obtain ⟨P0, h0, hP⟩ := Option.bind_eq_some_iff.1 hP
  obtain ⟨P1, h1, hP⟩ := Option.bind_eq_some_iff.1 hP
  obtain ⟨f1, f2⟩ := filled_rows h0 h1
  obtain ⟨l1, l2, hl⟩ := List.append_of_mem ha
  rw [hl, List.foldlM_append] at hP
  obtain ⟨Q, g1, hP⟩ := Option.bind_eq_some_iff.1 hP
  rw [List.foldlM_cons] at hP
  obtain ⟨Q', g2, g3⟩ := Option.bind_eq_some_iff.1 hP
  have m1 : ∀ x ∈ l1, x ∈ I.aggs := fun x hx => by rw [hl]; exact List.mem_append_left _ hx
  have m2 : ∀ x ∈ l2, x ∈ I.aggs := fun x hx => by rw [hl]; exact List.mem_append_right _ (List.mem_cons_of_mem _ hx)
  obtain ⟨a1, a2⟩ := fold_frame hI l1 _ _ m1 g1
  obtain ⟨b1, b2⟩ := aggStep_frame hI ha g2
  obtain ⟨c1, c2⟩ := fold_frame hI l2 _ _ m2 g3
  refine ⟨Q, Q', g2, a1.trans f1, c1.trans (b1.trans (a1.trans f1)), ?_, ?_⟩
  · intro e d hd hno
    obtain ⟨r, r1, r2⟩ := f2 d e ((hI.dofs d e).2 hd)
    have hfr : ∀ a' ∈ I.aggs, ∀ e', Interior I a' e' → I.e2d e' ≠ some d := by
      intro a' ha' e' hi he'
      rw [e2d_inj hI he' hd] at hi
      exact hno a' ha' hi
    have q : Q[d]? = some r := (a2 d fun x hx => hfr x (m1 x hx)).trans r1
    exact ⟨r, (c2 d fun x hx => hfr x (m2 x hx)).trans ((b2 d (hfr a ha)).trans q), q, r2⟩
  · intro e d hd hi
    obtain ⟨r, r1, r2⟩ := f2 d e ((hI.dofs d e).2 hd)
    have hd' := hI.disj
    rw [hl, List.pairwise_append, List.pairwise_cons] at hd'
    refine ⟨c2 d fun x hx e' hi' he' => ?_, r, (a2 d fun x hx e' hi' he' => ?_).trans r1, r2⟩
    · rw [e2d_inj hI he' hd] at hi'
      obtain ⟨v, h1, h2⟩ := interior_unique hI hi hi'
      exact hd'.2.1.1 x hx h1 h2
    · rw [e2d_inj hI he' hd] at hi'
      obtain ⟨v, h1, h2⟩ := interior_unique hI hi hi'
      exact hd'.2.2 x hx a List.mem_cons_self h2 h1

end NgsAMG.NCProl
