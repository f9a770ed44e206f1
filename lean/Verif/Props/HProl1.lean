import Verif.Model.HProl
import Mathlib.Data.List.Nodup
import Mathlib.Algebra.BigOperators.Group.Finset.Basic

/-!
# Property C103: edges of agglomerates, and which rows are written
-/

namespace NgsAMG.HProl
variable {K : Type} [Field K] [LinearOrder K]

/-- fine and coarse mesh fit together -/
structure MeshOK (I : Inp K) : Prop where
  /-- `fECon` lists the edges at a vertex -/
  ends : ∀ v w e, (w, e) ∈ I.con v → (I.edge e = (v, w) ∨ I.edge e = (w, v)) ∧ v ≠ w
  /-- from both sides -/
  symm : ∀ v w e, (w, e) ∈ I.con v → (v, e) ∈ I.con w
  /-- each once -/
  once : ∀ v, ((I.con v).map Prod.snd).Nodup
  range : ∀ v w e, (w, e) ∈ I.con v → v < I.nV ∧ e < I.nE
  /-- all of them -/
  all : ∀ e < I.nE, ((I.edge e).2, e) ∈ I.con (I.edge e).1
  /-- an edge between agglomerates is mapped to the coarse edge between them -/
  emap : ∀ v w e C D, (w, e) ∈ I.con v → I.vmap v = some C → I.vmap w = some D → C ≠ D → ∃ E, I.emap e = some E ∧ (D, E) ∈ I.ccon C
  /-- other edges are not mapped -/
  emapN : ∀ v w e, (w, e) ∈ I.con v → I.vmap v = none ∨ I.vmap v = I.vmap w → I.emap e = none
  /-- `cecon` lists the coarse edges at a coarse vertex -/
  cends : ∀ C D E, (D, E) ∈ I.ccon C → (I.cedge E = (C, D) ∨ I.cedge E = (D, C)) ∧ C ≠ D
  /-- each once -/
  conce : ∀ C, ((I.ccon C).map Prod.snd).Nodup
  /-- coarse edges come from fine edges -/
  cfrom : ∀ C D E, (D, E) ∈ I.ccon C → E ∈ I.ces ∧ ∃ e < I.nE, I.emap e = some E
  cvs : I.cvs.Nodup
  ces : I.ces.Nodup

/-- edge `e` joins two vertices of the agglomerate of `C` -/
def Interior (I : Inp K) (C e : ℕ) : Prop := ∃ v w, v ∈ I.agg C ∧ w ∈ I.agg C ∧ (w, e) ∈ I.con v

/-- edge `e` joins a vertex of the agglomerate of `C` to a vertex outside -/
def Exterior (I : Inp K) (C e : ℕ) : Prop := ∃ v w, v ∈ I.agg C ∧ w ∉ I.agg C ∧ (w, e) ∈ I.con v

theorem mem_c2f {map : ℕ → Option ℕ} {n C k : ℕ} : k ∈ c2f map n C ↔ k < n ∧ map k = some C := by simp [c2f]

theorem c2f_nodup (map : ℕ → Option ℕ) (n C : ℕ) : (c2f map n C).Nodup := List.nodup_range.filter _

theorem mem_agg {I : Inp K} (hI : MeshOK I) {C v w e : ℕ} (h : (w, e) ∈ I.con v) : v ∈ I.agg C ↔ I.vmap v = some C :=
  ⟨fun hv => (mem_c2f.1 hv).2, fun hv => mem_c2f.2 ⟨(hI.range _ _ _ h).1, hv⟩⟩

theorem mem_agg' {I : Inp K} (hI : MeshOK I) {C v w e : ℕ} (h : (w, e) ∈ I.con v) : w ∈ I.agg C ↔ I.vmap w = some C := mem_agg hI (hI.symm _ _ _ h)

theorem agg_map {I : Inp K} {C v : ℕ} (h : v ∈ I.agg C) : I.vmap v = some C := (mem_c2f.1 h).2

theorem flatMap_congr_left {α β : Type} {l : List α} {f g : α → List β} (h : ∀ x ∈ l, f x = g x) : l.flatMap f = l.flatMap g := by
  induction l with
  | nil => rfl
  | cons a l ih => rw [List.flatMap_cons, List.flatMap_cons, h a (by simp), ih fun x hx => h x (by simp [hx])]

theorem facets_eq (I : Inp K) (C : ℕ) : facets I (I.agg C) = (I.agg C).flatMap fun vk => (I.con vk).filterMap fun x =>
    if I.vmap x.1 = some C then (if vk < x.1 then some (x.2, (I.agg C).contains x.1) else none) else some (x.2, false) := by
  unfold facets
  refine flatMap_congr_left fun v hv => ?_
  rw [agg_map hv]

theorem mem_facets {I : Inp K} {C e : ℕ} {f : Bool} : (e, f) ∈ facets I (I.agg C) ↔
    ∃ v ∈ I.agg C, ∃ w, (w, e) ∈ I.con v ∧ ((I.vmap w = some C ∧ v < w ∧ f = (I.agg C).contains w) ∨ (I.vmap w ≠ some C ∧ f = false)) := by
  rw [facets_eq, List.mem_flatMap]
  refine exists_congr fun v => and_congr_right fun _ => ?_
  rw [List.mem_filterMap]
  constructor
  · rintro ⟨⟨w, e'⟩, h1, h2⟩
    by_cases q1 : I.vmap w = some C
    · by_cases q2 : v < w
      · simp only [if_pos q1, if_pos q2] at h2
        cases h2
        exact ⟨w, h1, Or.inl ⟨q1, q2, rfl⟩⟩
      · simp only [if_pos q1, if_neg q2] at h2
        cases h2
    · simp only [if_neg q1] at h2
      cases h2
      exact ⟨w, h1, Or.inr ⟨q1, rfl⟩⟩
  · rintro ⟨w, h1, ⟨q1, q2, rfl⟩ | ⟨q1, rfl⟩⟩
    · exact ⟨(w, e), h1, by simp only [if_pos q1, if_pos q2]⟩
    · exact ⟨(w, e), h1, by simp only [if_neg q1]⟩

theorem mem_edgesI {I : Inp K} (hI : MeshOK I) {C e : ℕ} : e ∈ edgesI I (I.agg C) ↔ Interior I C e := by
  unfold edgesI
  rw [List.mem_insertionSort, List.mem_map]
  constructor
  · rintro ⟨⟨e', f⟩, h1, rfl⟩
    obtain ⟨h1, h2⟩ := List.mem_filter.1 h1
    obtain ⟨v, hv, w, hc, ⟨q1, q2, q3⟩ | ⟨_, q3⟩⟩ := mem_facets.1 h1
    · exact ⟨v, w, hv, (mem_agg' hI hc).2 q1, hc⟩
    · subst q3
      cases h2
  · rintro ⟨v, w, hv, hw, hc⟩
    refine ⟨(e, true), List.mem_filter.2 ⟨mem_facets.2 ?_, rfl⟩, rfl⟩
    rcases Nat.lt_or_gt_of_ne (hI.ends _ _ _ hc).2 with h | h
    · exact ⟨v, hv, w, hc, Or.inl ⟨agg_map hw, h, by simpa using hw⟩⟩
    · exact ⟨w, hw, v, hI.symm _ _ _ hc, Or.inl ⟨agg_map hv, h, by simpa using hv⟩⟩

theorem mem_edgesF {I : Inp K} (hI : MeshOK I) {C e : ℕ} : e ∈ edgesF I (I.agg C) ↔ Exterior I C e := by
  unfold edgesF
  rw [List.mem_insertionSort, List.mem_map]
  constructor
  · rintro ⟨⟨e', f⟩, h1, rfl⟩
    obtain ⟨h1, h2⟩ := List.mem_filter.1 h1
    obtain ⟨v, hv, w, hc, ⟨q1, q2, q3⟩ | ⟨q1, q3⟩⟩ := mem_facets.1 h1
    · have : (I.agg C).contains w = true := by simpa using (mem_agg' hI hc).2 q1
      rw [this] at q3
      subst q3
      cases h2
    · exact ⟨v, w, hv, fun h => q1 (agg_map h), hc⟩
  · rintro ⟨v, w, hv, hw, hc⟩
    exact ⟨(e, false), List.mem_filter.2 ⟨mem_facets.2 ⟨v, hv, w, hc, Or.inr ⟨fun h => hw ((mem_agg' hI hc).2 h), rfl⟩⟩, rfl⟩, rfl⟩

theorem facets_nodup {I : Inp K} (hI : MeshOK I) (C : ℕ) : ((facets I (I.agg C)).map Prod.fst).Nodup := by
  have h : ∀ v, ((((I.con v).filterMap fun x =>
      if I.vmap x.1 = some C then (if v < x.1 then some (x.2, (I.agg C).contains x.1) else none) else some (x.2, false)).map Prod.fst).Sublist
      ((I.con v).map Prod.snd)) := by
    intro v
    induction I.con v with
    | nil => exact List.Sublist.refl _
    | cons x l ih =>
      rw [List.filterMap_cons]
      by_cases h1 : I.vmap x.1 = some C
      · by_cases h2 : v < x.1
        · simp only [if_pos h1, if_pos h2, List.map_cons]
          exact ih.cons_cons _
        · simp only [if_pos h1, if_neg h2, List.map_cons]
          exact ih.cons _
      · simp only [if_neg h1, List.map_cons]
        exact ih.cons_cons _
  rw [facets_eq, List.map_flatMap, List.nodup_flatMap]
  refine ⟨fun v _ => (hI.once v).sublist (h v), ?_⟩
  rw [List.pairwise_iff_getElem]
  intro i j hi hj hij e he1 he2
  have hne : (I.agg C)[i] ≠ (I.agg C)[j] := fun h => absurd ((List.Nodup.getElem_inj_iff (c2f_nodup _ _ _)).1 h) (by omega)
  have hex : ∀ v ∈ I.agg C, e ∈ ((I.con v).filterMap fun x =>
      if I.vmap x.1 = some C then (if v < x.1 then some (x.2, (I.agg C).contains x.1) else none) else some (x.2, false)).map Prod.fst →
      ∃ w, (w, e) ∈ I.con v ∧ (w ∈ I.agg C → v < w) := by
    intro v hv h
    obtain ⟨⟨e', f⟩, h1, rfl⟩ := List.mem_map.1 h
    obtain ⟨⟨w, e2⟩, h2, h3⟩ := List.mem_filterMap.1 h1
    by_cases q1 : I.vmap w = some C
    · by_cases q2 : v < w
      · simp only [if_pos q1, if_pos q2] at h3
        cases h3
        exact ⟨w, h2, fun _ => q2⟩
      · simp only [if_pos q1, if_neg q2] at h3
        cases h3
    · simp only [if_neg q1] at h3
      cases h3
      exact ⟨w, h2, fun hw => absurd (agg_map hw) q1⟩
  obtain ⟨w1, c1, l1⟩ := hex _ (List.getElem_mem hi) he1
  obtain ⟨w2, c2, l2⟩ := hex _ (List.getElem_mem hj) he2
  have m1 := List.getElem_mem hi
  have m2 := List.getElem_mem hj
  rcases (hI.ends _ _ _ c1).1 with p | p <;> rcases (hI.ends _ _ _ c2).1 with q | q <;>
    · have hh := p.symm.trans q
      simp only [Prod.mk.injEq] at hh
      first
        | exact hne hh.1
        | exact hne hh.2
        | (have e1 := hh.1; have e2 := hh.2; have := l1 (by rw [e2]; exact m2); have := l2 (by rw [← e1]; exact m1); omega)
        | (have e1 := hh.1; have e2 := hh.2; have := l1 (by rw [e1]; exact m2); have := l2 (by rw [← e2]; exact m1); omega)

theorem edgesI_nodup {I : Inp K} (hI : MeshOK I) (C : ℕ) : (edgesI I (I.agg C)).Nodup :=
  ((List.perm_insertionSort (· ≤ ·) _).nodup_iff).2 ((facets_nodup hI C).sublist (List.filter_sublist.map _))

theorem edgesF_nodup {I : Inp K} (hI : MeshOK I) (C : ℕ) : (edgesF I (I.agg C)).Nodup :=
  ((List.perm_insertionSort (· ≤ ·) _).nodup_iff).2 ((facets_nodup hI C).sublist (List.filter_sublist.map _))

theorem edgesC_nodup {I : Inp K} (hI : MeshOK I) (C : ℕ) : (edgesC I C).Nodup := ((List.perm_insertionSort (· ≤ ·) _).nodup_iff).2 (hI.conce C)

theorem mem_edgesC {I : Inp K} {C E : ℕ} : E ∈ edgesC I C ↔ ∃ D, (D, E) ∈ I.ccon C := by
  unfold edgesC
  rw [List.mem_insertionSort, List.mem_map]
  exact ⟨fun ⟨⟨D, _⟩, h, he⟩ => ⟨D, he ▸ h⟩, fun ⟨D, h⟩ => ⟨(D, E), h, rfl⟩⟩

theorem mem_dofs {nd : ℕ → ℕ} {L : List ℕ} {x : Dof} : x ∈ dofs nd L ↔ x.1 ∈ L ∧ x.2 < nd x.1 := by
  obtain ⟨e, l⟩ := x
  simp [dofs]

theorem dofs_nodup {nd : ℕ → ℕ} {L : List ℕ} (h : L.Nodup) : (dofs nd L).Nodup := by
  unfold dofs
  rw [List.nodup_flatMap]
  refine ⟨fun e _ => List.nodup_range.map fun a b hab => (Prod.mk.inj hab).2, ?_⟩
  refine h.imp fun {a b} hab x hx hy => ?_
  obtain ⟨_, _, rfl⟩ := List.mem_map.1 hx
  obtain ⟨_, _, he⟩ := List.mem_map.1 hy
  exact hab (Prod.mk.inj he).1.symm

/-! ### writing rows -/

theorem writes_spec : ∀ (L : List (Dof × Row K)) (P Q : Mat K), L.foldlM setRow P = some Q → (L.map Prod.fst).Nodup →
    (∀ x, x ∉ L.map Prod.fst → Q x = P x) ∧ ∀ y ∈ L, Q y.1 = y.2 ∧ (P y.1).length = y.2.length := by
  intro L
  induction L with
  | nil => intro P Q h _; cases h; exact ⟨fun _ _ => rfl, by simp⟩
  | cons a L ih =>
    intro P Q h hn
    rw [List.foldlM_cons] at h
    obtain ⟨P1, h1, h2⟩ := Option.bind_eq_some_iff.1 h
    unfold setRow at h1
    split at h1
    · rename_i hlen
      cases h1
      rw [List.map_cons, List.nodup_cons] at hn
      obtain ⟨g1, g2⟩ := ih _ _ h2 hn.2
      refine ⟨?_, ?_⟩
      · intro x hx
        rw [List.map_cons, List.mem_cons, not_or] at hx
        rw [g1 x hx.2, Function.update_of_ne hx.1]
      · intro y hy
        rcases List.mem_cons.1 hy with rfl | hy
        · rw [g1 _ hn.1, Function.update_self]
          exact ⟨rfl, hlen⟩
        · have hne : y.1 ≠ a.1 := fun he => hn.1 (List.mem_map.2 ⟨y, hy, he⟩)
          have := g2 y hy
          rwa [Function.update_of_ne hne] at this
    · cases h1

theorem writes_total : ∀ (L : List (Dof × Row K)) (P : Mat K), (∀ y ∈ L, (P y.1).length = y.2.length) → (L.map Prod.fst).Nodup → ∃ Q, L.foldlM setRow P = some Q := by
  intro L
  induction L with
  | nil => intro P _ _; exact ⟨P, rfl⟩
  | cons a L ih =>
    intro P h hn
    rw [List.map_cons, List.nodup_cons] at hn
    obtain ⟨Q, hQ⟩ := ih (Function.update P a.1 a.2) (fun y hy => by
      have hne : y.1 ≠ a.1 := fun he => hn.1 (List.mem_map.2 ⟨y, hy, he⟩)
      rw [Function.update_of_ne hne]
      exact h y (by simp [hy])) hn.2
    refine ⟨Q, ?_⟩
    rw [List.foldlM_cons]
    unfold setRow
    rw [if_pos (h a (by simp))]
    exact hQ

theorem crossRows_fst (I : Inp K) (E : ℕ) : (crossRows I E).map Prod.fst = dofs I.nd (c2f I.emap I.nE E) := by
  unfold crossRows
  rw [List.map_map]
  exact List.zipIdx_map_fst 0 _

theorem crossRows_nodup (I : Inp K) (E : ℕ) : ((crossRows I E).map Prod.fst).Nodup := by
  rw [crossRows_fst]
  exact dofs_nodup (c2f_nodup _ _ _)

/-- the rows after the loop over the coarse edges -/
theorem cross_spec (I : Inp K) : ∀ (L : List ℕ) (P Q : Mat K), L.foldlM (crossStep I) P = some Q → L.Nodup →
    (∀ x, (∀ E ∈ L, I.emap x.1 ≠ some E) → Q x = P x) ∧
    ∀ E ∈ L, I.cdofed E = true → I.cnd E ≠ 0 ∧ ∀ y ∈ crossRows I E, Q y.1 = y.2 ∧ (P y.1).length = I.cnd E := by
  intro L
  induction L with
  | nil => intro P Q h _; cases h; exact ⟨fun _ _ => rfl, by simp⟩
  | cons a L ih =>
    intro P Q h hn
    rw [List.foldlM_cons] at h
    obtain ⟨P1, h1, h2⟩ := Option.bind_eq_some_iff.1 h
    rw [List.nodup_cons] at hn
    obtain ⟨g1, g2⟩ := ih _ _ h2 hn.2
    have hmem : ∀ E, ∀ y ∈ crossRows I E, I.emap y.1.1 = some E := by
      intro E y hy
      have : y.1 ∈ dofs I.nd (c2f I.emap I.nE E) := by rw [← crossRows_fst]; exact List.mem_map_of_mem hy
      exact (mem_c2f.1 (mem_dofs.1 this).1).2
    have hlen : ∀ E, ∀ y ∈ crossRows I E, y.2.length = I.cnd E := by
      intro E y hy
      unfold crossRows at hy
      obtain ⟨_, _, rfl⟩ := List.mem_map.1 hy
      simp
    have hstep : (∀ x, I.emap x.1 ≠ some a → P1 x = P x) ∧ (I.cdofed a = true → I.cnd a ≠ 0 ∧ ∀ y ∈ crossRows I a, P1 y.1 = y.2 ∧ (P y.1).length = I.cnd a) := by
      unfold crossStep at h1
      split at h1
      · split at h1
        · cases h1
        · rename_i h0
          obtain ⟨w1, w2⟩ := writes_spec _ _ _ h1 (crossRows_nodup I a)
          refine ⟨fun x hx => w1 x fun hm => hx ?_, fun _ => ⟨h0, fun y hy => ⟨(w2 y hy).1, (w2 y hy).2.trans (hlen a y hy)⟩⟩⟩
          rw [crossRows_fst] at hm
          exact (mem_c2f.1 (mem_dofs.1 hm).1).2
      · rename_i hd
        cases h1
        exact ⟨fun _ _ => rfl, fun h => absurd h hd⟩
    refine ⟨?_, ?_⟩
    · intro x hx
      rw [g1 x fun E hE => hx E (by simp [hE]), hstep.1 x (hx a (by simp))]
    · intro E hE hd
      rcases List.mem_cons.1 hE with rfl | hE
      · refine ⟨(hstep.2 hd).1, fun y hy => ⟨?_, ((hstep.2 hd).2 y hy).2⟩⟩
        rw [g1 y.1 fun E' hE' he => ?_]
        · exact ((hstep.2 hd).2 y hy).1
        · rw [hmem E y hy] at he
          cases he
          exact hn.1 hE'
      · refine ⟨(g2 E hE hd).1, fun y hy => ⟨((g2 E hE hd).2 y hy).1, ?_⟩⟩
        rw [← ((g2 E hE hd).2 y hy).2]
        refine congrArg List.length (hstep.1 _ fun he => ?_).symm
        rw [hmem E y hy] at he
        cases he
        exact hn.1 hE

theorem extRows_fst (I : Inp K) (P : Mat K) (agg : List ℕ) (C : ℕ) : (extRows I P agg C).map Prod.fst = dofs I.nd (edgesI I agg) := by
  unfold extRows
  rw [List.map_map]
  exact List.map_getElem_finRange _

/-- one agglomerate only writes rows of its interior edges -/
theorem aggStep_frame {I : Inp K} (hI : MeshOK I) {P Q : Mat K} {C : ℕ} (h : aggStep I P C = some Q) : ∀ x, ¬ Interior I C x.1 → Q x = P x := by
  intro x hx
  unfold aggStep at h
  split at h
  · cases h
  · split_ifs at h
    all_goals try (cases h; rfl)
    unfold solveAgg at h
    split_ifs at h
    refine (writes_spec _ _ _ h ?_).1 x ?_
    · rw [extRows_fst]
      exact dofs_nodup (edgesI_nodup hI C)
    · rw [extRows_fst]
      exact fun hm => hx ((mem_edgesI hI).1 (mem_dofs.1 hm).1)

theorem fold_frame {I : Inp K} (hI : MeshOK I) : ∀ (l : List ℕ) (P Q : Mat K), l.foldlM (aggStep I) P = some Q →
    ∀ x, (∀ C ∈ l, ¬ Interior I C x.1) → Q x = P x := by
  intro l
  induction l with
  | nil => intro P Q h x _; cases h; rfl
  | cons a l ih =>
    intro P Q h x hx
    rw [List.foldlM_cons] at h
    obtain ⟨P1, h1, h2⟩ := Option.bind_eq_some_iff.1 h
    rw [ih _ _ h2 x fun C hC => hx C (by simp [hC]), aggStep_frame hI h1 x (hx a (by simp))]

theorem edge_ends {I : Inp K} (hI : MeshOK I) {v w v' w' e : ℕ} (h : (w, e) ∈ I.con v) (h' : (w', e) ∈ I.con v') : (v' = v ∧ w' = w) ∨ (v' = w ∧ w' = v) := by
  rcases (hI.ends _ _ _ h).1 with p | p <;> rcases (hI.ends _ _ _ h').1 with q | q <;>
    · have hh := p.symm.trans q
      simp only [Prod.mk.injEq] at hh
      first
        | exact Or.inl ⟨hh.1.symm, hh.2.symm⟩
        | exact Or.inl ⟨hh.2.symm, hh.1.symm⟩
        | exact Or.inr ⟨hh.1.symm, hh.2.symm⟩
        | exact Or.inr ⟨hh.2.symm, hh.1.symm⟩

theorem interior_unique {I : Inp K} (hI : MeshOK I) {C C' e : ℕ} (h : Interior I C e) (h' : Interior I C' e) : C = C' := by
  obtain ⟨v, w, hv, hw, hc⟩ := h
  obtain ⟨v', w', hv', hw', hc'⟩ := h'
  rcases edge_ends hI hc hc' with ⟨rfl, rfl⟩ | ⟨rfl, rfl⟩
  · exact Option.some.inj ((agg_map hv).symm.trans (agg_map hv'))
  · exact Option.some.inj ((agg_map hw).symm.trans (agg_map hv'))

theorem exterior_not_interior {I : Inp K} (hI : MeshOK I) {C C' e : ℕ} (h : Exterior I C e) : ¬ Interior I C' e := by
  rintro ⟨v', w', hv', hw', hc'⟩
  obtain ⟨v, w, hv, hw, hc⟩ := h
  have h1 := mem_agg' hI hc (C := C)
  rcases edge_ends hI hc hc' with ⟨rfl, rfl⟩ | ⟨rfl, rfl⟩
  · rw [agg_map hw', ← agg_map hv', agg_map hv] at h1
    exact hw (h1.2 rfl)
  · rw [agg_map hv', ← agg_map hw', agg_map hv] at h1
    exact hw (h1.2 rfl)

/-- the matrices before and after the agglomerate of `C` -/
theorem prol_split {I : Inp K} (hI : MeshOK I) {P : Mat K} (hP : prol I = some P) {C : ℕ} (hC : C ∈ I.cvs) :
    ∃ P0 P1 P2 P3, alloc I = some P0 ∧ I.ces.foldlM (crossStep I) P0 = some P1 ∧ aggStep I P2 C = some P3 ∧
      (∀ x, (∀ C', ¬ Interior I C' x.1) → P2 x = P1 x ∧ P x = P1 x) ∧ (∀ x, Interior I C x.1 → P2 x = P1 x ∧ P x = P3 x) := by
  unfold prol at hP
  obtain ⟨P0, h0, h1⟩ := Option.bind_eq_some_iff.1 hP
  obtain ⟨P1, h1, h2⟩ := Option.bind_eq_some_iff.1 h1
  obtain ⟨l, m, hl⟩ := List.append_of_mem hC
  have hn := hI.cvs
  rw [hl] at h2 hn
  rw [List.foldlM_append] at h2
  obtain ⟨P2, h2, h3⟩ := Option.bind_eq_some_iff.1 h2
  rw [List.foldlM_cons] at h3
  obtain ⟨P3, h3, h4⟩ := Option.bind_eq_some_iff.1 h3
  refine ⟨P0, P1, P2, P3, h0, h1, h3, ?_, ?_⟩
  · intro x hx
    have e1 := fold_frame hI _ _ _ h2 x fun C _ => hx C
    refine ⟨e1, ?_⟩
    rw [fold_frame hI _ _ _ h4 x fun C _ => hx C, aggStep_frame hI h3 x (hx C), e1]
  · intro x hx
    rw [List.nodup_append, List.nodup_cons] at hn
    refine ⟨fold_frame hI _ _ _ h2 x fun C' hC' hi => ?_, fold_frame hI _ _ _ h4 x fun C' hC' hi => ?_⟩
    · obtain rfl := interior_unique hI hi hx
      exact hn.2.2 _ hC' _ (by simp) rfl
    · obtain rfl := interior_unique hI hi hx
      exact hn.2.1.1 hC'

end NgsAMG.HProl
