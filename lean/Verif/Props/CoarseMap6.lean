import Verif.Props.CoarseMap5

/-!
# C75: consequences of `MapVerts`, examples
-/

namespace NgsAMG.CMap

open NgsAMG.EQC NgsAMG.RedTab NgsAMG.Exch NgsAMG.BTM

section
variable {np : ℕ} {C : ℕ → Ctx} (hM : Mesh np C) {aggs : ℕ → List Agg} {v2agg : ℕ → List (Option ℕ)} (hA : AggsOK np C aggs v2agg)
  {disps : ℕ → List ℕ} {vmap : ℕ → List (Option ℕ)} {num : ℕ → ℕ → ℕ} (hV : CoarseVerts np C aggs v2agg disps vmap num)
include hM hA hV

/-- **C75 (images).** A vertex has a coarse vertex exactly if it is in an agglomerate of its master. -/
theorem mapVerts_some {p v : ℕ} (hp : p < np) (hv : v < (C p).nv) :
    (∃ x, (vmap p)[v]? = some (some x)) ↔ ∃ m a, InAgg C v2agg p v m a := by
  constructor
  · rintro ⟨x, hx⟩
    by_contra h
    push Not at h
    rw [hV.dir p hp v hv h] at hx
    simp at hx
  · rintro ⟨m, a, h⟩
    obtain ⟨-, S, hS⟩ := inAgg_exists_at hM hA hp h
    obtain ⟨x, hx, -⟩ := hV.img p hp v m a S h hS
    exact ⟨x, hx⟩

/-- **C75 (copies).** The images of two vertices, of whatever processes, are copies of one coarse vertex exactly if the vertices are in the same
agglomerate. -/
theorem mapVerts_same {p q v w m m' a a' x y : ℕ} (hp : p < np) (hq : q < np) (h : InAgg C v2agg p v m a) (h' : InAgg C v2agg q w m' a')
    (hx : (vmap p)[v]? = some (some x)) (hy : (vmap q)[w]? = some (some y)) :
    (∃ S r, IsVert p (coarseCtx (C p) (disps p)) x S r ∧ IsVert q (coarseCtx (C q) (disps q)) y S r) ↔ m = m' ∧ a = a' := by
  obtain ⟨hm, S, hS⟩ := inAgg_exists_at hM hA hp h
  obtain ⟨hm', S', hS'⟩ := inAgg_exists_at hM hA hq h'
  obtain ⟨x0, x1, x2⟩ := hV.img p hp v m a S h hS
  obtain ⟨y0, y1, y2⟩ := hV.img q hq w m' a' S' h' hS'
  rw [hx] at x1; cases x1
  rw [hy] at y1; cases y1
  constructor
  · rintro ⟨T, r, t1, t2⟩
    obtain ⟨e1, e2⟩ := isVert_unique hV.mesh hp x2 t1
    obtain ⟨f1, f2⟩ := isVert_unique hV.mesh hq y2 t2
    have : S = S' := e1.trans f1.symm
    subst this
    exact hV.uniq m hm m' hm' a a' S hS hS' (e2.trans f2.symm)
  · rintro ⟨rfl, rfl⟩
    have : S = S' := by
      obtain ⟨g, r, g1, g2⟩ := hS
      obtain ⟨g', r', g1', g2'⟩ := hS'
      rw [g1] at g1'; cases g1'
      exact (isVert_unique hM hm g2 g2').1
    subst this
    exact ⟨S, _, x2, y2⟩

/-- **C75 (copies of a vertex).** Copies of a fine vertex are mapped to copies of a coarse vertex, or none of them is mapped. -/
theorem mapVerts_copies {p q v w r : ℕ} {S : Finset ℕ} (hp : p < np) (hq : q < np) (h : IsVert p (C p) v S r) (h' : IsVert q (C q) w S r) :
    ((vmap p)[v]? = some none ∧ (vmap q)[w]? = some none) ∨ ∃ x y T c, (vmap p)[v]? = some (some x) ∧ (vmap q)[w]? = some (some y) ∧
      IsVert p (coarseCtx (C p) (disps p)) x T c ∧ IsVert q (coarseCtx (C q) (disps q)) y T c ∧ S ⊆ T := by
  have hiff : ∀ m a, InAgg C v2agg p v m a ↔ InAgg C v2agg q w m a := by
    intro m a
    constructor
    · rintro ⟨S', r', u, h1, h2⟩
      obtain ⟨rfl, rfl⟩ := isVert_unique hM hp h h1
      exact ⟨S, r, u, h', h2⟩
    · rintro ⟨S', r', u, h1, h2⟩
      obtain ⟨rfl, rfl⟩ := isVert_unique hM hq h' h1
      exact ⟨S, r, u, h, h2⟩
  by_cases hin : ∃ m a, InAgg C v2agg p v m a
  · right
    obtain ⟨m, a, hin⟩ := hin
    obtain ⟨hm, T, hT⟩ := inAgg_exists_at hM hA hp hin
    obtain ⟨x, x1, x2⟩ := hV.img p hp v m a T hin hT
    obtain ⟨y, y1, y2⟩ := hV.img q hq w m a T ((hiff m a).mp hin) hT
    exact ⟨x, y, T, _, x1, y1, x2, y2, (inAgg_sub hM hA hp hin h hT).2⟩
  · push Not at hin
    exact Or.inl ⟨hV.dir p hp v (isVert_lt hM hp h) hin, hV.dir q hq w (isVert_lt hM hq h') fun m a hh => hin m a ((hiff m a).mpr hh)⟩

/-- **C75 (onto).** Every coarse vertex of a process is the coarse vertex of an agglomerate; its center is on this process and is mapped to it. -/
theorem mapVerts_onto {p x : ℕ} (hp : p < np) (hx : x < (coarseCtx (C p) (disps p)).nv) : ∃ v : ℕ, (vmap p)[v]? = some (some x) := by
  obtain ⟨S, c, h, hpS⟩ := isVert_exists hV.mesh hp hx
  obtain ⟨m, a, hm, hat, hc⟩ := hV.pre p hp x S c h
  obtain ⟨g, r, g1, g2⟩ := id hat
  obtain ⟨-, v, hv⟩ := vert_partner hM hm g2 hpS
  have hmin := aggAt_min hM hA hm hat
  have hin : InAgg C v2agg p v m a :=
    ⟨S, r, g.center, hv, hmin.1, hmin.2, g2, (hA.v2a m hm g.center a).mpr ⟨g, g1, hA.cen m hm g (List.mem_of_getElem? g1)⟩⟩
  obtain ⟨y, y1, y2⟩ := hV.img p hp v m a S hin hat
  rw [hc] at y2
  exact ⟨v, by rw [y1, isVert_inj hV.mesh hp y2 h]⟩

end

/-! ### the number of coarse vertices -/

/-- the vertices of the classes that this process is the master of -/
def masterVerts (p : ℕ) (C : Ctx) : List ℕ := ((List.range C.T.length).filter fun k => isMaster p (C.T.getD k [])).flatMap (vertsOf C)

theorem masterVerts_length (p : ℕ) (C : Ctx) : (masterVerts p C).length = nMaster p C.T C.disp := by
  unfold masterVerts nMaster
  induction C.T.length with
  | zero => rfl
  | succ n ih =>
    rw [List.range_succ, List.filter_append, List.flatMap_append, List.length_append, ih, List.map_append, List.sum_append]
    congr 1
    rw [List.filter_cons, List.filter_nil]
    by_cases h : isMaster p (C.T.getD n []) = true
    · rw [if_pos h]
      simp only [List.flatMap_cons, List.flatMap_nil, List.append_nil, vertsOf, List.length_range', List.map_cons, List.map_nil, List.sum_cons, List.sum_nil,
        Nat.add_zero]
      rw [if_pos h]
    · rw [if_neg h]
      simp only [List.flatMap_nil, List.length_nil, List.map_cons, List.map_nil, List.sum_cons, List.sum_nil, Nat.add_zero]
      rw [if_neg h]

section
variable {np : ℕ} {C : ℕ → Ctx} (hM : Mesh np C)
include hM

theorem mem_masterVerts {p x : ℕ} (hp : p < np) : x ∈ masterVerts p (C p) ↔ ∃ S r, IsVert p (C p) x S r ∧ ∀ q ∈ S, p ≤ q := by
  unfold masterVerts
  rw [List.mem_flatMap]
  constructor
  · rintro ⟨k, hk, hx⟩
    rw [List.mem_filter, List.mem_range] at hk
    have hd := List.getElem?_eq_getElem hk.1
    obtain ⟨r, hr⟩ := List.mem_iff_getElem?.mp hx
    have hv := (vertsOf_get hM hp hd).mp hr
    refine ⟨_, r, hv, (isMaster_members ((hM.tabs.ok p hp).2 _ (List.getElem_mem hk.1))).mp ?_⟩
    have := hk.2
    rwa [List.getD_eq_getElem?_getD, hd, Option.getD_some] at this
  · rintro ⟨S, r, hv, hS⟩
    obtain ⟨k, a, b, d, h1, h2, h3⟩ := id hv
    subst h2
    refine ⟨k, ?_, List.mem_of_getElem? ((vertsOf_get hM hp h1).mpr hv)⟩
    rw [List.mem_filter, List.mem_range]
    refine ⟨(List.getElem?_eq_some_iff.mp h1).1, ?_⟩
    rw [List.getD_eq_getElem?_getD, h1, Option.getD_some]
    exact (isMaster_members ((hM.tabs.ok p hp).2 d (List.mem_of_getElem? h1))).mpr hS

theorem nodup_masterVerts {p : ℕ} (hp : p < np) : (masterVerts p (C p)).Nodup := by
  unfold masterVerts
  rw [List.nodup_flatMap]
  refine ⟨fun k _ => List.nodup_range', ?_⟩
  refine List.Pairwise.imp_of_mem ?_ (List.nodup_range.filter _)
  intro k l hk hl hne x hx hy
  rw [List.mem_filter, List.mem_range] at hk hl
  obtain ⟨r, hr⟩ := List.mem_iff_getElem?.mp hx
  obtain ⟨s, hs⟩ := List.mem_iff_getElem?.mp hy
  have h1 := (vertsOf_get hM hp (List.getElem?_eq_getElem hk.1)).mp hr
  have h2 := (vertsOf_get hM hp (List.getElem?_eq_getElem hl.1)).mp hs
  exact hne (cls_eq (hM.tabs.ok p hp) (List.getElem?_eq_getElem hk.1) (List.getElem?_eq_getElem hl.1) (isVert_unique hM hp h1 h2).1)

variable {aggs : ℕ → List Agg} {v2agg : ℕ → List (Option ℕ)} (hA : AggsOK np C aggs v2agg)
  {disps : ℕ → List ℕ} {vmap : ℕ → List (Option ℕ)} {num : ℕ → ℕ → ℕ} (hV : CoarseVerts np C aggs v2agg disps vmap num)
include hA hV

/-- **C75 (number of coarse vertices).** A process is the master of as many coarse vertices as it has agglomerates; the global number of coarse vertices,
the sum of these numbers, is the number of all agglomerates. -/
theorem mapVerts_count {p : ℕ} (hp : p < np) : nMaster p (C p).T (disps p) = (aggs p).length := by
  have h0 : nMaster p (C p).T (disps p) = (masterVerts p (coarseCtx (C p) (disps p))).length := (masterVerts_length p (coarseCtx (C p) (disps p))).symm
  rw [h0]
  -- the vertex of an agglomerate
  have key : ∀ a, ∃ x, a < (aggs p).length → ∃ S, AggAt C aggs p a S ∧ IsVert p (coarseCtx (C p) (disps p)) x S (num p a) := by
    intro a
    by_cases ha : a < (aggs p).length
    · have hg := List.getElem?_eq_getElem ha
      have hin := inAgg_own hM hA hp ((hA.v2a p hp _ a).mpr ⟨_, hg, hA.cen p hp _ (List.getElem_mem ha)⟩)
      obtain ⟨-, S, hS⟩ := inAgg_exists_at hM hA hp hin
      obtain ⟨x, -, hx⟩ := hV.img p hp _ p a S hin hS
      exact ⟨x, fun _ => ⟨S, hS, hx⟩⟩
    · exact ⟨0, fun h => absurd h ha⟩
  choose f hf using key
  have hperm : (masterVerts p (coarseCtx (C p) (disps p))).Perm ((List.range (aggs p).length).map f) := by
    rw [List.perm_ext_iff_of_nodup (nodup_masterVerts hV.mesh hp)]
    · intro x
      rw [mem_masterVerts hV.mesh hp, List.mem_map]
      constructor
      · rintro ⟨S, c, hx, hmin⟩
        obtain ⟨m, a, hm, hat, hc⟩ := hV.pre p hp x S c hx
        have h1 := aggAt_min hM hA hm hat
        have : m = p := le_antisymm (h1.2 _ (isVert_self hx)) (hmin _ h1.1)
        subst this
        obtain ⟨g, r, g1, g2⟩ := id hat
        have hlt := (List.getElem?_eq_some_iff.mp g1).1
        obtain ⟨S', hS', hfa⟩ := hf a hlt
        refine ⟨a, List.mem_range.mpr hlt, ?_⟩
        obtain ⟨g', r', g1', g2'⟩ := hS'
        rw [g1] at g1'; cases g1'
        have : S = S' := (isVert_unique hM hm g2 g2').1
        subst this
        rw [hc] at hfa
        exact isVert_inj hV.mesh hm hfa hx
      · rintro ⟨a, ha, rfl⟩
        obtain ⟨S, hS, hx⟩ := hf a (List.mem_range.mp ha)
        exact ⟨S, _, hx, (aggAt_min hM hA hp hS).2⟩
    · refine (List.nodup_map_iff_inj_on List.nodup_range).mpr ?_
      intro a ha b hb hab
      obtain ⟨S, hS, hx⟩ := hf a (List.mem_range.mp ha)
      obtain ⟨S', hS', hy⟩ := hf b (List.mem_range.mp hb)
      rw [hab] at hx
      obtain ⟨rfl, e⟩ := isVert_unique hV.mesh hp hx hy
      exact (hV.uniq p hp p hp a b S hS hS' e).2
  rw [hperm.length_eq, List.length_map, List.length_range]

theorem mapVerts_count_global : ((List.range np).map fun p => nMaster p (C p).T (disps p)).sum = ((List.range np).map fun p => (aggs p).length).sum := by
  congr 1
  apply List.map_congr_left
  intro p hp
  exact mapVerts_count hM hA hV (List.mem_range.mp hp)

end

/-- **C75 (termination).** Under every schedule `MapVerts` ends after a bounded number of steps, and there is a complete schedule. -/
theorem mapVerts_total {np : ℕ} {C : ℕ → Ctx} (hM : Mesh np C) {aggs : ℕ → List Agg} {v2agg : ℕ → List (Option ℕ)} (hA : AggsOK np C aggs v2agg) :
    ∃ (st : ℕ → VSt) (rows : ℕ → List VRow), (∀ p < np, exData (C p) p (aggs p) (v2agg p) = some (st p, rows p)) ∧
      (∃ n s, DReach np (vertProg C) (fun p => some (rows p)) n s ∧ DFinal np (vertProg C) s) ∧
      ∀ n s, DReach np (vertProg C) (fun p => some (rows p)) n s → n ≤ 2 * np := by
  have key : ∀ p, ∃ st rows, p < np → exData (C p) p (aggs p) (v2agg p) = some (st, rows) := by
    intro p
    by_cases hp : p < np
    · obtain ⟨st, rows, h, -⟩ := exData_spec hM hA hp
      exact ⟨st, rows, fun _ => h⟩
    · exact ⟨⟨[], []⟩, [], fun h => absurd h hp⟩
  choose st rows h using key
  refine ⟨st, rows, h, ?_, ?_⟩
  · exact dexists_final (scatter_matched (rows_of_tables hM.tabs) rows _)
  · intro n s hr
    have := dterminates (scatter_matched (rows_of_tables hM.tabs) rows _) hr
    simpa using this

/-! ### example -/

/-- a mesh can be checked by evaluation -/
theorem mesh_of_check {np : ℕ} {C : ℕ → Ctx} (tabs : Tables np fun p => (C p).T)
    (h1 : ∀ p < np, ∀ d ∈ (C p).T, ∀ e ∈ (C p).T, ∃ c ∈ (C p).T, members p c = members p d ∩ members p e)
    (h2 : ∀ p < np, (C p).T ≠ [] → (C p).T[0]? = some [])
    (h3 : ∀ p < np, (C p).ids.length = (C p).T.length ∧ (C p).disp.length = (C p).T.length + 1 ∧ (C p).disp[0]? = some 0 ∧ (C p).disp.Pairwise (· ≤ ·))
    (h4 : ∀ p < np, ∀ q < np, ∀ i < (C p).T.length, ∀ j < (C q).T.length,
      ((C p).ids.getD i 0 = (C q).ids.getD j 0 ↔ members p ((C p).T.getD i []) = members q ((C q).T.getD j [])) ∧
      (members p ((C p).T.getD i []) = members q ((C q).T.getD j []) →
        (C p).disp.getD (i + 1) 0 - (C p).disp.getD i 0 = (C q).disp.getD (j + 1) 0 - (C q).disp.getD j 0))
    (h5 : ∀ p < np, ∀ q < np, ∀ j < (C q).T.length,
      (∀ i ∈ (C p).ind.getD ((C q).ids.getD j 0) none, i < (C p).T.length) ∧
      ∀ i < (C p).T.length, (C p).ind[(C q).ids.getD j 0]? = some (some i) ↔ members p ((C p).T.getD i []) = members q ((C q).T.getD j [])) :
    Mesh np C := by
  have gd : ∀ {α : Type} {l : List α} {i : ℕ} {x : α} (y : α), l[i]? = some x → l.getD i y = x := by
    intro α l i x y h; rw [List.getD_eq_getElem?_getD, h]; rfl
  refine ⟨tabs, h1, h2, fun p hp => (h3 p hp).1, ?_, ?_, fun p hp => (h3 p hp).2.1, fun p hp => (h3 p hp).2.2.1, fun p hp => (h3 p hp).2.2.2, ?_⟩
  · intro p hp q hq i j a b d e ha hb hd he
    have := (h4 p hp q hq i (List.getElem?_eq_some_iff.mp hd).1 j (List.getElem?_eq_some_iff.mp he).1).1
    rwa [gd 0 ha, gd 0 hb, gd [] hd, gd [] he] at this
  · intro p hp q hq j b e hb he i
    obtain ⟨g1, g2⟩ := h5 p hp q hq j (List.getElem?_eq_some_iff.mp he).1
    rw [gd 0 hb] at g1 g2
    rw [gd [] he] at g2
    constructor
    · intro hi
      rw [gd none hi] at g1
      have hlt := g1 i rfl
      exact ⟨_, List.getElem?_eq_getElem hlt, by have := (g2 i hlt).mp hi; rwa [gd [] (List.getElem?_eq_getElem hlt)] at this⟩
    · rintro ⟨d, hd, hm⟩
      exact (g2 i (List.getElem?_eq_some_iff.mp hd).1).mpr (by rw [gd [] hd]; exact hm)
  · intro p hp q hq i j a b a' b' d e hd he hm ha hb ha' hb'
    have := (h4 p hp q hq i (List.getElem?_eq_some_iff.mp hd).1 j (List.getElem?_eq_some_iff.mp he).1).2
    rw [gd 0 ha, gd 0 hb, gd [] hd, gd [] he, gd 0 ha', gd 0 hb'] at this
    exact this hm

/-- agglomerates can be checked by evaluation -/
theorem aggs_of_check {np : ℕ} {C : ℕ → Ctx} {aggs : ℕ → List Agg} {v2agg : ℕ → List (Option ℕ)}
    (h1 : ∀ p < np, (v2agg p).length = (C p).nv)
    (h2 : ∀ p < np, ∀ a < (aggs p).length, ∀ v ∈ ((aggs p).getD a ⟨0, []⟩).mems, (v2agg p)[v]? = some (some a))
    (h3 : ∀ p < np, ∀ v < (v2agg p).length, ∀ a ∈ (v2agg p).getD v none, a < (aggs p).length ∧ v ∈ ((aggs p).getD a ⟨0, []⟩).mems)
    (h4 : ∀ p < np, ∀ g ∈ aggs p, g.center ∈ g.mems)
    (h5 : ∀ p < np, ∀ g ∈ aggs p, ∀ v ∈ g.mems, ∀ k < (C p).T.length, ∀ l < (C p).T.length,
      (C p).disp.getD k 0 ≤ v → v < (C p).disp.getD (k + 1) 0 → (C p).disp.getD l 0 ≤ g.center → g.center < (C p).disp.getD (l + 1) 0 →
      members p ((C p).T.getD k []) ⊆ members p ((C p).T.getD l []) ∧ ∀ q ∈ members p ((C p).T.getD l []), p ≤ q) :
    AggsOK np C aggs v2agg := by
  have gd : ∀ {α : Type} {l : List α} {i : ℕ} {x : α} (y : α), l[i]? = some x → l.getD i y = x := by
    intro α l i x y h; rw [List.getD_eq_getElem?_getD, h]; rfl
  refine ⟨h1, ?_, h4, ?_⟩
  · intro p hp v a
    constructor
    · intro h
      have := h3 p hp v (List.getElem?_eq_some_iff.mp h).1 a (by rw [gd none h]; rfl)
      refine ⟨_, List.getElem?_eq_getElem this.1, ?_⟩
      have h' := this.2
      rwa [gd _ (List.getElem?_eq_getElem this.1)] at h'
    · rintro ⟨g, hg, hv⟩
      exact h2 p hp a (List.getElem?_eq_some_iff.mp hg).1 v (by rw [gd _ hg]; exact hv)
  · rintro p hp g hg v hv S r S' r' ⟨k, a, b, d, c1, c2, c3, c4, c5, c6⟩ ⟨l, a', b', d', e1, e2, e3, e4, e5, e6⟩
    have := h5 p hp g hg v hv k (List.getElem?_eq_some_iff.mp c1).1 l (List.getElem?_eq_some_iff.mp e1).1
    rw [gd 0 c3, gd 0 c4, gd 0 e3, gd 0 e4, gd [] c1, gd [] e1, c2, e2] at this
    exact this (by omega) c6 (by omega) e6

/-- three processes with the classes of `exT`. Process 0: two own vertices, one shared with 1, one shared with 1 and 2; process 1: one own vertex, one
shared with 2; process 2: one own vertex -/
def exC : ℕ → Ctx
  | 0 => ⟨exT 0, [0, 1, 2], [some 0, some 1, some 2, none, none, none], [0, 2, 3, 4]⟩
  | 1 => ⟨exT 1, [3, 1, 4, 2], [none, some 1, some 3, some 0, some 2, none], [0, 1, 2, 3, 4]⟩
  | 2 => ⟨exT 2, [5, 4, 2], [none, none, some 2, none, some 1, some 0], [0, 1, 2, 3]⟩
  | _ => ⟨[], [], [], [0]⟩

set_option synthInstance.maxHeartbeats 400000 in
set_option synthInstance.maxSize 1000 in
theorem exC_mesh : Mesh 3 exC := by
  refine mesh_of_check ?_ (by decide) (by decide) (by decide) (by decide) (by decide)
  have : Tables 3 fun p => (exC p).T := by
    have h : ∀ p < 3, (exC p).T = exT p := by decide
    refine ⟨fun p hp => ?_, fun p hp => ?_, ?_⟩
    · beta_reduce; rw [h p hp]; exact exT_tables.ok p hp
    · beta_reduce; rw [h p hp]; exact exT_tables.sorted p hp
    · have : ∀ p < 3, ∀ d ∈ (exC p).T, ∀ q ∈ d, ∃ e ∈ (exC q).T, members q e = members p d := by decide
      exact this
  exact this

/-- process 0: an agglomerate around the vertex of all three processes and one of an own vertex; process 1: one around the vertex shared with 2. The own
vertex of process 2 is in no agglomerate (Dirichlet) -/
def exAggs : ℕ → List Agg
  | 0 => [⟨3, [0, 2, 3]⟩, ⟨1, [1]⟩]
  | 1 => [⟨2, [0, 2]⟩]
  | _ => []

def exV2 : ℕ → List (Option ℕ)
  | 0 => [some 0, some 1, some 0, some 0]
  | 1 => [some 0, none, some 0, none]
  | 2 => [none, none, none]
  | _ => []

set_option synthInstance.maxHeartbeats 400000 in
set_option synthInstance.maxSize 1000 in
theorem exAggs_ok : AggsOK 3 exC exAggs exV2 := aggs_of_check (by decide) (by decide) (by decide) (by decide) (by decide)

/-- the hypotheses of C75 are met, there is a complete schedule, and the result of one: process 0 has the coarse vertices {1} (0) and {0,2,3} (1), process 1
the agglomerate of process 0 as 1 and its own as 0 -/
example : ∃ (st : ℕ → VSt) (rows : ℕ → List VRow) (n : ℕ) (s : St (Option (List VRow)) (List VRow)),
    (∀ p < 3, exData (exC p) p (exAggs p) (exV2 p) = some (st p, rows p)) ∧ DReach 3 (vertProg exC) (fun p => some (rows p)) n s ∧
    DFinal 3 (vertProg exC) s := by
  obtain ⟨st, rows, h, ⟨n, s, h1, h2⟩, -⟩ := mapVerts_total exC_mesh exAggs_ok
  exact ⟨st, rows, n, s, h, h1, h2⟩

example : (List.range 3).map (fun p => (exData (exC p) p (exAggs p) (exV2 p)).bind fun r =>
    (drun (vertProg exC) (fun q => (exData (exC q) q (exAggs q) (exV2 q)).map (·.2)) p).bind (mapVertsAfter (exC p) (exAggs p) (exV2 p) r.1)) =
    [some ([0, 1, 1, 2], [some 1, some 0, some 1, some 1]), some ([0, 0, 0, 1, 2], [some 0, some 1, some 0, some 1]),
     some ([0, 0, 1, 2], [none, some 0, some 1])] := by
  decide +kernel

end NgsAMG.CMap
