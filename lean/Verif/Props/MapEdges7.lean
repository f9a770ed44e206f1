import Verif.Props.MapEdges6
import Verif.Props.CoarseMap6

/-!
# C76: the loops of one process
-/

namespace NgsAMG.CMap

open NgsAMG.EQC NgsAMG.RedTab NgsAMG.Exch NgsAMG.BTM

/-- what `MapEdges` has on process `p` -/
def envOf (C : ℕ → Ctx) (disps : ℕ → List ℕ) (E : ℕ → FEdges) (vmap : ℕ → List (Option ℕ)) (p : ℕ) : Env :=
  ⟨C p, coarseCtx (C p) (disps p), E p, vmap p, (SProl.edgeCM (E p).nodes).getD fun _ => [], mapC2F (vmap p)⟩

/-- the vertices of the coarse mesh and the map: the copies of a vertex go to the copies of a coarse vertex that all of its processes have -/
structure VMaps (np : ℕ) (C : ℕ → Ctx) (disps : ℕ → List ℕ) (vmap : ℕ → List (Option ℕ)) : Prop where
  fine : Mesh np C
  mesh : Mesh np fun p => coarseCtx (C p) (disps p)
  len : ∀ p < np, (vmap p).length = (C p).nv
  copies : ∀ p < np, ∀ q < np, ∀ v w r S, IsVert p (C p) v S r → IsVert q (C q) w S r →
    ((vmap p)[v]? = some none ∧ (vmap q)[w]? = some none) ∨ ∃ x y T c, (vmap p)[v]? = some (some x) ∧ (vmap q)[w]? = some (some y) ∧
      IsVert p (coarseCtx (C p) (disps p)) x T c ∧ IsVert q (coarseCtx (C q) (disps q)) y T c ∧ S ⊆ T

/-- the coarse edge `i` joins the coarse vertices number `c` of the class `T` and `c'` of `T'` -/
structure CI (p : ℕ) (D : Ctx) (i : CInfo) (T : Finset ℕ) (c : ℕ) (T' : Finset ℕ) (c' : ℕ) : Prop where
  v0 : IsVert p D i.cv0 T c
  v1 : IsVert p D i.cv1 T' c'
  e0 : D.eqcV i.cv0 = some i.q0
  e1 : D.eqcV i.cv1 = some i.q1
  cls : ∃ d, D.T[i.cls]? = some d ∧ members p d = T ∩ T'
  cross : i.cross = true ↔ T ≠ T'

theorem ci_ordered {p : ℕ} {D : Ctx} {i : CInfo} {T : Finset ℕ} {c : ℕ} {T' : Finset ℕ} {c' : ℕ} (h : CI p D i T c T' c') :
    ∃ U u U' u', CI p D (ordered i) U u U' u' := by
  unfold ordered
  split
  · obtain ⟨d, h1, h2⟩ := h.cls
    exact ⟨T', c', T, c, ⟨h.v1, h.v0, h.e1, h.e0, ⟨d, h1, by rw [h2, Finset.inter_comm]⟩, by rw [h.cross]; exact ne_comm⟩⟩
  · exact ⟨T, c, T', c', h⟩

theorem pr_ordered (i : CInfo) : pr (ordered i) = norm (i.cv0, i.cv1) ∨ i.cv0 = i.cv1 := by
  unfold ordered pr norm
  split
  · rw [if_neg (by dsimp only; omega)]; exact Or.inl rfl
  · by_cases h : i.cv0 = i.cv1
    · exact Or.inr h
    · rw [if_pos (by dsimp only; omega)]; exact Or.inl rfl

theorem mapC2F_mem (map : List (Option ℕ)) (x v : ℕ) : v ∈ mapC2F map x ↔ map[v]? = some (some x) := by
  unfold mapC2F
  rw [List.mem_filter, List.mem_range, beq_iff_eq]
  constructor
  · exact fun h => h.2
  · exact fun h => ⟨(List.getElem?_eq_some_iff.mp h).1, h⟩

theorem mapC2F_sorted (map : List (Option ℕ)) (x : ℕ) : (mapC2F map x).Pairwise (· < ·) := List.Pairwise.filter _ List.pairwise_lt_range

section
variable {np : ℕ} {C : ℕ → Ctx} {disps : ℕ → List ℕ} {vmap : ℕ → List (Option ℕ)} (hv : VMaps np C disps vmap)
include hv

/-- the image of a vertex -/
theorem img {p v r : ℕ} {S : Finset ℕ} (hp : p < np) (h : IsVert p (C p) v S r) : (vmap p)[v]? = some none ∨ ∃ x T c, (vmap p)[v]? = some (some x) ∧
    IsVert p (coarseCtx (C p) (disps p)) x T c ∧ S ⊆ T := by
  rcases hv.copies p hp p hp v v r S h h with ⟨h1, -⟩ | ⟨x, y, T, c, h1, -, h2, -, h3⟩
  · exact Or.inl h1
  · exact Or.inr ⟨x, T, c, h1, h2, h3⟩

theorem cinfo_at (E : ℕ → FEdges) {p : ℕ} (hp : p < np) {e : ℕ × ℕ} {x y c c' : ℕ} {T T' : Finset ℕ} (h1 : (vmap p)[e.1]? = some (some x)) (h2 : (vmap p)[e.2]? = some (some y))
    (hx : IsVert p (coarseCtx (C p) (disps p)) x T c) (hy : IsVert p (coarseCtx (C p) (disps p)) y T' c') (hne : x ≠ y) :
    ∃ i, cinfo (envOf C disps E vmap p) e = some (some i) ∧ i.cv0 = x ∧ i.cv1 = y ∧ CI p (coarseCtx (C p) (disps p)) i T c T' c' := by
  obtain ⟨-, k, i, d, a1, a2, a3, a4, a5, a6⟩ := (isVert_iff hv.mesh hp).mp hx
  obtain ⟨-, k', j, d', b1, b2, b3, b4, b5, b6⟩ := (isVert_iff hv.mesh hp).mp hy
  have hT := hv.mesh.tabs.ok p hp
  have hkk : k = k' ↔ T = T' := by
    constructor
    · rintro rfl
      rw [a2] at b2; cases b2
      exact a3.symm.trans b3
    · intro h
      exact cls_eq hT a2 b2 (by rw [a3, b3, h])
  have hc : ∃ l d, (if k = k' then some k else commonEQC (coarseCtx (C p) (disps p)).T k k') = some l ∧ (coarseCtx (C p) (disps p)).T[l]? = some d ∧ members p d = T ∩ T' := by
    by_cases h : k = k'
    · rw [if_pos h]
      exact ⟨k, d, rfl, a2, by rw [a3, hkk.mp h, Finset.inter_self]⟩
    · rw [if_neg h]
      obtain ⟨c, hc, hcm⟩ := hv.mesh.inter p hp d (List.mem_of_getElem? a2) d' (List.mem_of_getElem? b2)
      obtain ⟨l, hl⟩ := List.mem_iff_getElem?.mp hc
      exact ⟨l, c, (commonEQC_iff hT a2 b2).mpr ⟨c, hl, hcm⟩, hl, by rw [hcm, a3, b3]⟩
  obtain ⟨l, dl, l1, l2, l3⟩ := hc
  refine ⟨⟨x, y, k, k', l, decide (k ≠ k')⟩, ?_, rfl, rfl, hx, hy, a1, b1, ⟨dl, l2, l3⟩, ?_⟩
  · unfold cinfo envOf
    dsimp only
    rw [h1, h2, Option.bind_some, Option.bind_some]
    dsimp only
    rw [if_neg hne, a1, Option.bind_some, b1, Option.bind_some, l1, Option.map_some]
  · simp [hkk]

/-- classes determine a coarse edge -/
theorem ci_unique {p : ℕ} (hp : p < np) {i j : CInfo} {T T' U U' : Finset ℕ} {c c' u u' : ℕ} (hi : CI p (coarseCtx (C p) (disps p)) i T c T' c')
    (hj : CI p (coarseCtx (C p) (disps p)) j U u U' u') (h0 : i.cv0 = j.cv0) (h1 : i.cv1 = j.cv1) : i = j := by
  obtain ⟨i1, i2, i3, i4, ⟨d, i5, i6⟩, i7⟩ := hi
  obtain ⟨j1, j2, j3, j4, ⟨d', j5, j6⟩, j7⟩ := hj
  obtain ⟨a0, a1, a2, a3, a4, a5⟩ := i
  obtain ⟨b0, b1, b2, b3, b4, b5⟩ := j
  dsimp only at *
  subst h0 h1
  rw [i3] at j3; cases j3
  rw [i4] at j4; cases j4
  obtain ⟨rfl, rfl⟩ := isVert_unique hv.mesh hp i1 j1
  obtain ⟨rfl, rfl⟩ := isVert_unique hv.mesh hp i2 j2
  have := cls_eq (hv.mesh.tabs.ok p hp) i5 j5 (i6.trans j6.symm)
  subst this
  have : a5 = b5 := by
    have := i7.trans j7.symm
    revert this; cases a5 <;> cases b5 <;> simp
  subst this
  rfl

variable {E : ℕ → FEdges} {B : ℕ → Bool → List (List (ℕ × ℕ))} (hE : EMesh np C E B)
include hE

theorem info_ok {p : ℕ} (hp : p < np) {e : ℕ} {nd : ℕ × ℕ} (hn : (E p).nodes[e]? = some nd) : ∃ o, cinfo (envOf C disps E vmap p) nd = some o := by
  obtain ⟨k, d, S, r, S', s, -, -, -, h4, -⟩ := node_edge hE hp hn
  rcases img hv hp h4.1 with h | ⟨x, T, c, x1, x2, x3⟩ <;> rcases img hv hp h4.2 with h' | ⟨y, T', c', y1, y2, y3⟩
  · exact ⟨none, by unfold cinfo envOf; dsimp only; rw [h, h']; rfl⟩
  · exact ⟨none, by unfold cinfo envOf; dsimp only; rw [h, y1]; rfl⟩
  · exact ⟨none, by unfold cinfo envOf; dsimp only; rw [x1, h']; rfl⟩
  · by_cases hne : x = y
    · exact ⟨none, by unfold cinfo envOf; dsimp only; rw [x1, y1]; simp [hne]⟩
    · obtain ⟨i, hi, -⟩ := cinfo_at hv E hp x1 y1 x2 y2 hne
      exact ⟨_, hi⟩

/-- the coarse edge of a fine edge -/
theorem key_of {p : ℕ} (hp : p < np) {f x y : ℕ} {nd : ℕ × ℕ} (hn : (E p).nodes[f]? = some nd) (h1 : (vmap p)[nd.1]? = some (some x)) (h2 : (vmap p)[nd.2]? = some (some y))
    (hne : x ≠ y) : ∃ i, keyOf (envOf C disps E vmap p) f = some i ∧ pr i = norm (x, y) := by
  obtain ⟨k, d, S, r, S', s, -, -, -, h4, -⟩ := node_edge hE hp hn
  obtain ⟨x', T, c, x1, x2, -⟩ : ∃ x T c, (vmap p)[nd.1]? = some (some x) ∧ IsVert p (coarseCtx (C p) (disps p)) x T c ∧ S ⊆ T := by
    rcases img hv hp h4.1 with h | h
    · rw [h1] at h; cases h
    · exact h
  obtain ⟨y', T', c', y1, y2, -⟩ : ∃ x T c, (vmap p)[nd.2]? = some (some x) ∧ IsVert p (coarseCtx (C p) (disps p)) x T c ∧ S' ⊆ T := by
    rcases img hv hp h4.2 with h | h
    · rw [h2] at h; cases h
    · exact h
  rw [h1] at x1; cases x1
  rw [h2] at y1; cases y1
  obtain ⟨i, hi, e0, e1, -⟩ := cinfo_at hv E hp h1 h2 x2 y2 hne
  refine ⟨ordered i, ?_, ?_⟩
  · unfold keyOf
    rw [show (envOf C disps E vmap p).E.nodes[f]? = some nd from hn, Option.bind_some, hi]; rfl
  · rcases pr_ordered i with h | h
    · rw [h, e0, e1]
    · rw [e0, e1] at h; exact absurd h hne

theorem key_some {p : ℕ} (hp : p < np) {f : ℕ} {i : CInfo} (hi : keyOf (envOf C disps E vmap p) f = some i) :
    ∃ nd x y, (E p).nodes[f]? = some nd ∧ (vmap p)[nd.1]? = some (some x) ∧ (vmap p)[nd.2]? = some (some y) ∧ x ≠ y ∧ pr i = norm (x, y) ∧
      ∃ T c T' c', CI p (coarseCtx (C p) (disps p)) i T c T' c' := by
  unfold keyOf at hi
  obtain ⟨j, h1, rfl⟩ := Option.map_eq_some_iff.mp hi
  rw [Option.join_eq_some_iff] at h1
  obtain ⟨nd, hn, h2⟩ := Option.bind_eq_some_iff.mp h1
  replace hn : (E p).nodes[f]? = some nd := hn
  obtain ⟨k, d, S, r, S', s, -, -, -, h4, -⟩ := node_edge hE hp hn
  have hc := h2
  unfold cinfo at hc
  obtain ⟨a, ha, hc⟩ := Option.bind_eq_some_iff.mp hc
  obtain ⟨b, hb, hc⟩ := Option.bind_eq_some_iff.mp hc
  replace ha : (vmap p)[nd.1]? = some a := ha
  replace hb : (vmap p)[nd.2]? = some b := hb
  match a, b, ha, hb, hc with
  | some x, some y, ha, hb, hc =>
    have hne : x ≠ y := by
      rintro rfl
      simp at hc
    obtain ⟨x', T, c, x1, x2, -⟩ : ∃ x T c, (vmap p)[nd.1]? = some (some x) ∧ IsVert p (coarseCtx (C p) (disps p)) x T c ∧ S ⊆ T := by
      rcases img hv hp h4.1 with h | h
      · rw [ha] at h; cases h
      · exact h
    obtain ⟨y', T', c', y1, y2, -⟩ : ∃ x T c, (vmap p)[nd.2]? = some (some x) ∧ IsVert p (coarseCtx (C p) (disps p)) x T c ∧ S' ⊆ T := by
      rcases img hv hp h4.2 with h | h
      · rw [hb] at h; cases h
      · exact h
    rw [ha] at x1; cases x1
    rw [hb] at y1; cases y1
    obtain ⟨i, hi, e0, e1, hci⟩ := cinfo_at hv E hp ha hb x2 y2 hne
    rw [h2] at hi
    cases hi
    refine ⟨nd, x, y, hn, ha, hb, hne, ?_, ci_ordered hci⟩
    rcases pr_ordered j with h | h
    · rw [h, e0, e1]
    · rw [e0, e1] at h; exact absurd h hne
  | some _, none, _, _, hc => simp at hc
  | none, _, _, _, hc => simp at hc

theorem loc_ok {p : ℕ} (hp : p < np) : LocOK (envOf C disps E vmap p) := by
  have hs := nodes_simple hE hv.fine hp
  obtain ⟨econ, g1, g2, g3⟩ := SProl.edgeCM_spec (E p).nodes
  have hecon : (envOf C disps E vmap p).econ = econ := by unfold envOf; dsimp only; rw [g1]; rfl
  have hc2f : (envOf C disps E vmap p).c2f = mapC2F (vmap p) := rfl
  refine ⟨?_, ?_, ?_⟩
  · intro e he
    replace he : e < (E p).nodes.length := he
    obtain ⟨o, ho⟩ := info_ok hv hE hp (List.getElem?_eq_getElem he)
    exact ⟨o, by rw [show (envOf C disps E vmap p).E.nodes[e]? = some _ from List.getElem?_eq_getElem he, Option.bind_some]; exact ho⟩
  · intro x y f hne
    have h1 : f ∈ feids (envOf C disps E vmap p) x y ↔ ∃ v w, (vmap p)[v]? = some (some x) ∧ (vmap p)[w]? = some (some y) ∧ SProl.Joins (E p).nodes f v w := by
      unfold feids
      rw [hecon, hc2f, List.mem_flatMap]
      constructor
      · rintro ⟨v, hv, hf⟩
        obtain ⟨ij, h1, h2⟩ := List.mem_map.mp hf
        obtain ⟨w, h3, h4⟩ := ((Traversal.iterInter_correct _ _ (g3 hs v) (mapC2F_sorted _ _)).1 ij.1 ij.2).mp h1
        rw [List.getElem?_map] at h3
        obtain ⟨⟨w', f'⟩, h5, h6⟩ := Option.map_eq_some_iff.mp h3
        dsimp only at h6
        subst h6
        rw [List.getD_eq_getElem?_getD, h5, Option.getD_some] at h2
        dsimp only at h2
        subst h2
        exact ⟨v, w', (mapC2F_mem _ _ _).mp hv, (mapC2F_mem _ _ _).mp (List.mem_of_getElem? h4), (g2 _ _ _).mp (List.mem_of_getElem? h5)⟩
      · rintro ⟨v, w, hv, hw, hj⟩
        refine ⟨v, (mapC2F_mem _ _ _).mpr hv, List.mem_map.mpr ?_⟩
        obtain ⟨i, hi⟩ := List.mem_iff_getElem?.mp ((g2 _ _ _).mpr hj)
        obtain ⟨j, hj⟩ := List.mem_iff_getElem?.mp ((mapC2F_mem _ _ _).mpr hw)
        refine ⟨(i, j), ((Traversal.iterInter_correct _ _ (g3 hs v) (mapC2F_sorted _ _)).1 i j).mpr ⟨w, by rw [List.getElem?_map, hi]; rfl, hj⟩, ?_⟩
        dsimp only
        rw [List.getD_eq_getElem?_getD, hi, Option.getD_some]
    rw [h1]
    constructor
    · rintro ⟨v, w, a1, a2, a3 | a3⟩
      · obtain ⟨i, i1, i2⟩ := key_of hv hE hp a3 a1 a2 hne
        exact ⟨i, i1, (norm_eq (v := (x, y)) (keyOf_cv i1) hne).mp i2⟩
      · obtain ⟨i, i1, i2⟩ := key_of hv hE hp a3 a2 a1 (Ne.symm hne)
        exact ⟨i, i1, ((norm_eq (v := (y, x)) (keyOf_cv i1) (Ne.symm hne)).mp i2).symm⟩
    · rintro ⟨i, i1, i2⟩
      obtain ⟨nd, x', y', n1, n2, n3, n4, n5, -⟩ := key_some hv hE hp i1
      have := (norm_eq (v := (x', y')) (keyOf_cv i1) n4).mp n5
      dsimp only at this
      have h : (x' = x ∧ y' = y) ∨ (x' = y ∧ y' = x) := by omega
      rcases h with ⟨rfl, rfl⟩ | ⟨rfl, rfl⟩
      · exact ⟨nd.1, nd.2, n2, n3, Or.inl n1⟩
      · exact ⟨nd.2, nd.1, n3, n2, Or.inr n1⟩
  · intro e f i j hi hj h0 h1
    obtain ⟨-, -, -, -, -, -, -, -, T, c, T', c', hci⟩ := key_some hv hE hp hi
    obtain ⟨-, -, -, -, -, -, -, -, U, u, U', u', hcj⟩ := key_some hv hE hp hj
    exact ci_unique hv hp hci hcj h0 h1

end

end NgsAMG.CMap
