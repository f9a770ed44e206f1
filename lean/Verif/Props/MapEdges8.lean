import Verif.Props.MapEdges7

/-!
# C76: names of coarse edges, the merged table
-/

namespace NgsAMG.CMap

open NgsAMG.EQC NgsAMG.RedTab NgsAMG.Exch NgsAMG.BTM

/-- `b` is the identifier of the class with the processes `T` -/
def IsId (np : ℕ) (C : ℕ → Ctx) (T : Finset ℕ) (b : ℕ) : Prop :=
  ∃ q < np, ∃ (j : ℕ) (e : List ℕ), (C q).ids[j]? = some b ∧ (C q).T[j]? = some e ∧ members q e = T

/-- `t` is the name of the edge between the vertices number `c` of the class `T` and `c'` of `T'` -/
def IsName (np : ℕ) (C : ℕ → Ctx) (t : CNode) (T : Finset ℕ) (c : ℕ) (T' : Finset ℕ) (c' : ℕ) : Prop :=
  ∃ b b', IsId np C T b ∧ IsId np C T' b' ∧ t = sortTup ⟨b, b', c, c'⟩

theorem sortTup_swap (b b' c c' : ℕ) : sortTup ⟨b, b', c, c'⟩ = sortTup ⟨b', b, c', c⟩ := by
  unfold sortTup
  dsimp only
  by_cases h : b = b'
  · subst h
    rw [if_pos rfl, if_pos rfl]
    by_cases h1 : c' < c
    · rw [if_pos h1, if_neg (by omega)]
    · rw [if_neg h1]
      by_cases h2 : c < c'
      · rw [if_pos h2]
      · have : c = c' := by omega
        subst this
        rw [if_neg h2]
  · rw [if_neg h, if_neg (Ne.symm h)]
    by_cases h1 : b' < b
    · rw [if_pos h1, if_neg (by omega)]
    · rw [if_neg h1, if_pos (by omega)]

theorem sortTup_or (b b' c c' : ℕ) : sortTup ⟨b, b', c, c'⟩ = ⟨b, b', c, c'⟩ ∨ sortTup ⟨b, b', c, c'⟩ = ⟨b', b, c', c⟩ := by
  unfold sortTup
  dsimp only
  split
  · next h => subst h; split <;> simp
  · split <;> simp

theorem sortTup_eq {b b' c c' a a' u u' : ℕ} (h : sortTup ⟨b, b', c, c'⟩ = sortTup ⟨a, a', u, u'⟩) :
    (b = a ∧ b' = a' ∧ c = u ∧ c' = u') ∨ (b = a' ∧ b' = a ∧ c = u' ∧ c' = u) := by
  rcases sortTup_or b b' c c' with h1 | h1 <;> rcases sortTup_or a a' u u' with h2 | h2 <;> rw [h1, h2] at h <;> cases h <;> simp

theorem isName_symm {np : ℕ} {C : ℕ → Ctx} {t : CNode} {T T' : Finset ℕ} {c c' : ℕ} (h : IsName np C t T c T' c') : IsName np C t T' c' T c := by
  obtain ⟨b, b', h1, h2, h3⟩ := h
  exact ⟨b', b, h2, h1, by rw [h3, sortTup_swap]⟩

section
variable {np : ℕ} {C : ℕ → Ctx} (hM : Mesh np C)
include hM

theorem isId_iff {T T' : Finset ℕ} {b b' : ℕ} (h : IsId np C T b) (h' : IsId np C T' b') : b = b' ↔ T = T' := by
  obtain ⟨q, hq, j, e, h1, h2, rfl⟩ := h
  obtain ⟨q', hq', j', e', h1', h2', rfl⟩ := h'
  exact hM.ids q hq q' hq' j j' b b' e e' h1 h1' h2 h2'

theorem isName_det {s t : CNode} {T T' : Finset ℕ} {c c' : ℕ} (h : IsName np C s T c T' c') (h' : IsName np C t T c T' c') : s = t := by
  obtain ⟨b, b', h1, h2, rfl⟩ := h
  obtain ⟨a, a', g1, g2, rfl⟩ := h'
  rw [(isId_iff hM h1 g1).mpr rfl, (isId_iff hM h2 g2).mpr rfl]

theorem isName_unique {t : CNode} {T T' U U' : Finset ℕ} {c c' u u' : ℕ} (h : IsName np C t T c T' c') (h' : IsName np C t U u U' u') :
    (T = U ∧ c = u ∧ T' = U' ∧ c' = u') ∨ (T = U' ∧ c = u' ∧ T' = U ∧ c' = u) := by
  obtain ⟨b, b', h1, h2, rfl⟩ := h
  obtain ⟨a, a', g1, g2, he⟩ := h'
  rcases sortTup_eq he with ⟨e1, e2, e3, e4⟩ | ⟨e1, e2, e3, e4⟩
  · exact Or.inl ⟨(isId_iff hM h1 g1).mp e1, e3, (isId_iff hM h2 g2).mp e2, e4⟩
  · exact Or.inr ⟨(isId_iff hM h1 g2).mp e1, e3, (isId_iff hM h2 g1).mp e2, e4⟩

theorem isName_isIn {t : CNode} {T T' : Finset ℕ} {c c' : ℕ} (h : IsName np C t T c T' c') : t.isIn = true ↔ T = T' := by
  obtain ⟨b, b', h1, h2, rfl⟩ := h
  rw [← isId_iff hM h1 h2]
  unfold CNode.isIn
  rcases sortTup_or b b' c c' with h | h <;> rw [h, beq_iff_eq]
  exact eq_comm

/-- the vertex of an identifier and a number -/
theorem isId_decode {p x c b : ℕ} {T : Finset ℕ} (hp : p < np) (hx : IsVert p (C p) x T c) (hb : IsId np C T b) :
    ∃ k, (C p).eqcOfID b = some k ∧ eFromEQC (C p).disp c k = some x := by
  obtain ⟨q, hq, j, e, h1, h2, rfl⟩ := hb
  obtain ⟨k, a, a', d, x1, x2, x3, x4, x5, x6⟩ := hx
  have hk := (hM.ind p hp q hq j b e h1 h2 k).mpr ⟨d, x1, x2⟩
  refine ⟨k, ?_, ?_⟩
  · unfold Ctx.eqcOfID; rw [hk]; rfl
  · unfold eFromEQC; rw [x3, x5, Option.map_some, Nat.add_comm]

/-- the processes of the edge find its vertices -/
theorem isName_decode {p x y c c' : ℕ} {t : CNode} {T T' : Finset ℕ} (hp : p < np) (hx : IsVert p (C p) x T c) (hy : IsVert p (C p) y T' c')
    (ht : IsName np C t T c T' c') : decodeTup (C p) t = some (x, y) ∨ decodeTup (C p) t = some (y, x) := by
  obtain ⟨b, b', h1, h2, rfl⟩ := ht
  have key : ∀ {x y c c' b b' : ℕ} {T T' : Finset ℕ}, IsVert p (C p) x T c → IsVert p (C p) y T' c' → IsId np C T b → IsId np C T' b' →
      decodeTup (C p) ⟨b, b', c, c'⟩ = some (x, y) := by
    intro x y c c' b b' T T' hx hy h1 h2
    obtain ⟨k, k1, k2⟩ := isId_decode hM hp hx h1
    obtain ⟨k', l1, l2⟩ := isId_decode hM hp hy h2
    unfold decodeTup
    dsimp only
    rw [k1, Option.bind_some, k2, Option.bind_some]
    by_cases h : b' = b
    · subst h
      rw [k1] at l1; cases l1
      rw [if_neg (by simp), Option.bind_some, l2]; rfl
    · rw [if_pos h, l1, Option.bind_some, l2]; rfl
  rcases sortTup_or b b' c c' with h | h <;> rw [h]
  · exact Or.inl (key hx hy h1 h2)
  · exact Or.inr (key hy hx h2 h1)

/-- a class of fewer processes comes first -/
theorem sub_le {p k l : ℕ} {d e : List ℕ} (hp : p < np) (hk : (C p).T[k]? = some d) (hl : (C p).T[l]? = some e) (h : members p d ⊆ members p e) : k ≤ l := by
  by_contra hlt
  push Not at hlt
  have hs := hM.tabs.sorted p hp
  obtain ⟨h1, e1⟩ := List.getElem?_eq_some_iff.mp hk
  obtain ⟨h2, e2⟩ := List.getElem?_eq_some_iff.mp hl
  have hlt' := List.pairwise_iff_getElem.mp hs l k h2 h1 hlt
  rw [e1, e2] at hlt'
  have hok := (hM.tabs.ok p hp).2
  have := (eqLt_iff (hok e (List.mem_of_getElem? hl)) (hok d (List.mem_of_getElem? hk))).mp hlt'
  rcases this with h3 | ⟨h3, m, m1, m2, -⟩
  · have := Finset.card_le_card h; omega
  · have := Finset.eq_of_subset_of_card_le h h3.le
    rw [this] at m2
    exact m2 m1

end

theorem norm_swap {x y : ℕ} (h : x ≠ y) : norm (y, x) = norm (x, y) := by
  unfold norm
  dsimp only
  by_cases h1 : x < y
  · rw [if_pos h1, if_neg (by omega)]
  · rw [if_neg h1, if_pos (by omega)]

theorem norm_inj {x y a b : ℕ} (h : norm (x, y) = norm (a, b)) : (x = a ∧ y = b) ∨ (x = b ∧ y = a) := by
  unfold norm at h
  dsimp only at h
  split at h <;> split at h <;> rw [Prod.mk.injEq] at h <;> omega

section
variable {np : ℕ} {C : ℕ → Ctx} {disps : ℕ → List ℕ} {vmap : ℕ → List (Option ℕ)} (hv : VMaps np C disps vmap)
  {E : ℕ → FEdges} {B : ℕ → Bool → List (List (ℕ × ℕ))}
include hv

local notation "CC" => fun p => coarseCtx (C p) (disps p)

/-- the name of a coarse edge -/
theorem ci_name {p : ℕ} (hp : p < np) {i : CInfo} {T T' : Finset ℕ} {c c' : ℕ} (h : CI p (coarseCtx (C p) (disps p)) i T c T' c') :
    tupOf (coarseCtx (C p) (disps p)) i = some (nameOf (envOf C disps E vmap p) i) ∧ IsName np CC (nameOf (envOf C disps E vmap p) i) T c T' c' := by
  obtain ⟨k, a, b, d, x1, x2, x3, x4, x5, x6⟩ := h.v0
  obtain ⟨k', a', b', d', y1, y2, y3, y4, y5, y6⟩ := h.v1
  obtain ⟨q1, -, j1, q2⟩ := vert_query hv.mesh hp x1 x3 x4 (x5 ▸ Nat.le_add_right _ _) x6
  obtain ⟨q1', -, j1', q2'⟩ := vert_query hv.mesh hp y1 y3 y4 (y5 ▸ Nat.le_add_right _ _) y6
  have e0 : k = i.q0 := Option.some.inj (q1.symm.trans h.e0)
  have e1 : k' = i.q1 := Option.some.inj (q1'.symm.trans h.e1)
  subst e0 e1
  have ht : tupOf (coarseCtx (C p) (disps p)) i = some (sortTup ⟨j1, j1', c, c'⟩) := by
    unfold tupOf
    rw [q2, q2', Option.bind_some, Option.bind_some, x3, Option.bind_some, y3, Option.map_some, x5, y5, Nat.add_sub_cancel_left, Nat.add_sub_cancel_left]
  have hn : nameOf (envOf C disps E vmap p) i = sortTup ⟨j1, j1', c, c'⟩ := by
    unfold nameOf
    rw [show (envOf C disps E vmap p).CC = coarseCtx (C p) (disps p) from rfl, ht]; rfl
  rw [hn]
  exact ⟨ht, j1, j1', ⟨p, hp, _, d, q2, x1, x2⟩, ⟨p, hp, _, d', q2', y1, y2⟩, rfl⟩

variable (hE : EMesh np C E B)
include hE

theorem cnt_ok {p : ℕ} (hp : p < np) : CntOK (envOf C disps E vmap p) := by
  refine ⟨loc_ok hv hE hp, ?_, ?_⟩
  · intro e i hi
    obtain ⟨-, -, -, -, -, -, -, -, T, c, T', c', hci⟩ := key_some hv hE hp hi
    obtain ⟨d, d1, -⟩ := hci.cls
    exact ⟨(List.getElem?_eq_some_iff.mp d1).1, (ci_name hv hp hci).1⟩
  · intro x hx
    obtain ⟨t, j, b, hb, hj, h⟩ := (mem_order hE hp).mp hx
    rw [h]
    exact num_lt' hE hp hb hj

/-- the class of a fine edge is part of that of its coarse edge -/
theorem key_class {p k f : ℕ} (hp : p < np) (ho : (k, f) ∈ order (C p).T.length (E p)) {i : CInfo} (hi : keyOf (envOf C disps E vmap p) f = some i) : k ≤ i.cls := by
  obtain ⟨nd, x, y, n1, n2, n3, n4, n5, T, c, T', c', hci⟩ := key_some hv hE hp hi
  obtain ⟨nd', d, S, r, S', s, o1, o2, -, o3, o4⟩ := order_edge hE hp ho
  rw [n1] at o1; cases o1
  obtain ⟨x', U, u, x1, x2, x3⟩ : ∃ x T c, (vmap p)[nd.1]? = some (some x) ∧ IsVert p (coarseCtx (C p) (disps p)) x T c ∧ S ⊆ T := by
    rcases img hv hp o3.1 with h | h
    · rw [n2] at h; cases h
    · exact h
  obtain ⟨y', U', u', y1, y2, y3⟩ : ∃ x T c, (vmap p)[nd.2]? = some (some x) ∧ IsVert p (coarseCtx (C p) (disps p)) x T c ∧ S' ⊆ T := by
    rcases img hv hp o3.2 with h | h
    · rw [n3] at h; cases h
    · exact h
  rw [n2] at x1; cases x1
  rw [n3] at y1; cases y1
  obtain ⟨e, e1, e2⟩ := hci.cls
  refine sub_le hv.mesh hp o2 e1 ?_
  rw [← o4, e2]
  have hsub : S ∩ S' ⊆ U ∩ U' := Finset.inter_subset_inter x3 y3
  have hpr := (norm_eq (v := (x, y)) (keyOf_cv hi) n4).mp n5
  dsimp only at hpr
  rcases hpr with ⟨h0, h1⟩ | ⟨h0, h1⟩
  · have a := hci.v0
    have b := hci.v1
    rw [h0] at a; rw [h1] at b
    obtain ⟨rfl, -⟩ := isVert_unique hv.mesh hp a x2
    obtain ⟨rfl, -⟩ := isVert_unique hv.mesh hp b y2
    exact hsub
  · have a := hci.v0
    have b := hci.v1
    rw [h0] at a; rw [h1] at b
    obtain ⟨rfl, -⟩ := isVert_unique hv.mesh hp a y2
    obtain ⟨rfl, -⟩ := isVert_unique hv.mesh hp b x2
    rw [Finset.inter_comm T T']
    exact hsub

omit hE in
/-- a name, seen from a process that has the edge -/
theorem prT_name {p x y c c' : ℕ} {t : CNode} {T T' : Finset ℕ} (hp : p < np) (hx : IsVert p (coarseCtx (C p) (disps p)) x T c)
    (hy : IsVert p (coarseCtx (C p) (disps p)) y T' c') (hne : x ≠ y) (ht : IsName np CC t T c T' c') :
    prT (envOf C disps E vmap p) t = norm (x, y) ∧ ∃ v, decodeTup (envOf C disps E vmap p).CC t = some v ∧ v.1 ≠ v.2 := by
  unfold prT
  rw [show (envOf C disps E vmap p).CC = coarseCtx (C p) (disps p) from rfl]
  rcases isName_decode hv.mesh hp hx hy ht with h | h
  · replace h : decodeTup (coarseCtx (C p) (disps p)) t = some (x, y) := h
    rw [h]
    exact ⟨rfl, (x, y), rfl, hne⟩
  · replace h : decodeTup (coarseCtx (C p) (disps p)) t = some (y, x) := h
    rw [h]
    exact ⟨norm_swap hne, (y, x), rfl, Ne.symm hne⟩

/-- the merged tables -/
def MergedCE (np : ℕ) (C : ℕ → Ctx) (disps : ℕ → List ℕ) (E : ℕ → FEdges) (vmap : ℕ → List (Option ℕ)) (rows : ℕ → List (List CNode)) : Prop :=
  ∀ p < np, (rows p).length = (C p).T.length ∧ ∀ (k : ℕ) (d : List ℕ), (C p).T[k]? = some d →
    ∃ row, (rows p)[k]? = some row ∧ (row.Pairwise fun a b => lessTup a b = true) ∧ ∀ c, c ∈ row ↔
      ∃ q < np, ∃ (l : ℕ) (e : List ℕ), (C q).T[l]? = some e ∧ members q e = members p d ∧
        ∃ y ∈ firstEdges (envOf C disps E vmap q), isAdd l y = true ∧ nameOf (envOf C disps E vmap q) y.2 = c

variable {rows : ℕ → List (List CNode)} (hR : MergedCE np C disps E vmap rows)
include hR

/-- the entries of a row -/
theorem row_entry {p k : ℕ} {d : List ℕ} {row : List CNode} {t : CNode} (hp : p < np) (hk : (C p).T[k]? = some d) (hrow : (rows p)[k]? = some row) (ht : t ∈ row) :
    ∃ x y c c' T T', x ≠ y ∧ IsVert p (coarseCtx (C p) (disps p)) x T c ∧ IsVert p (coarseCtx (C p) (disps p)) y T' c' ∧ IsName np CC t T c T' c' ∧ T ∩ T' = members p d := by
  obtain ⟨row', r1, -, r3⟩ := (hR p hp).2 k d hk
  rw [hrow] at r1; cases r1
  obtain ⟨q, hq, l, e, e1, e2, y, hy, hadd, hn⟩ := (r3 t).mp ht
  obtain ⟨-, hkey, -⟩ := firsts_mem _ hy
  obtain ⟨-, -, -, -, -, -, -, -, T, c, T', c', hci⟩ := key_some hv hE hq hkey
  have hname := (ci_name hv (E := E) hq hci).2
  rw [hn] at hname
  unfold isAdd at hadd
  rw [Bool.and_eq_true, beq_iff_eq] at hadd
  obtain ⟨d', d1, d2⟩ := hci.cls
  rw [hadd.1] at d1
  replace d1 : (C q).T[l]? = some d' := d1
  rw [e1] at d1; cases d1
  have hTT : T ∩ T' = members p d := by rw [← d2, e2]
  have hpm : p ∈ T ∩ T' := by rw [hTT, mem_members]; exact Or.inl rfl
  rw [Finset.mem_inter] at hpm
  obtain ⟨-, x, hx⟩ := vert_partner hv.mesh hq hci.v0 hpm.1
  obtain ⟨-, z, hz⟩ := vert_partner hv.mesh hq hci.v1 hpm.2
  refine ⟨x, z, c, c', T, T', ?_, hx, hz, hname, hTT⟩
  rintro rfl
  obtain ⟨rfl, rfl⟩ := isVert_unique hv.mesh hp hx hz
  have := isVert_inj hv.mesh hq hci.v0 hci.v1
  have := keyOf_cv hkey
  omega

theorem rows_ok {p : ℕ} (hp : p < np) : RowsE (envOf C disps E vmap p) (rows p) := by
  have hV := cnt_ok hv hE hp
  have hlen : (rows p).length = (C p).T.length := (hR p hp).1
  have getd : ∀ {k : ℕ} {row : List CNode}, (rows p)[k]? = some row → ∃ d, (C p).T[k]? = some d := by
    intro k row h
    have := (List.getElem?_eq_some_iff.mp h).1
    rw [hlen] at this
    exact ⟨_, List.getElem?_eq_getElem this⟩
  have strict : ∀ {k : ℕ} {row : List CNode}, (rows p)[k]? = some row → row.Pairwise fun a b => lessTup a b = true := by
    intro k row h
    obtain ⟨d, hd⟩ := getd h
    obtain ⟨row', r1, r2, -⟩ := (hR p hp).2 k d hd
    rw [h] at r1; cases r1
    exact r2
  refine ⟨hlen, ?_, fun k row h => tup_first (strict h), ?_, ?_, fun k row h => tup_nodup (strict h), ?_, ?_, ?_, ?_⟩
  · intro row hrow
    obtain ⟨d, hd⟩ := getd hrow
    obtain ⟨row', r1, -, r3⟩ := (hR p hp).2 0 d hd
    rw [hrow] at r1; cases r1
    rw [List.eq_nil_iff_forall_not_mem]
    intro t ht
    obtain ⟨q, hq, l, e, e1, e2, y, hy, hadd, -⟩ := (r3 t).mp ht
    have hne : (C p).T ≠ [] := by intro h; rw [h] at hd; cases hd
    have := hv.fine.loc p hp hne
    rw [hd] at this; cases this
    have hqp : q ∈ members p [] := by rw [← e2, mem_members]; exact Or.inl rfl
    have hqp : q = p := by rw [mem_members] at hqp; simpa using hqp
    subst hqp
    have hl : l = 0 := cls_eq (hv.fine.tabs.ok q hq) e1 hd e2
    subst hl
    obtain ⟨ho, hkey, -⟩ := firsts_mem _ hy
    have := key_class hv hE hq ho hkey
    unfold isAdd at hadd
    rw [Bool.and_eq_true, beq_iff_eq, bne_iff_ne] at hadd
    have h0 := hadd.1
    have h1 := hadd.2
    rw [h0] at this h1
    exact h1 (Nat.le_zero.mp this).symm
  · intro k row hrow t ht
    obtain ⟨d, hd⟩ := getd hrow
    obtain ⟨x, y, c, c', T, T', hne, hx, hy, hn, -⟩ := row_entry hv hE hR hp hd hrow ht
    exact (prT_name hv (E := E) hp hx hy hne hn).2
  · intro k row hrow t ht e i hi hpr
    obtain ⟨d, hd⟩ := getd hrow
    obtain ⟨x, y, c, c', T, T', hne, hx, hy, hn, hTT⟩ := row_entry hv hE hR hp hd hrow ht
    rw [(prT_name hv (E := E) hp hx hy hne hn).1] at hpr
    obtain ⟨-, -, -, -, -, -, -, -, U, u, U', u', hci⟩ := key_some hv hE hp hi
    obtain ⟨d', d1, d2⟩ := hci.cls
    have hin := isName_isIn hv.mesh hn
    have hUU : U ∩ U' = T ∩ T' ∧ (U = U' ↔ T = T') := by
      have h0 := hci.v0
      have h1 := hci.v1
      rcases (norm_eq (v := (x, y)) (keyOf_cv hi) hne).mp hpr with ⟨a, b⟩ | ⟨a, b⟩ <;> dsimp only at a b <;> rw [a] at h0 <;> rw [b] at h1
      · obtain ⟨rfl, -⟩ := isVert_unique hv.mesh hp h0 hx
        obtain ⟨rfl, -⟩ := isVert_unique hv.mesh hp h1 hy
        exact ⟨rfl, Iff.rfl⟩
      · obtain ⟨rfl, -⟩ := isVert_unique hv.mesh hp h0 hy
        obtain ⟨rfl, -⟩ := isVert_unique hv.mesh hp h1 hx
        exact ⟨Finset.inter_comm _ _, eq_comm⟩
    refine ⟨cls_eq (hv.mesh.tabs.ok p hp) d1 hd (by rw [d2, hUU.1, hTT]), ?_⟩
    have hcr := hci.cross
    rw [ne_eq, hUU.2, ← hin] at hcr
    revert hcr; cases i.cross <;> cases t.isIn <;> simp
  · intro k l row row' hrow hrow' s hs t ht h
    obtain ⟨d, hd⟩ := getd hrow
    obtain ⟨d', hd'⟩ := getd hrow'
    obtain ⟨x, y, c, c', T, T', hne, hx, hy, hn, hTT⟩ := row_entry hv hE hR hp hd hrow hs
    obtain ⟨x', y', u, u', U, U', hne', hx', hy', hn', hUU⟩ := row_entry hv hE hR hp hd' hrow' ht
    rw [(prT_name hv (E := E) hp hx hy hne hn).1, (prT_name hv (E := E) hp hx' hy' hne' hn').1] at h
    rcases norm_inj h with ⟨rfl, rfl⟩ | ⟨rfl, rfl⟩
    · obtain ⟨rfl, rfl⟩ := isVert_unique hv.mesh hp hx hx'
      obtain ⟨rfl, rfl⟩ := isVert_unique hv.mesh hp hy hy'
      exact ⟨cls_eq (hv.fine.tabs.ok p hp) hd hd' (hTT.symm.trans hUU), isName_det hv.mesh hn hn'⟩
    · obtain ⟨rfl, rfl⟩ := isVert_unique hv.mesh hp hx hy'
      obtain ⟨rfl, rfl⟩ := isVert_unique hv.mesh hp hy hx'
      exact ⟨cls_eq (hv.fine.tabs.ok p hp) hd hd' (by rw [← hTT, ← hUU, Finset.inter_comm]), isName_det hv.mesh hn (isName_symm hn')⟩
  · intro x hx i hi hno
    refine ⟨?_, order_eqc hE hp hx⟩
    obtain ⟨y, hy⟩ := firsts_cover (keyOf (envOf C disps E vmap p)) (D := []) hx hi (by simp)
    obtain ⟨ho, hkey, -⟩ := firsts_mem _ hy
    have hle := key_class hv hE hp hx hi
    have hfy : i.cls = y.1 := by
      by_contra hne
      obtain ⟨-, -, -, -, -, -, -, -, T, c, T', c', hci⟩ := key_some hv hE hp hi
      obtain ⟨d, d1, -⟩ := hci.cls
      obtain ⟨row, r1, -, r3⟩ := (hR p hp).2 i.cls d d1
      refine hno row r1 (List.mem_map.mpr ⟨nameOf (envOf C disps E vmap p) i, (r3 _).mpr ⟨p, hp, i.cls, d, d1, rfl, (y, i), hy, ?_, rfl⟩, ?_⟩)
      · unfold isAdd
        rw [Bool.and_eq_true, beq_iff_eq, bne_iff_ne]
        exact ⟨rfl, hne⟩
      · have hlt := keyOf_cv hi
        rw [(prT_name hv (E := E) hp hci.v0 hci.v1 (by omega) (ci_name hv (E := E) hp hci).2).1]
        unfold norm pr
        rw [if_pos hlt]
    have hfirst := firsts_first (keyOf (envOf C disps E vmap p)) (R := fun a b => a.1 ≤ b.1) (fun a => le_rfl) ((order_asc hE hp).imp fun h => h.1) hy hx hi
    dsimp only at hfirst
    omega
  · intro f i hi
    exact order_cover hE hp (keyOf_lt hi)
  · exact (order_asc hE hp).imp fun h => h.2

end

end NgsAMG.CMap
