import Verif.Props.BTM6

/-! C72: the edges of the distributed mesh. -/

namespace NgsAMG.BTM

open NgsAMG.EQC NgsAMG.RedTab

/-- the edge of a process a name stands for -/
def decode (C : Ctx) (c : CNode) : ℕ × ℕ :=
  (((C.eqcOfID c.e0).bind fun k => eFromEQC C.disp c.v0 k).getD 0, ((C.eqcOfID c.e1).bind fun k => eFromEQC C.disp c.v1 k).getD 0)

/-- specification: `e` is, on process `p`, an edge that was given on some process -/
def GivenAnywhere (np : ℕ) (C : ℕ → Ctx) (edges : ℕ → List (ℕ × ℕ)) (p : ℕ) (e : ℕ × ℕ) : Prop :=
  ∃ q < np, ∃ g ∈ edges q, ∃ S r S' s, IsEdge q (C q) g S r S' s ∧ IsEdge p (C p) e S r S' s

/-- what is known of the rows after the exchange -/
structure ExRows (np : ℕ) (C : ℕ → Ctx) (edges : ℕ → List (ℕ × ℕ)) (p : ℕ) (ex : List (List CNode)) : Prop where
  len : ex.length = (C p).T.length
  rows : ∀ (k : ℕ) (d : List ℕ), (C p).T[k]? = some d → k ≠ 0 → ∃ row, ex[k]? = some row ∧ (row.Pairwise fun a b => smaller a b = true) ∧
        ∀ c, c ∈ row ↔ SharedName np C edges (members p d) c

section
variable {np : ℕ} {C : ℕ → Ctx} (hM : Mesh np C) {edges : ℕ → List (ℕ × ℕ)} (hG : ∀ p < np, Given (C p) (edges p))
  {items : ℕ → List Item} (hI : ∀ p < np, (edges p).mapM (classify (C p)) = some (items p))

include hM in
theorem isEdge_unique {p : ℕ} (hp : p < np) {e : ℕ × ℕ} {S S' U U' : Finset ℕ} {r s r' s' : ℕ} (h : IsEdge p (C p) e S r S' s)
    (h' : IsEdge p (C p) e U r' U' s') : S = U ∧ r = r' ∧ S' = U' ∧ s = s' := by
  obtain ⟨a1, a2⟩ := isVert_unique hM hp h.1 h'.1
  obtain ⟨b1, b2⟩ := isVert_unique hM hp h.2 h'.2
  exact ⟨a1, a2, b1, b2⟩

include hM in
theorem isEdge_inj {p : ℕ} (hp : p < np) {e f : ℕ × ℕ} {S S' : Finset ℕ} {r s : ℕ} (h : IsEdge p (C p) e S r S' s)
    (h' : IsEdge p (C p) f S r S' s) : e = f := Prod.ext (isVert_inj hM hp h.1 h'.1) (isVert_inj hM hp h.2 h'.2)

include hM in
theorem names_of {p q : ℕ} (hp : p < np) (hq : q < np) {e f : ℕ × ℕ} {S S' : Finset ℕ} {c : CNode} (h : IsEdge p (C p) e S c.v0 S' c.v1)
    (h' : IsEdge q (C q) f S c.v0 S' c.v1) (hN : Names (C q) f c) : Names (C p) e c ∧ decode (C p) c = e := by
  have d1 := vert_decode hM hp hq h.1 h'.1 hN.1
  have d2 := vert_decode hM hp hq h.2 h'.2 hN.2
  obtain ⟨-, -, i, -, -, -, -, -, -, i1⟩ := (isVert_iff hM hp).mp h.1
  obtain ⟨-, -, j, -, -, -, -, -, -, j1⟩ := (isVert_iff hM hp).mp h.2
  have e1 := (idName_iff hM hp hq h.1 h'.1 i1 hN.1).mpr rfl
  have e2 := (idName_iff hM hp hq h.2 h'.2 j1 hN.2).mpr rfl
  subst e1 e2
  refine ⟨⟨i1, j1⟩, ?_⟩
  unfold decode
  rw [d1, d2]; rfl

include hM hG in
/-- the edge of process `p` a name in one of its rows stands for -/
theorem shared_edge {p : ℕ} (hp : p < np) {U : Finset ℕ} {c : CNode} (hc : SharedName np C edges U c) (hpU : p ∈ U) :
    ∃ S S', IsEdge p (C p) (decode (C p) c) S c.v0 S' c.v1 ∧ Names (C p) (decode (C p) c) c ∧ S ∩ S' = U ∧ (c.isIn = true ↔ S = S') ∧
      GivenAnywhere np C edges p (decode (C p) c) := by
  obtain ⟨q, hq, e, he, S, S', hE, hN, hU⟩ := hc
  rw [← hU, Finset.mem_inter] at hpU
  obtain ⟨-, a, ha⟩ := vert_partner hM hq hE.1 hpU.1
  obtain ⟨-, b, hb⟩ := vert_partner hM hq hE.2 hpU.2
  have hab : IsEdge p (C p) (a, b) S c.v0 S' c.v1 := ⟨ha, hb⟩
  obtain ⟨n1, n2⟩ := names_of hM hp hq hab hE hN
  rw [n2]
  refine ⟨S, S', hab, n1, hU, ?_, q, hq, e, he, S, _, S', _, hE, hab⟩
  rw [← idName_iff hM hp hp ha hb n1.1 n1.2]
  simp [CNode.isIn]

include hM hG in
theorem given_lt {p : ℕ} (hp : p < np) {e : ℕ × ℕ} (h : GivenAnywhere np C edges p e) : e.1 < e.2 ∧ e.2 < (C p).nv := by
  obtain ⟨q, hq, g, hg, S, r, S', s, h1, h2⟩ := h
  refine ⟨(vert_lt hM hp hq h2.1 h2.2 h1.1 h1.2).mpr ((hG q hq).range g hg).1, ?_⟩
  exact ((isVert_iff hM hp).mp h2.2).1

/-- the name of an edge that was given somewhere is shared -/
theorem sharedName_of {p : ℕ} {e : ℕ × ℕ} (hM : Mesh np C) (hp : p < np) (h : GivenAnywhere np C edges p e) :
    ∃ c S S', IsEdge p (C p) e S c.v0 S' c.v1 ∧ Names (C p) e c ∧ SharedName np C edges (S ∩ S') c ∧ decode (C p) c = e := by
  obtain ⟨q, hq, g, hg, S, r, S', s, h1, h2⟩ := h
  obtain ⟨-, -, i, -, -, -, -, -, -, i1⟩ := (isVert_iff hM hq).mp h1.1
  obtain ⟨-, -, j, -, -, -, -, -, -, j1⟩ := (isVert_iff hM hq).mp h1.2
  obtain ⟨n1, n2⟩ := names_of (c := ⟨i, j, r, s⟩) hM hp hq h2 h1 ⟨i1, j1⟩
  exact ⟨⟨i, j, r, s⟩, S, S', h2, n1, ⟨q, hq, g, hg, S, S', h1, ⟨i1, j1⟩, rfl⟩, n2⟩

include hM hG hI in
theorem rowsOK {p : ℕ} (hp : p < np) (hne : (C p).T ≠ []) {ex : List (List CNode)} (hex : ExRows np C edges p ex) :
    RowsOK (C p) (items p) ex (decode (C p)) := by
  have hrow : ∀ (k : ℕ) (row : List CNode), ex[k]? = some row → k ≠ 0 → ∃ d, (C p).T[k]? = some d ∧
      (row.Pairwise fun a b => smaller a b = true) ∧ ∀ c, c ∈ row ↔ SharedName np C edges (members p d) c := by
    intro k row hk h0
    have hkl : k < (C p).T.length := by rw [← hex.len]; exact (List.getElem?_eq_some_iff.mp hk).1
    obtain ⟨row', r1, r2, r3⟩ := hex.rows k _ (List.getElem?_eq_getElem hkl) h0
    rw [hk] at r1; cases r1
    exact ⟨_, List.getElem?_eq_getElem hkl, r2, r3⟩
  have hself : ∀ d : List ℕ, p ∈ members p d := fun d => mem_members.mpr (Or.inl rfl)
  refine ⟨hex.len, List.length_pos_iff.mpr hne, fun k row hk h0 => (hrow k row hk h0).choose_spec.2.1, ?_, ?_, ?_⟩
  · intro k row hk h0 c hc hin
    obtain ⟨d, h1, h2, h3⟩ := hrow k row hk h0
    obtain ⟨S, S', g1, g2, g3, g4, -⟩ := shared_edge hM hG hp ((h3 c).mp hc) (hself d)
    have hS := g4.mp hin
    subst hS
    rw [Finset.inter_self] at g3
    have main : ∀ n r, IsVert p (C p) n S r → eFromEQC (C p).disp r k = some n := by
      rintro n r ⟨k', a, b, d', a1, a2, a3, a4, a5, a6⟩
      have := cls_eq (hM.tabs.ok p hp) a1 h1 (by rw [a2, g3])
      subst this
      simp [eFromEQC, a3, a5, Nat.add_comm]
    exact ⟨main _ _ g1.1, main _ _ g1.2⟩
  · intro k row hk h0 c hc _
    obtain ⟨d, h1, h2, h3⟩ := hrow k row hk h0
    obtain ⟨S, S', g1, g2, -⟩ := shared_edge hM hG hp ((h3 c).mp hc) (hself d)
    exact ⟨vert_decode hM hp hp g1.1 g1.1 g2.1, vert_decode hM hp hp g1.2 g1.2 g2.2⟩
  · intro it hit
    obtain ⟨g1, S, S', c, g2, g3, g4, g5, g6, g7, g8⟩ := item_spec hM hG hI hp hit
    refine ⟨(List.getElem?_eq_some_iff.mp g4).1, fun h0 => ?_⟩
    obtain ⟨row, r1, r2, r3⟩ := hex.rows _ c g4 h0
    refine ⟨row, r1, (r3 _).mpr ⟨p, hp, it.edge, g1, S, S', g2, g3, g5.symm⟩, (names_of hM hp hp g2 g2 g3).2, g7⟩

/-- specification of a block of edges of process `p`: the edges given anywhere whose class is `U`, within a class (`t`) or between classes -/
def IsBlock (np : ℕ) (C : ℕ → Ctx) (edges : ℕ → List (ℕ × ℕ)) (p : ℕ) (U : Finset ℕ) (t : Bool) (b : List (ℕ × ℕ)) : Prop :=
  b.Nodup ∧ ∀ e, e ∈ b ↔ GivenAnywhere np C edges p e ∧ ∃ S r S' s, IsEdge p (C p) e S r S' s ∧ S ∩ S' = U ∧ (t = true ↔ S = S')

include hM hG hI in
/-- the edges of the local class -/
theorem block_zero {p : ℕ} (hp : p < np) (hne : (C p).T ≠ []) (t : Bool) :
    IsBlock np C edges p {p} t (((items p).filter fun i => i.cls == 0 && (i.isIn == t)).map Item.edge) := by
  have hok := items_ok hI hp
  refine ⟨?_, ?_⟩
  · have : ((items p).map Item.edge).Nodup := by rw [hok.edge]; exact (hG p hp).nodup
    exact this.sublist (List.filter_sublist.map _)
  · intro e
    have h0 := hM.loc p hp hne
    rw [List.mem_map]
    constructor
    · rintro ⟨it, hit, rfl⟩
      rw [List.mem_filter] at hit
      obtain ⟨g1, S, S', c, g2, g3, g4, g5, g6, g7, g8⟩ := item_spec hM hG hI hp hit.1
      simp only [Bool.and_eq_true, beq_iff_eq] at hit
      rw [hit.2.1, h0] at g4; cases g4
      refine ⟨⟨p, hp, it.edge, g1, S, _, S', _, g2, g2⟩, S, _, S', _, g2, by rw [← g5]; simp [members], ?_⟩
      rw [← hit.2.2]; exact g6
    · rintro ⟨⟨q, hq, g, hg, U, r', U', s', h1, h2⟩, S, r, S', s, h3, h4, h5⟩
      obtain ⟨u1, u2, u3, u4⟩ := isEdge_unique hM hp h3 h2
      subst u1 u2 u3 u4
      have hqp : q = p := by
        have : q ∈ S ∩ S' := Finset.mem_inter.mpr ⟨isVert_self h1.1, isVert_self h1.2⟩
        rw [h4] at this
        simpa using this
      subst hqp
      have := isEdge_inj hM hp h1 h2
      subst this
      obtain ⟨it, i1, i2⟩ := item_of_edge hI hp hg
      refine ⟨it, ?_, i2⟩
      obtain ⟨g1, V, V', c, g2, g3, g4, g5, g6, g7, g8⟩ := item_spec hM hG hI hp i1
      rw [i2] at g2
      obtain ⟨v1, -, v3, -⟩ := isEdge_unique hM hp h3 g2
      subst v1 v3
      rw [List.mem_filter]
      refine ⟨i1, ?_⟩
      simp only [Bool.and_eq_true, beq_iff_eq]
      refine ⟨cls_eq (hM.tabs.ok q hp) g4 h0 (by rw [g5, h4]; simp [members]), ?_⟩
      rw [Bool.eq_iff_iff, g6, h5]

include hM hG in
/-- the edges of a shared class -/
theorem block_row {p k : ℕ} {d : List ℕ} (hp : p < np) {ex : List (List CNode)} (hex : ExRows np C edges p ex) (hk : (C p).T[k]? = some d)
    (h0 : k ≠ 0) : ∃ row, ex[k]? = some row ∧ IsBlock np C edges p (members p d) true ((rowIn row).map (decode (C p))) ∧
      IsBlock np C edges p (members p d) false ((rowCr row).map (decode (C p))) := by
  obtain ⟨row, r1, r2, r3⟩ := hex.rows k d hk h0
  refine ⟨row, r1, ?_⟩
  have hself : p ∈ members p d := mem_members.mpr (Or.inl rfl)
  have hnd : row.Nodup := r2.imp fun {a b} h => by
    rintro rfl
    exact absurd ((smaller_iff a a).mp h) (lt_irrefl _)
  have hinj : ∀ c ∈ row, ∀ c' ∈ row, decode (C p) c = decode (C p) c' → c = c' := by
    intro c hc c' hc' h
    obtain ⟨S, S', -, g2, -⟩ := shared_edge hM hG hp ((r3 c).mp hc) hself
    obtain ⟨S, S', -, g2', -⟩ := shared_edge hM hG hp ((r3 c').mp hc') hself
    rw [← h] at g2'
    exact names_unique g2 g2'
  have hmemIn : ∀ c, c ∈ rowIn row ↔ c ∈ row ∧ c.isIn = true := by
    intro c
    constructor
    · intro h
      obtain ⟨j, hj⟩ := List.mem_iff_getElem?.mp h
      unfold rowIn at hj
      have hjl : j < nIn row := by
        have := (List.getElem?_eq_some_iff.mp hj).1
        rw [List.length_take] at this; omega
      rw [List.getElem?_take_of_lt hjl] at hj
      exact ⟨List.mem_of_getElem? hj, (in_first r2 hj).mpr hjl⟩
    · rintro ⟨h, hin⟩
      obtain ⟨j, hj⟩ := List.mem_iff_getElem?.mp h
      have := (in_first r2 hj).mp hin
      refine List.mem_iff_getElem?.mpr ⟨j, ?_⟩
      unfold rowIn
      rw [List.getElem?_take_of_lt this, hj]
  have hmemCr : ∀ c, c ∈ rowCr row ↔ c ∈ row ∧ c.isIn = false := by
    intro c
    constructor
    · intro h
      obtain ⟨j, hj⟩ := List.mem_iff_getElem?.mp h
      unfold rowCr at hj
      rw [List.getElem?_drop] at hj
      refine ⟨List.mem_of_getElem? hj, ?_⟩
      rw [← Bool.not_eq_true, in_first r2 hj]; omega
    · rintro ⟨h, hin⟩
      obtain ⟨j, hj⟩ := List.mem_iff_getElem?.mp h
      have : ¬ j < nIn row := fun h' => by
        have := (in_first r2 hj).mpr h'
        rw [hin] at this; cases this
      refine List.mem_iff_getElem?.mpr ⟨j - nIn row, ?_⟩
      unfold rowCr
      rw [List.getElem?_drop, show nIn row + (j - nIn row) = j by omega, hj]
  have gen : ∀ (t : Bool) (l : List CNode), l.Sublist row → (∀ c, c ∈ l ↔ c ∈ row ∧ c.isIn = t) →
      IsBlock np C edges p (members p d) t (l.map (decode (C p))) := by
    intro t l hl hmem
    refine ⟨(List.nodup_map_iff_inj_on (hnd.sublist hl)).mpr fun a ha b hb h => hinj a (hl.subset ha) b (hl.subset hb) h, ?_⟩
    intro e
    rw [List.mem_map]
    constructor
    · rintro ⟨c, hc, rfl⟩
      obtain ⟨hc1, hc2⟩ := (hmem c).mp hc
      obtain ⟨S, S', g1, g2, g3, g4, g5⟩ := shared_edge hM hG hp ((r3 c).mp hc1) hself
      exact ⟨g5, S, _, S', _, g1, g3, by rw [← hc2]; exact g4⟩
    · rintro ⟨h1, S, r, S', s, h2, h3, h4⟩
      obtain ⟨c, U, U', g1, g2, g3, g4⟩ := sharedName_of hM hp h1
      refine ⟨c, ?_, g4⟩
      obtain ⟨u1, u2, u3, u4⟩ := isEdge_unique hM hp h2 g1
      subst u1 u3
      rw [h3] at g3
      refine (hmem c).mpr ⟨(r3 c).mpr g3, ?_⟩
      obtain ⟨V, V', f1, f2, f3, f4, -⟩ := shared_edge hM hG hp g3 hself
      rw [g4] at f1
      obtain ⟨v1, -, v3, -⟩ := isEdge_unique hM hp h2 f1
      subst v1 v3
      rw [Bool.eq_iff_iff, f4, h4]
  exact ⟨gen true _ (List.take_sublist _ _) hmemIn, gen false _ (List.drop_sublist _ _) hmemCr⟩

/-- all blocks of process `p` -/
def blk (items : List Item) (ex : List (List CNode)) (C : Ctx) (t : Bool) : List (List (ℕ × ℕ)) :=
  if t then inB items ex (decode C) else crB items ex (decode C)

include hM hG hI in
theorem blocks {p k : ℕ} {d : List ℕ} (hp : p < np) {ex : List (List CNode)} (hex : ExRows np C edges p ex) (hk : (C p).T[k]? = some d)
    (t : Bool) : ∃ b, (blk (items p) ex (C p) t)[k]? = some b ∧ IsBlock np C edges p (members p d) t b := by
  have hne : (C p).T ≠ [] := by rintro h; rw [h] at hk; simp at hk
  by_cases h0 : k = 0
  · subst h0
    rw [hM.loc p hp hne] at hk; cases hk
    have hz := block_zero hM hG hI hp hne t
    have hm : members p [] = {p} := by simp [members]
    rw [hm]
    refine ⟨_, ?_, hz⟩
    unfold blk
    cases t
    · simp [crB]
    · simp [inB]
  · obtain ⟨row, r1, r2, r3⟩ := block_row hM hG hp hex hk h0
    unfold blk
    cases t
    · exact ⟨_, crB_get r1 h0, r3⟩
    · exact ⟨_, inB_get r1 h0, r2⟩

include hM hG hI in
theorem blk_length {p : ℕ} (hp : p < np) (hne : (C p).T ≠ []) {ex : List (List CNode)} (hex : ExRows np C edges p ex) (t : Bool) :
    (blk (items p) ex (C p) t).length = (C p).T.length := by
  have hO := rowsOK hM hG hI hp hne hex
  unfold blk
  cases t
  · exact crB_length hO
  · exact inB_length hO

end

end NgsAMG.BTM
