import Verif.Props.BTM2
import Verif.Props.BTM3

/-! C72: names of vertices, classes of edges. -/

namespace NgsAMG.BTM

open NgsAMG.EQC

/-- specification: what `SetNodes` assumes of the vertices of a mesh on `np` processes: consistent tables of classes, closed under
intersection (C57), with the local class as the first one; identifiers that name classes across processes (C58); offsets; a class has the
same number of vertices on all its processes (C71) -/
structure Mesh (np : ℕ) (C : ℕ → Ctx) : Prop where
  tabs : Tables np fun p => (C p).T
  inter : ∀ p < np, ∀ d ∈ (C p).T, ∀ e ∈ (C p).T, ∃ c ∈ (C p).T, members p c = members p d ∩ members p e
  loc : ∀ p < np, (C p).T ≠ [] → (C p).T[0]? = some []
  idl : ∀ p < np, (C p).ids.length = (C p).T.length
  ids : ∀ p < np, ∀ q < np, ∀ (i j a b : ℕ) (d e : List ℕ), (C p).ids[i]? = some a → (C q).ids[j]? = some b → (C p).T[i]? = some d →
    (C q).T[j]? = some e → (a = b ↔ members p d = members q e)
  ind : ∀ p < np, ∀ q < np, ∀ (j b : ℕ) (e : List ℕ), (C q).ids[j]? = some b → (C q).T[j]? = some e →
    ∀ i : ℕ, (C p).ind[b]? = some (some i) ↔ ∃ d, (C p).T[i]? = some d ∧ members p d = members q e
  dl : ∀ p < np, (C p).disp.length = (C p).T.length + 1
  d0 : ∀ p < np, (C p).disp[0]? = some 0
  offs : ∀ p < np, Offsets (C p).disp
  sizes : ∀ p < np, ∀ q < np, ∀ (i j a b a' b' : ℕ) (d e : List ℕ), (C p).T[i]? = some d → (C q).T[j]? = some e → members p d = members q e →
    (C p).disp[i]? = some a → (C p).disp[i + 1]? = some b → (C q).disp[j]? = some a' → (C q).disp[j + 1]? = some b' → b - a = b' - a'

/-- specification: the vertex `n` of process `p` is the vertex number `r` of the class that consists of the processes `S` -/
def IsVert (p : ℕ) (C : Ctx) (n : ℕ) (S : Finset ℕ) (r : ℕ) : Prop :=
  ∃ (k a b : ℕ) (d : List ℕ), C.T[k]? = some d ∧ members p d = S ∧ C.disp[k]? = some a ∧ C.disp[k + 1]? = some b ∧ n = a + r ∧ n < b

/-- number of vertices of a process -/
def Ctx.nv (C : Ctx) : ℕ := C.disp.getLastD 0

section
variable {np : ℕ} {C : ℕ → Ctx} (hM : Mesh np C)

include hM in
/-- every vertex has a name -/
theorem vert_block {p n : ℕ} (hp : p < np) (hn : n < (C p).nv) :
    ∃ (k a b : ℕ) (d : List ℕ), (C p).T[k]? = some d ∧ (C p).disp[k]? = some a ∧ (C p).disp[k + 1]? = some b ∧ a ≤ n ∧ n < b := by
  have hl := hM.dl p hp
  have hlast : (C p).disp[(C p).T.length]? = some (C p).nv := by
    have : (C p).T.length < (C p).disp.length := by omega
    rw [List.getElem?_eq_getElem this]
    congr 1
    exact (getLastD_of_get hl (List.getElem?_eq_getElem this)).symm
  -- the last offset that is at most `n`
  have key : ∀ m, m ≤ (C p).T.length → (∃ b, (C p).disp[m]? = some b ∧ n < b) →
      ∃ (k a b : ℕ), k < m ∧ (C p).disp[k]? = some a ∧ (C p).disp[k + 1]? = some b ∧ a ≤ n ∧ n < b := by
    intro m
    induction m with
    | zero =>
      rintro - ⟨b, hb, hnb⟩
      rw [hM.d0 p hp] at hb
      cases hb; omega
    | succ m ih =>
      rintro hm ⟨b, hb, hnb⟩
      have hm' : m < (C p).disp.length := by omega
      by_cases h : (C p).disp[m] ≤ n
      · exact ⟨m, _, b, by omega, List.getElem?_eq_getElem hm', hb, h, hnb⟩
      · obtain ⟨k, a, b', h1, h2⟩ := ih (by omega) ⟨_, List.getElem?_eq_getElem hm', by omega⟩
        exact ⟨k, a, b', by omega, h2⟩
  obtain ⟨k, a, b, h1, h2, h3, h4, h5⟩ := key _ le_rfl ⟨_, hlast, hn⟩
  exact ⟨k, a, b, _, List.getElem?_eq_getElem h1, h2, h3, h4, h5⟩

include hM in
theorem block_nv {p k b : ℕ} (hp : p < np) (hk : k < (C p).T.length) (hb : (C p).disp[k + 1]? = some b) : b ≤ (C p).nv := by
  have hl := hM.dl p hp
  have h2 : (C p).T.length < (C p).disp.length := by omega
  have := offsets_le (hM.offs p hp) (show k + 1 ≤ (C p).T.length by omega) hb (List.getElem?_eq_getElem h2)
  rwa [← getLastD_of_get hl (List.getElem?_eq_getElem h2)] at this

include hM in
/-- the queries -/
theorem vert_query {p k n a b : ℕ} {d : List ℕ} (hp : p < np) (hk : (C p).T[k]? = some d) (ha : (C p).disp[k]? = some a)
    (hb : (C p).disp[k + 1]? = some b) (h1 : a ≤ n) (h2 : n < b) :
    (C p).eqcV n = some k ∧ (C p).locV n = some (n - a) ∧ ∃ i, (C p).ids[k]? = some i := by
  have hkl : k < (C p).T.length := (List.getElem?_eq_some_iff.mp hk).1
  have hnv : n < (C p).disp.getLastD 0 := lt_of_lt_of_le h2 (block_nv hM hp hkl hb)
  have e1 : (C p).eqcV n = some k := by
    unfold Ctx.eqcV eqcOf
    rw [if_pos hnv]
    exact eqcOfE_eq (hM.offs p hp) ha hb h1 h2
  refine ⟨e1, ?_, ?_⟩
  · unfold Ctx.eqcV at e1
    unfold Ctx.locV toEQC
    rw [e1, Option.bind_some, if_pos hnv, ha]
    rfl
  · exact ⟨_, List.getElem?_eq_getElem (by rw [hM.idl p hp]; exact hkl)⟩

/-- the name of a vertex as used in the exchange: identifier of the class and number in the class -/
def idName (C : Ctx) (n : ℕ) : Option (ℕ × ℕ) := (C.eqcV n).bind fun k => (C.ids[k]?).bind fun i => (C.locV n).map fun r => (i, r)

include hM in
theorem isVert_iff {p n r : ℕ} {S : Finset ℕ} (hp : p < np) :
    IsVert p (C p) n S r ↔ n < (C p).nv ∧ ∃ (k i : ℕ) (d : List ℕ), (C p).eqcV n = some k ∧ (C p).T[k]? = some d ∧ members p d = S ∧
      (C p).ids[k]? = some i ∧ (C p).locV n = some r ∧ idName (C p) n = some (i, r) := by
  constructor
  · rintro ⟨k, a, b, d, h1, h2, h3, h4, rfl, h6⟩
    obtain ⟨e1, e2, i, e3⟩ := vert_query hM hp h1 h3 h4 (Nat.le_add_right _ _) h6
    rw [Nat.add_sub_cancel_left] at e2
    refine ⟨lt_of_lt_of_le h6 (block_nv hM hp (List.getElem?_eq_some_iff.mp h1).1 h4), k, i, d, e1, h1, h2, e3, e2, ?_⟩
    unfold idName
    rw [e1, Option.bind_some, e3, Option.bind_some, e2]; rfl
  · rintro ⟨hn, k, i, d, e1, h1, h2, e3, e2, -⟩
    obtain ⟨k', a, b, d', g1, g2, g3, g4, g5⟩ := vert_block hM hp hn
    obtain ⟨f1, f2, -⟩ := vert_query hM hp g1 g2 g3 g4 g5
    rw [e1] at f1; cases f1
    rw [h1] at g1; cases g1
    rw [e2] at f2; cases f2
    exact ⟨k, a, b, d, h1, h2, g2, g3, by omega, g5⟩

include hM in
theorem isVert_exists {p n : ℕ} (hp : p < np) (hn : n < (C p).nv) : ∃ S r, IsVert p (C p) n S r ∧ p ∈ S := by
  obtain ⟨k, a, b, d, g1, g2, g3, g4, g5⟩ := vert_block hM hp hn
  exact ⟨_, n - a, ⟨k, a, b, d, g1, rfl, g2, g3, by omega, g5⟩, mem_members.mpr (Or.inl rfl)⟩

include hM in
theorem isVert_unique {p n r r' : ℕ} {S S' : Finset ℕ} (hp : p < np) (h : IsVert p (C p) n S r) (h' : IsVert p (C p) n S' r') :
    S = S' ∧ r = r' := by
  obtain ⟨-, k, i, d, a1, a2, a3, a4, a5, a6⟩ := (isVert_iff hM hp).mp h
  obtain ⟨-, k', i', d', b1, b2, b3, b4, b5, b6⟩ := (isVert_iff hM hp).mp h'
  rw [a1] at b1; cases b1
  rw [a2] at b2; cases b2
  rw [a5] at b5; cases b5
  exact ⟨a3.symm.trans b3, rfl⟩

/-- classes with the same processes are at the same place -/
theorem cls_eq {T : List (List ℕ)} {p k k' : ℕ} {d d' : List ℕ} (hT : FamOK np p T) (h : T[k]? = some d) (h' : T[k']? = some d')
    (hm : members p d = members p d') : k = k' := by
  have := members_inj (hT.2 d (List.mem_of_getElem? h)) (hT.2 d' (List.mem_of_getElem? h')) hm
  subst this
  obtain ⟨h1, h2⟩ := List.getElem?_eq_some_iff.mp h
  obtain ⟨h1', h2'⟩ := List.getElem?_eq_some_iff.mp h'
  exact (List.Nodup.getElem_inj_iff hT.1).mp (h2.trans h2'.symm)

include hM in
theorem isVert_inj {p n n' r : ℕ} {S : Finset ℕ} (hp : p < np) (h : IsVert p (C p) n S r) (h' : IsVert p (C p) n' S r) : n = n' := by
  obtain ⟨k, a, b, d, a1, a2, a3, a4, a5, a6⟩ := h
  obtain ⟨k', a', b', d', b1, b2, b3, b4, b5, b6⟩ := h'
  have := cls_eq (hM.tabs.ok p hp) a1 b1 (a2.trans b2.symm)
  subst this
  rw [a3] at b3; cases b3
  omega

include hM in
/-- the order of the classes is the same on all processes -/
theorem cls_lt {p q k k' l l' : ℕ} {d d' e e' : List ℕ} (hp : p < np) (hq : q < np) (h1 : (C p).T[k]? = some d)
    (h2 : (C p).T[k']? = some d') (h3 : (C q).T[l]? = some e) (h4 : (C q).T[l']? = some e') (hm : members p d = members q e)
    (hm' : members p d' = members q e') : k < k' ↔ l < l' := by
  have lt_of : ∀ {p k k' : ℕ} {d d' : List ℕ}, p < np → (C p).T[k]? = some d → (C p).T[k']? = some d' → k < k' →
      SetLt (members p d) (members p d') := by
    intro p k k' d d' hp h1 h2 h
    obtain ⟨g1, e1⟩ := List.getElem?_eq_some_iff.mp h1
    obtain ⟨g2, e2⟩ := List.getElem?_eq_some_iff.mp h2
    have := List.pairwise_iff_getElem.mp (hM.tabs.sorted p hp) k k' g1 g2 h
    have e1 : (C p).T[k] = d := e1
    have e2 : (C p).T[k'] = d' := e2
    simp only [e1, e2] at this
    exact (eqLt_iff ((hM.tabs.ok p hp).2 d (List.mem_of_getElem? h1)) ((hM.tabs.ok p hp).2 d' (List.mem_of_getElem? h2))).mp this
  have half : ∀ {p q k k' l l' : ℕ} {d d' e e' : List ℕ}, p < np → q < np → (C p).T[k]? = some d → (C p).T[k']? = some d' →
      (C q).T[l]? = some e → (C q).T[l']? = some e' → members p d = members q e → members p d' = members q e' → k < k' → l < l' := by
    intro p q k k' l l' d d' e e' hp hq h1 h2 h3 h4 hm hm' h
    rcases Nat.lt_trichotomy l l' with hl | rfl | hl
    · exact hl
    · rw [h3] at h4; cases h4
      have := lt_of hp h1 h2 h
      rw [hm, hm'] at this
      exact (setLt_asymm this this).elim
    · have h5 := lt_of hp h1 h2 h
      have h6 := lt_of hq h4 h3 hl
      rw [hm, hm'] at h5
      exact (setLt_asymm h5 h6).elim
  exact ⟨half hp hq h1 h2 h3 h4 hm hm', half hq hp h3 h4 h1 h2 hm.symm hm'.symm⟩

include hM in
/-- the order of vertices is the same on all processes -/
theorem vert_lt {p q m n m' n' r s : ℕ} {S S' : Finset ℕ} (hp : p < np) (hq : q < np) (h1 : IsVert p (C p) m S r)
    (h2 : IsVert p (C p) n S' s) (h3 : IsVert q (C q) m' S r) (h4 : IsVert q (C q) n' S' s) : m < n ↔ m' < n' := by
  have gen : ∀ {p m n r s : ℕ} {k a b : ℕ} {d : List ℕ} {k' a' b' : ℕ} {d' : List ℕ}, p < np → (C p).T[k]? = some d →
      (C p).disp[k]? = some a → (C p).disp[k + 1]? = some b → m = a + r → m < b → (C p).T[k']? = some d' →
      (C p).disp[k']? = some a' → (C p).disp[k' + 1]? = some b' → n = a' + s → n < b' → (m < n ↔ k < k' ∨ (k = k' ∧ r < s)) := by
    intro p m n r s k a b d k' a' b' d' hp h1 h2 h3 h4 h5 g1 g2 g3 g4 g5
    rcases Nat.lt_trichotomy k k' with h | rfl | h
    · have := offsets_le (hM.offs p hp) (show k + 1 ≤ k' by omega) h3 g2
      omega
    · rw [h2] at g2; cases g2
      omega
    · have := offsets_le (hM.offs p hp) (show k' + 1 ≤ k by omega) g3 h2
      omega
  obtain ⟨k, a, b, d, a1, a2, a3, a4, a5, a6⟩ := h1
  obtain ⟨k', a', b', d', b1, b2, b3, b4, b5, b6⟩ := h2
  obtain ⟨l, c, e, f, c1, c2, c3, c4, c5, c6⟩ := h3
  obtain ⟨l', c', e', f', d1, d2, d3, d4, d5, d6⟩ := h4
  rw [gen hp a1 a3 a4 a5 a6 b1 b3 b4 b5 b6, gen hq c1 c3 c4 c5 c6 d1 d3 d4 d5 d6]
  have e1 := cls_lt hM hp hq a1 b1 c1 d1 (a2.trans c2.symm) (b2.trans d2.symm)
  have e2 := cls_lt hM hp hq b1 a1 d1 c1 (b2.trans d2.symm) (a2.trans c2.symm)
  omega

include hM in
/-- a process of the class of a vertex has the vertex -/
theorem vert_partner {p q n r : ℕ} {S : Finset ℕ} (hp : p < np) (h : IsVert p (C p) n S r) (hq : q ∈ S) :
    q < np ∧ ∃ m, IsVert q (C q) m S r := by
  obtain ⟨k, a, b, d, h1, h2, h3, h4, h5, h6⟩ := h
  have hqn : q < np := by
    rw [← h2, mem_members] at hq
    rcases hq with rfl | hq
    · exact hp
    · exact ((hM.tabs.ok p hp).2 d (List.mem_of_getElem? h1)).range q hq
  refine ⟨hqn, ?_⟩
  have hR := RedTab.rows_of_tables hM.tabs
  obtain ⟨l, e, g1, -, g2⟩ := RedTab.partner_row hR hp h1 (r := q) (by rw [← h2, mem_members] at hq; exact hq)
  have g1 : (C q).T[l]? = some e := g1
  have hl : l < (C q).T.length := (List.getElem?_eq_some_iff.mp g1).1
  have hdl := hM.dl q hqn
  have hs := hM.sizes p hp q hqn k l _ _ _ _ d e h1 g1 g2.symm h3 h4 (List.getElem?_eq_getElem (by omega)) (List.getElem?_eq_getElem (by omega))
  refine ⟨_, l, _, _, e, g1, g2.trans h2, List.getElem?_eq_getElem (by omega), List.getElem?_eq_getElem (by omega), rfl, ?_⟩
  have := offsets_le (hM.offs q hqn) (show l ≤ l + 1 by omega) (List.getElem?_eq_getElem (by omega)) (List.getElem?_eq_getElem (by omega))
  omega

include hM in
/-- the identifiers name vertices across processes -/
theorem idName_iff {p q n m r s i j : ℕ} {S S' : Finset ℕ} (hp : p < np) (hq : q < np) (h1 : IsVert p (C p) n S r)
    (h2 : IsVert q (C q) m S' s) (hi : idName (C p) n = some (i, r)) (hj : idName (C q) m = some (j, s)) : i = j ↔ S = S' := by
  obtain ⟨-, k, i', d, a1, a2, a3, a4, a5, a6⟩ := (isVert_iff hM hp).mp h1
  obtain ⟨-, k', j', d', b1, b2, b3, b4, b5, b6⟩ := (isVert_iff hM hq).mp h2
  rw [hi] at a6; cases a6
  rw [hj] at b6; cases b6
  rw [hM.ids p hp q hq k k' i j d d' a4 b4 a2 b2, a3, b3]

include hM in
/-- the inverse of the naming: an identifier and a number sent by `q` are found on `p` -/
theorem vert_decode {p q n m r i : ℕ} {S : Finset ℕ} (hp : p < np) (hq : q < np) (h1 : IsVert p (C p) n S r) (h2 : IsVert q (C q) m S r)
    (hi : idName (C q) m = some (i, r)) : ((C p).eqcOfID i).bind (fun k => eFromEQC (C p).disp r k) = some n := by
  obtain ⟨-, k', j', d', b1, b2, b3, b4, b5, b6⟩ := (isVert_iff hM hq).mp h2
  obtain ⟨k, a, b, d, a1, a2, a3, a4, a5, a6⟩ := h1
  rw [hi] at b6; cases b6
  have hind := (hM.ind p hp q hq k' i d' b4 b2 k).mpr ⟨d, a1, a2.trans b3.symm⟩
  unfold Ctx.eqcOfID
  rw [hind]
  simp only [Option.join_some, Option.bind_some, eFromEQC, a3, Option.map_some]
  rw [a5, Nat.add_comm]

/-! ### classes of edges -/

/-- specification: the edge `e` of process `p` is the edge between the vertices `(S, r)` and `(S', s)` -/
def IsEdge (p : ℕ) (C : Ctx) (e : ℕ × ℕ) (S : Finset ℕ) (r : ℕ) (S' : Finset ℕ) (s : ℕ) : Prop :=
  IsVert p C e.1 S r ∧ IsVert p C e.2 S' s

include hM in
theorem classify_spec {p : ℕ} {e : ℕ × ℕ} {S S' : Finset ℕ} {r s : ℕ} (hp : p < np) (he : IsEdge p (C p) e S r S' s) :
    ∃ (it : Item) (c : List ℕ), classify (C p) e = some it ∧ it.edge = e ∧ (it.isIn = true ↔ S = S') ∧ (C p).T[it.cls]? = some c ∧
      members p c = S ∩ S' ∧ it.node.isIn = it.isIn ∧ it.node.v0 = r ∧ it.node.v1 = s ∧
      idName (C p) e.1 = some (it.node.e0, r) ∧ idName (C p) e.2 = some (it.node.e1, s) ∧
      (it.isIn = true → (C p).ids[it.cls]? = some it.node.e0) := by
  obtain ⟨-, k, i, d, a1, a2, a3, a4, a5, a6⟩ := (isVert_iff hM hp).mp he.1
  obtain ⟨-, k', j, d', b1, b2, b3, b4, b5, b6⟩ := (isVert_iff hM hp).mp he.2
  have hij := idName_iff hM hp hp he.1 he.2 a6 b6
  have hT := hM.tabs.ok p hp
  have hkk : k = k' ↔ S = S' := by
    constructor
    · rintro rfl
      rw [a2] at b2; cases b2
      exact a3.symm.trans b3
    · intro h
      exact cls_eq hT a2 b2 (by rw [a3, b3, h])
  by_cases h : k = k'
  · have hS := hkk.mp h
    subst h
    rw [a4] at b4; cases b4
    refine ⟨⟨e, true, k, ⟨i, i, r, s⟩⟩, d, ?_, rfl, by simp [hS], a2, by rw [a3, hS, Finset.inter_self], by simp [CNode.isIn], rfl, rfl,
      a6, b6, fun _ => a4⟩
    unfold classify
    simp [a1, b1, a4, a5, b5]
  · obtain ⟨c, hc, hcm⟩ := hM.inter p hp d (List.mem_of_getElem? a2) d' (List.mem_of_getElem? b2)
    obtain ⟨l, hl, hlc⟩ := List.mem_iff_getElem.mp hc
    have hlc' : (C p).T[l]? = some c := by rw [List.getElem?_eq_getElem hl, hlc]
    have hcut := (commonEQC_iff hT a2 b2).mpr ⟨c, hlc', hcm⟩
    have hSne : S ≠ S' := fun hS => h (hkk.mpr hS)
    have hine : i ≠ j := fun hi => hSne (hij.mp hi)
    refine ⟨⟨e, false, l, ⟨i, j, r, s⟩⟩, c, ?_, rfl, by simp [hSne], hlc', by rw [hcm, a3, b3], by simp [CNode.isIn, hine], rfl, rfl,
      a6, b6, by simp⟩
    unfold classify
    simp [a1, b1, a4, b4, a5, b5, h, hcut]

include hM in
theorem isEdge_exists {p : ℕ} {e : ℕ × ℕ} (hp : p < np) (h1 : e.1 < (C p).nv) (h2 : e.2 < (C p).nv) :
    ∃ S r S' s, IsEdge p (C p) e S r S' s := by
  obtain ⟨S, r, h, -⟩ := isVert_exists hM hp h1
  obtain ⟨S', s, h', -⟩ := isVert_exists hM hp h2
  exact ⟨S, r, S', s, h, h'⟩

end

end NgsAMG.BTM
