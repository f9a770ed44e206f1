import Verif.Props.GridCtr3

/-!
# Vertices of a mesh whose classes need not be closed under intersection

The contracted mesh of `grid_contract.cpp` is such a mesh. The lemmas are those of `Props/BTM4.lean`, which do not need the closure.
-/

namespace NgsAMG.GCtr
open NgsAMG.EQC NgsAMG.BTM

namespace VMesh

section
variable {np : ℕ} {C : ℕ → Ctx} (hM : VMesh np C)

include hM in
/-- every vertex has a name -/
theorem vert_block {p n : ℕ} (hp : p < np) (hn : n < (C p).nv) :
    ∃ (k a b : ℕ) (d : List ℕ), (C p).T[k]? = some d ∧ (C p).disp[k]? = some a ∧ (C p).disp[k + 1]? = some b ∧ a ≤ n ∧ n < b := by
  have hl := hM.dl p hp
  have hlast : (C p).disp[(C p).T.length]? = some (C p).nv := by
    have : (C p).T.length < (C p).disp.length := by omega
    rw [List.getElem?_eq_getElem this]
    congr 1
    exact (getLastD_of_get hl (List.getElem?_eq_getElem this)).symm
  -- the last offset that is at most `n`
  have key : ∀ m, m ≤ (C p).T.length → (∃ b, (C p).disp[m]? = some b ∧ n < b) →
      ∃ (k a b : ℕ), k < m ∧ (C p).disp[k]? = some a ∧ (C p).disp[k + 1]? = some b ∧ a ≤ n ∧ n < b := by
    intro m
    induction m with
    | zero =>
      rintro - ⟨b, hb, hnb⟩
      rw [hM.d0 p hp] at hb
      cases hb; omega
    | succ m ih =>
      rintro hm ⟨b, hb, hnb⟩
      have hm' : m < (C p).disp.length := by omega
      by_cases h : (C p).disp[m] ≤ n
      · exact ⟨m, _, b, by omega, List.getElem?_eq_getElem hm', hb, h, hnb⟩
      · obtain ⟨k, a, b', h1, h2⟩ := ih (by omega) ⟨_, List.getElem?_eq_getElem hm', by omega⟩
        exact ⟨k, a, b', by omega, h2⟩
  obtain ⟨k, a, b, h1, h2, h3, h4, h5⟩ := key _ le_rfl ⟨_, hlast, hn⟩
  exact ⟨k, a, b, _, List.getElem?_eq_getElem h1, h2, h3, h4, h5⟩

include hM in
theorem block_nv {p k b : ℕ} (hp : p < np) (hk : k < (C p).T.length) (hb : (C p).disp[k + 1]? = some b) : b ≤ (C p).nv := by
  have hl := hM.dl p hp
  have h2 : (C p).T.length < (C p).disp.length := by omega
  have := offsets_le (hM.offs p hp) (show k + 1 ≤ (C p).T.length by omega) hb (List.getElem?_eq_getElem h2)
  rwa [← getLastD_of_get hl (List.getElem?_eq_getElem h2)] at this

include hM in
/-- the queries -/
theorem vert_query {p k n a b : ℕ} {d : List ℕ} (hp : p < np) (hk : (C p).T[k]? = some d) (ha : (C p).disp[k]? = some a)
    (hb : (C p).disp[k + 1]? = some b) (h1 : a ≤ n) (h2 : n < b) :
    (C p).eqcV n = some k ∧ (C p).locV n = some (n - a) ∧ ∃ i, (C p).ids[k]? = some i := by
  have hkl : k < (C p).T.length := (List.getElem?_eq_some_iff.mp hk).1
  have hnv : n < (C p).disp.getLastD 0 := lt_of_lt_of_le h2 (block_nv hM hp hkl hb)
  have e1 : (C p).eqcV n = some k := by
    unfold Ctx.eqcV eqcOf
    rw [if_pos hnv]
    exact eqcOfE_eq (hM.offs p hp) ha hb h1 h2
  refine ⟨e1, ?_, ?_⟩
  · unfold Ctx.eqcV at e1
    unfold Ctx.locV toEQC
    rw [e1, Option.bind_some, if_pos hnv, ha]
    rfl
  · exact ⟨_, List.getElem?_eq_getElem (by rw [hM.idl p hp]; exact hkl)⟩

include hM in
theorem isVert_iff {p n r : ℕ} {S : Finset ℕ} (hp : p < np) :
    IsVert p (C p) n S r ↔ n < (C p).nv ∧ ∃ (k i : ℕ) (d : List ℕ), (C p).eqcV n = some k ∧ (C p).T[k]? = some d ∧ members p d = S ∧
      (C p).ids[k]? = some i ∧ (C p).locV n = some r ∧ idName (C p) n = some (i, r) := by
  constructor
  · rintro ⟨k, a, b, d, h1, h2, h3, h4, rfl, h6⟩
    obtain ⟨e1, e2, i, e3⟩ := vert_query hM hp h1 h3 h4 (Nat.le_add_right _ _) h6
    rw [Nat.add_sub_cancel_left] at e2
    refine ⟨lt_of_lt_of_le h6 (block_nv hM hp (List.getElem?_eq_some_iff.mp h1).1 h4), k, i, d, e1, h1, h2, e3, e2, ?_⟩
    unfold idName
    rw [e1, Option.bind_some, e3, Option.bind_some, e2]; rfl
  · rintro ⟨hn, k, i, d, e1, h1, h2, e3, e2, -⟩
    obtain ⟨k', a, b, d', g1, g2, g3, g4, g5⟩ := vert_block hM hp hn
    obtain ⟨f1, f2, -⟩ := vert_query hM hp g1 g2 g3 g4 g5
    rw [e1] at f1; cases f1
    rw [h1] at g1; cases g1
    rw [e2] at f2; cases f2
    exact ⟨k, a, b, d, h1, h2, g2, g3, by omega, g5⟩

include hM in
theorem isVert_exists {p n : ℕ} (hp : p < np) (hn : n < (C p).nv) : ∃ S r, IsVert p (C p) n S r ∧ p ∈ S := by
  obtain ⟨k, a, b, d, g1, g2, g3, g4, g5⟩ := vert_block hM hp hn
  exact ⟨_, n - a, ⟨k, a, b, d, g1, rfl, g2, g3, by omega, g5⟩, mem_members.mpr (Or.inl rfl)⟩

include hM in
theorem isVert_unique {p n r r' : ℕ} {S S' : Finset ℕ} (hp : p < np) (h : IsVert p (C p) n S r) (h' : IsVert p (C p) n S' r') :
    S = S' ∧ r = r' := by
  obtain ⟨-, k, i, d, a1, a2, a3, a4, a5, a6⟩ := (isVert_iff hM hp).mp h
  obtain ⟨-, k', i', d', b1, b2, b3, b4, b5, b6⟩ := (isVert_iff hM hp).mp h'
  rw [a1] at b1; cases b1
  rw [a2] at b2; cases b2
  rw [a5] at b5; cases b5
  exact ⟨a3.symm.trans b3, rfl⟩

include hM in
theorem isVert_inj {p n n' r : ℕ} {S : Finset ℕ} (hp : p < np) (h : IsVert p (C p) n S r) (h' : IsVert p (C p) n' S r) : n = n' := by
  obtain ⟨k, a, b, d, a1, a2, a3, a4, a5, a6⟩ := h
  obtain ⟨k', a', b', d', b1, b2, b3, b4, b5, b6⟩ := h'
  have := cls_eq (hM.tabs.ok p hp) a1 b1 (a2.trans b2.symm)
  subst this
  rw [a3] at b3; cases b3
  omega

include hM in
/-- the order of the classes is the same on all processes -/
theorem cls_lt {p q k k' l l' : ℕ} {d d' e e' : List ℕ} (hp : p < np) (hq : q < np) (h1 : (C p).T[k]? = some d)
    (h2 : (C p).T[k']? = some d') (h3 : (C q).T[l]? = some e) (h4 : (C q).T[l']? = some e') (hm : members p d = members q e)
    (hm' : members p d' = members q e') : k < k' ↔ l < l' := by
  have lt_of : ∀ {p k k' : ℕ} {d d' : List ℕ}, p < np → (C p).T[k]? = some d → (C p).T[k']? = some d' → k < k' →
      SetLt (members p d) (members p d') := by
    intro p k k' d d' hp h1 h2 h
    obtain ⟨g1, e1⟩ := List.getElem?_eq_some_iff.mp h1
    obtain ⟨g2, e2⟩ := List.getElem?_eq_some_iff.mp h2
    have := List.pairwise_iff_getElem.mp (hM.tabs.sorted p hp) k k' g1 g2 h
    have e1 : (C p).T[k] = d := e1
    have e2 : (C p).T[k'] = d' := e2
    simp only [e1, e2] at this
    exact (eqLt_iff ((hM.tabs.ok p hp).2 d (List.mem_of_getElem? h1)) ((hM.tabs.ok p hp).2 d' (List.mem_of_getElem? h2))).mp this
  have half : ∀ {p q k k' l l' : ℕ} {d d' e e' : List ℕ}, p < np → q < np → (C p).T[k]? = some d → (C p).T[k']? = some d' →
      (C q).T[l]? = some e → (C q).T[l']? = some e' → members p d = members q e → members p d' = members q e' → k < k' → l < l' := by
    intro p q k k' l l' d d' e e' hp hq h1 h2 h3 h4 hm hm' h
    rcases Nat.lt_trichotomy l l' with hl | rfl | hl
    · exact hl
    · rw [h3] at h4; cases h4
      have := lt_of hp h1 h2 h
      rw [hm, hm'] at this
      exact (setLt_asymm this this).elim
    · have h5 := lt_of hp h1 h2 h
      have h6 := lt_of hq h4 h3 hl
      rw [hm, hm'] at h5
      exact (setLt_asymm h5 h6).elim
  exact ⟨half hp hq h1 h2 h3 h4 hm hm', half hq hp h3 h4 h1 h2 hm.symm hm'.symm⟩

include hM in
/-- the order of vertices is the same on all processes -/
theorem vert_lt {p q m n m' n' r s : ℕ} {S S' : Finset ℕ} (hp : p < np) (hq : q < np) (h1 : IsVert p (C p) m S r)
    (h2 : IsVert p (C p) n S' s) (h3 : IsVert q (C q) m' S r) (h4 : IsVert q (C q) n' S' s) : m < n ↔ m' < n' := by
  have gen : ∀ {p m n r s : ℕ} {k a b : ℕ} {d : List ℕ} {k' a' b' : ℕ} {d' : List ℕ}, p < np → (C p).T[k]? = some d →
      (C p).disp[k]? = some a → (C p).disp[k + 1]? = some b → m = a + r → m < b → (C p).T[k']? = some d' →
      (C p).disp[k']? = some a' → (C p).disp[k' + 1]? = some b' → n = a' + s → n < b' → (m < n ↔ k < k' ∨ (k = k' ∧ r < s)) := by
    intro p m n r s k a b d k' a' b' d' hp h1 h2 h3 h4 h5 g1 g2 g3 g4 g5
    rcases Nat.lt_trichotomy k k' with h | rfl | h
    · have := offsets_le (hM.offs p hp) (show k + 1 ≤ k' by omega) h3 g2
      omega
    · rw [h2] at g2; cases g2
      omega
    · have := offsets_le (hM.offs p hp) (show k' + 1 ≤ k by omega) g3 h2
      omega
  obtain ⟨k, a, b, d, a1, a2, a3, a4, a5, a6⟩ := h1
  obtain ⟨k', a', b', d', b1, b2, b3, b4, b5, b6⟩ := h2
  obtain ⟨l, c, e, f, c1, c2, c3, c4, c5, c6⟩ := h3
  obtain ⟨l', c', e', f', d1, d2, d3, d4, d5, d6⟩ := h4
  rw [gen hp a1 a3 a4 a5 a6 b1 b3 b4 b5 b6, gen hq c1 c3 c4 c5 c6 d1 d3 d4 d5 d6]
  have e1 := cls_lt hM hp hq a1 b1 c1 d1 (a2.trans c2.symm) (b2.trans d2.symm)
  have e2 := cls_lt hM hp hq b1 a1 d1 c1 (b2.trans d2.symm) (a2.trans c2.symm)
  omega

include hM in
/-- a process of the class of a vertex has the vertex -/
theorem vert_partner {p q n r : ℕ} {S : Finset ℕ} (hp : p < np) (h : IsVert p (C p) n S r) (hq : q ∈ S) :
    q < np ∧ ∃ m, IsVert q (C q) m S r := by
  obtain ⟨k, a, b, d, h1, h2, h3, h4, h5, h6⟩ := h
  have hqn : q < np := by
    rw [← h2, mem_members] at hq
    rcases hq with rfl | hq
    · exact hp
    · exact ((hM.tabs.ok p hp).2 d (List.mem_of_getElem? h1)).range q hq
  refine ⟨hqn, ?_⟩
  have hR := RedTab.rows_of_tables hM.tabs
  obtain ⟨l, e, g1, -, g2⟩ := RedTab.partner_row hR hp h1 (r := q) (by rw [← h2, mem_members] at hq; exact hq)
  have g1 : (C q).T[l]? = some e := g1
  have hl : l < (C q).T.length := (List.getElem?_eq_some_iff.mp g1).1
  have hdl := hM.dl q hqn
  have hs := hM.sizes p hp q hqn k l _ _ _ _ d e h1 g1 g2.symm h3 h4 (List.getElem?_eq_getElem (by omega)) (List.getElem?_eq_getElem (by omega))
  refine ⟨_, l, _, _, e, g1, g2.trans h2, List.getElem?_eq_getElem (by omega), List.getElem?_eq_getElem (by omega), rfl, ?_⟩
  have := offsets_le (hM.offs q hqn) (show l ≤ l + 1 by omega) (List.getElem?_eq_getElem (by omega)) (List.getElem?_eq_getElem (by omega))
  omega

end

end VMesh

end NgsAMG.GCtr
