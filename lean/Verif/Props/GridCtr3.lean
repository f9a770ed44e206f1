import Verif.Props.GridCtr

/-! # C88: the classes of the contracted mesh -/

namespace NgsAMG.GCtr
open NgsAMG.EQC NgsAMG.BTM

/-- specification: consistent classes and vertices on `np` processes (as `BTM.Mesh`, but the classes need not be closed under intersection) -/
structure VMesh (np : ℕ) (C : ℕ → Ctx) : Prop where
  tabs : Tables np fun p => (C p).T
  loc : ∀ p < np, (C p).T ≠ [] → (C p).T[0]? = some []
  idl : ∀ p < np, (C p).ids.length = (C p).T.length
  ids : ∀ p < np, ∀ q < np, ∀ (i j a b : ℕ) (d e : List ℕ), (C p).ids[i]? = some a → (C q).ids[j]? = some b → (C p).T[i]? = some d →
    (C q).T[j]? = some e → (a = b ↔ members p d = members q e)
  ind : ∀ p < np, ∀ q < np, ∀ (j b : ℕ) (e : List ℕ), (C q).ids[j]? = some b → (C q).T[j]? = some e →
    ∀ i : ℕ, (C p).ind[b]? = some (some i) ↔ ∃ d, (C p).T[i]? = some d ∧ members p d = members q e
  dl : ∀ p < np, (C p).disp.length = (C p).T.length + 1
  d0 : ∀ p < np, (C p).disp[0]? = some 0
  offs : ∀ p < np, Offsets (C p).disp
  sizes : ∀ p < np, ∀ q < np, ∀ (i j a b a' b' : ℕ) (d e : List ℕ), (C p).T[i]? = some d → (C q).T[j]? = some e → members p d = members q e →
    (C p).disp[i]? = some a → (C p).disp[i + 1]? = some b → (C q).disp[j]? = some a' → (C q).disp[j + 1]? = some b' → b - a = b' - a'

/-- the meshes on which `SetNodes` has been called -/
theorem VMesh.of_mesh {np : ℕ} {C : ℕ → Ctx} (h : Mesh np C) : VMesh np C :=
  ⟨h.tabs, h.loc, h.idl, h.ids, h.ind, h.dl, h.d0, h.offs, h.sizes⟩

theorem VMesh.to_mesh {np : ℕ} {C : ℕ → Ctx} (h : VMesh np C)
    (hi : ∀ p < np, ∀ d ∈ (C p).T, ∀ e ∈ (C p).T, ∃ c ∈ (C p).T, members p c = members p d ∩ members p e) : Mesh np C :=
  ⟨h.tabs, hi, h.loc, h.idl, h.ids, h.ind, h.dl, h.d0, h.offs, h.sizes⟩

/-- the set of processes and the number of vertices of the class with a given identifier -/
structure Names (np : ℕ) (C : ℕ → Ctx) (sOf : ℕ → Finset ℕ) (cnt : ℕ → ℕ) : Prop where
  row : ∀ p < np, ∀ (j : ℕ) (d : List ℕ), (C p).T[j]? = some d → ∃ x a, (C p).ids[j]? = some x ∧ sOf x = members p d ∧ (C p).disp[j]? = some a ∧ (C p).disp[j + 1]? = some (a + cnt x)
  inj : ∀ p < np, ∀ q < np, ∀ x ∈ (C p).ids, ∀ y ∈ (C q).ids, sOf x = sOf y → x = y
  mem : ∀ p < np, ∀ x ∈ (C p).ids, p ∈ sOf x ∧ ∀ q ∈ sOf x, q < np ∧ x ∈ (C q).ids
  rowI : ∀ p < np, ∀ (j x : ℕ), (C p).ids[j]? = some x → ∃ d, (C p).T[j]? = some d ∧ sOf x = members p d
  nodup : ∀ p < np, (C p).ids.Nodup

variable {np : ℕ} {C : ℕ → Ctx}

theorem VMesh.rowI (hM : VMesh np C) {p : ℕ} (hp : p < np) {j x : ℕ} (hx : (C p).ids[j]? = some x) : ∃ d, (C p).T[j]? = some d := by
  have := (List.getElem?_eq_some_iff.mp hx).1
  rw [hM.idl p hp] at this
  exact ⟨_, List.getElem?_eq_getElem this⟩

theorem names_exist (hM : VMesh np C) : ∃ sOf cnt, Names np C sOf cnt := by
  classical
  have hS : ∀ x, ∃ S : Finset ℕ, ∃ n : ℕ, ∀ p < np, ∀ (j : ℕ) (d : List ℕ) (a b : ℕ), (C p).ids[j]? = some x → (C p).T[j]? = some d →
      (C p).disp[j]? = some a → (C p).disp[j + 1]? = some b → S = members p d ∧ b - a = n := by
    intro x
    by_cases h : ∃ p < np, ∃ (j : ℕ) (d : List ℕ) (a b : ℕ), (C p).ids[j]? = some x ∧ (C p).T[j]? = some d ∧ (C p).disp[j]? = some a ∧ (C p).disp[j + 1]? = some b
    · obtain ⟨p, hp, j, d, a, b, h1, h2, h3, h4⟩ := h
      refine ⟨members p d, b - a, ?_⟩
      intro q hq i e a' b' g1 g2 g3 g4
      have hm := (hM.ids p hp q hq j i x x d e h1 g1 h2 g2).mp rfl
      exact ⟨hm, (hM.sizes p hp q hq j i a b a' b' d e h2 g2 hm h3 h4 g3 g4).symm⟩
    · refine ⟨∅, 0, ?_⟩
      intro p hp j d a b h1 h2 h3 h4
      exact absurd ⟨p, hp, j, d, a, b, h1, h2, h3, h4⟩ h
  choose sOf cnt hsc using hS
  have disp : ∀ p < np, ∀ (j : ℕ) (d : List ℕ), (C p).T[j]? = some d → ∃ a b, (C p).disp[j]? = some a ∧ (C p).disp[j + 1]? = some b ∧ a ≤ b := by
    intro p hp j d hd
    have hj := (List.getElem?_eq_some_iff.mp hd).1
    have hl := hM.dl p hp
    have g1 : (C p).disp[j]? = some ((C p).disp[j]'(by omega)) := List.getElem?_eq_getElem _
    have g2 : (C p).disp[j + 1]? = some ((C p).disp[j + 1]'(by omega)) := List.getElem?_eq_getElem _
    exact ⟨_, _, g1, g2, offsets_le (hM.offs p hp) (Nat.le_succ j) g1 g2⟩
  have row : ∀ p < np, ∀ (j : ℕ) (d : List ℕ), (C p).T[j]? = some d → ∃ x a, (C p).ids[j]? = some x ∧ sOf x = members p d ∧ (C p).disp[j]? = some a ∧ (C p).disp[j + 1]? = some (a + cnt x) := by
    intro p hp j d hd
    have hj := (List.getElem?_eq_some_iff.mp hd).1
    obtain ⟨a, b, h1, h2, h3⟩ := disp p hp j d hd
    have hi : (C p).ids[j]? = some ((C p).ids[j]'(by rw [hM.idl p hp]; exact hj)) := List.getElem?_eq_getElem _
    obtain ⟨g1, g2⟩ := hsc _ p hp j d a b hi hd h1 h2
    exact ⟨_, a, hi, g1, h1, by rw [h2, ← g2]; congr 1; omega⟩
  have rowI : ∀ p < np, ∀ (j x : ℕ), (C p).ids[j]? = some x → ∃ d, (C p).T[j]? = some d ∧ sOf x = members p d := by
    intro p hp j x hx
    obtain ⟨d, hd⟩ := hM.rowI hp hx
    obtain ⟨y, a, h1, h2, -, -⟩ := row p hp j d hd
    rw [hx] at h1; cases h1
    exact ⟨d, hd, h2⟩
  have inj : ∀ p < np, ∀ q < np, ∀ x ∈ (C p).ids, ∀ y ∈ (C q).ids, sOf x = sOf y → x = y := by
    intro p hp q hq x hx y hy h
    obtain ⟨i, hi⟩ := List.mem_iff_getElem?.mp hx
    obtain ⟨j, hj⟩ := List.mem_iff_getElem?.mp hy
    obtain ⟨d, h1, h2⟩ := rowI p hp i x hi
    obtain ⟨e, h3, h4⟩ := rowI q hq j y hj
    exact (hM.ids p hp q hq i j x y d e hi hj h1 h3).mpr (by rw [← h2, ← h4, h])
  refine ⟨sOf, cnt, row, inj, ?_, rowI, ?_⟩
  · intro p hp x hx
    obtain ⟨i, hi⟩ := List.mem_iff_getElem?.mp hx
    obtain ⟨d, h1, h2⟩ := rowI p hp i x hi
    refine ⟨by rw [h2, mem_members]; exact Or.inl rfl, ?_⟩
    intro q hq
    rw [h2, mem_members] at hq
    rcases hq with rfl | hq
    · exact ⟨hp, hx⟩
    · have hqn := ((hM.tabs.ok p hp).2 d (List.mem_of_getElem? h1)).range q hq
      obtain ⟨e, he, hme⟩ := hM.tabs.cons p hp d (List.mem_of_getElem? h1) q hq
      obtain ⟨j, hj⟩ := List.mem_iff_getElem?.mp he
      obtain ⟨y, a, g1, g2, -, -⟩ := row q hqn j e hj
      have : x = y := inj p hp q hqn x hx y (List.mem_of_getElem? g1) (by rw [h2, g2, hme])
      subst this
      exact ⟨hqn, List.mem_of_getElem? g1⟩
  · intro p hp
    rw [List.nodup_iff_injective_getElem]
    rintro ⟨i, hi⟩ ⟨j, hj⟩ h
    dsimp only at h
    obtain ⟨d, h1, h2⟩ := rowI p hp i _ (List.getElem?_eq_getElem hi)
    obtain ⟨e, h3, h4⟩ := rowI p hp j _ (List.getElem?_eq_getElem hj)
    have hde : d = e := members_inj ((hM.tabs.ok p hp).2 d (List.mem_of_getElem? h1)) ((hM.tabs.ok p hp).2 e (List.mem_of_getElem? h3)) (by rw [← h2, ← h4, h])
    subst hde
    have := cls_eq (hM.tabs.ok p hp) h1 h3 rfl
    exact Fin.ext this

/-! ### identifiers -/

theorem mergeIds_aux (l g : List ℕ) (hg : g.Nodup) :
    (l.foldl (fun g x => if g.contains x then g else g ++ [x]) g).Nodup ∧ ∀ x, x ∈ l.foldl (fun g x => if g.contains x then g else g ++ [x]) g ↔ x ∈ g ∨ x ∈ l := by
  induction l generalizing g with
  | nil => simp [hg]
  | cons a l ih =>
    rw [List.foldl_cons]
    by_cases ha : a ∈ g
    · rw [if_pos (by simpa using ha)]
      obtain ⟨h1, h2⟩ := ih g hg
      refine ⟨h1, fun x => ?_⟩
      rw [h2, List.mem_cons]
      constructor
      · rintro (h | h)
        · exact Or.inl h
        · exact Or.inr (Or.inr h)
      · rintro (h | rfl | h)
        · exact Or.inl h
        · exact Or.inl ha
        · exact Or.inr h
    · rw [if_neg (by simpa using ha)]
      obtain ⟨h1, h2⟩ := ih (g ++ [a]) (List.nodup_append.mpr ⟨hg, by simp, by
        intro x hx y hy
        rw [List.mem_singleton] at hy
        rintro rfl; subst hy; exact ha hx⟩)
      refine ⟨h1, fun x => ?_⟩
      rw [h2, List.mem_cons, List.mem_append, List.mem_singleton]
      tauto

theorem mergeIds_spec (L : List (List ℕ)) (hn : ∀ l ∈ L, l.Nodup) : SL (mergeIds L) ∧ ∀ x, x ∈ mergeIds L ↔ ∃ l ∈ L, x ∈ l := by
  unfold mergeIds
  obtain ⟨h1, h2⟩ := mergeIds_aux L.tail.flatten (L.headD []) (by
    cases L with
    | nil => simp
    | cons a L => exact hn a List.mem_cons_self)
  refine ⟨sl_insertionSort h1, ?_⟩
  intro x
  rw [(List.perm_insertionSort _ _).mem_iff, h2]
  cases L with
  | nil => simp
  | cons a L =>
    simp only [List.headD_cons, List.tail_cons, List.mem_flatten, List.mem_cons, exists_eq_or_imp]

/-! ### members of the merged classes -/

theorem foldl_last {α : Type} (f : α → ℕ) (c : ℕ) (l : List α) (h : ∀ e ∈ l, f e = c) (hl : l ≠ []) (z : ℕ) : l.foldl (fun _ e => f e) z = c := by
  induction l generalizing z with
  | nil => exact absurd rfl hl
  | cons a l ih =>
    rw [List.foldl_cons]
    by_cases hl' : l = []
    · subst hl'; exact h a List.mem_cons_self
    · exact ih (fun e he => h e (List.mem_cons_of_mem _ he)) hl' _

/-- a list that is sorted and has the elements of a set -/
def Lists (S : Finset ℕ) (L : List ℕ) : Prop := SL L ∧ ∀ y, y ∈ L ↔ y ∈ S

theorem mmems_aux (sz : ℕ → ℕ) (idx : ℕ → ℕ) (l : List (ℕ × List ℕ × ℕ)) (n : ℕ) (Q : ℕ → List ℕ → Prop) (hl : ∀ e ∈ l, idx e.1 < n ∧ e.2.1.length + 1 = sz (idx e.1) ∧ Q (idx e.1) (e.2.1 ++ [e.2.2]))
    (t : List (List ℕ)) (ht : t.length = n) (D : ℕ → Prop) (hD : ∀ m < n, D m → ∃ r, t[m]? = some r ∧ Q m r) :
    ∃ t', l.foldlM (fun (t : List (List ℕ)) e => if idx e.1 < t.length ∧ e.2.1.length + 1 = sz (idx e.1) then some (t.set (idx e.1) (e.2.1 ++ [e.2.2])) else none) t = some t' ∧ t'.length = n ∧
      ∀ m < n, (D m ∨ ∃ e ∈ l, idx e.1 = m) → ∃ r, t'[m]? = some r ∧ Q m r := by
  induction l generalizing t D with
  | nil => exact ⟨t, rfl, ht, fun m hm h => hD m hm (by simpa using h)⟩
  | cons a l ih =>
    obtain ⟨h1, h2, h3⟩ := hl a List.mem_cons_self
    rw [List.foldlM_cons, if_pos ⟨by rw [ht]; exact h1, h2⟩]
    obtain ⟨t', g1, g2, g3⟩ := ih (fun e he => hl e (List.mem_cons_of_mem _ he)) (t.set (idx a.1) (a.2.1 ++ [a.2.2])) (by rw [List.length_set]; exact ht)
      (fun m => D m ∨ idx a.1 = m) (by
        intro m hm hd
        by_cases hm' : idx a.1 = m
        · subst hm'
          exact ⟨_, List.getElem?_set_self (by rw [ht]; exact hm), h3⟩
        · rw [List.getElem?_set_ne hm']
          exact hD m hm (hd.resolve_right hm'))
    refine ⟨t', g1, g2, ?_⟩
    rintro m hm (h | ⟨e, he, h⟩)
    · exact g3 m hm (Or.inl (Or.inl h))
    · rcases List.mem_cons.mp he with rfl | he
      · exact g3 m hm (Or.inl (Or.inr h))
      · exact g3 m hm (Or.inr ⟨e, he, h⟩)

/-- the members of a group with their meshes -/
def grp (C : ℕ → Ctx) (g : List ℕ) : List Mem := g.map fun p => (p, C p)

theorem mem_allCls (g : List ℕ) (hidl : ∀ p ∈ g, (C p).ids.length = (C p).T.length) (e : ℕ × List ℕ × ℕ) :
    e ∈ allCls (grp C g) ↔ e.2.2 ∈ g ∧ ∃ j : ℕ, (C e.2.2).ids[j]? = some e.1 ∧ (C e.2.2).T[j]? = some e.2.1 := by
  obtain ⟨x, d, p⟩ := e
  unfold allCls grp
  simp only [List.mem_flatMap, List.mem_map]
  constructor
  · rintro ⟨m, ⟨q, hq, rfl⟩, y, hy, he⟩
    obtain ⟨j, hj⟩ := List.mem_iff_getElem?.mp hy
    rw [List.getElem?_zip_eq_some] at hj
    cases he
    exact ⟨hq, j, hj⟩
  · rintro ⟨hp, j, h1, h2⟩
    exact ⟨(p, C p), ⟨p, hp, rfl⟩, (x, d), List.mem_iff_getElem?.mpr ⟨j, List.getElem?_zip_eq_some.mpr ⟨h1, h2⟩⟩, rfl⟩

theorem idxOf_get {l : List ℕ} (hn : l.Nodup) {m x : ℕ} (h : l[m]? = some x) : l.idxOf x = m := by
  obtain ⟨h1, h2⟩ := List.getElem?_eq_some_iff.mp h
  rw [← h2]; exact hn.idxOf_getElem m h1

theorem mmems_spec (hM : VMesh np C) {sOf : ℕ → Finset ℕ} {cnt : ℕ → ℕ} (hN : Names np C sOf cnt) {g : List ℕ} (hg : ∀ p ∈ g, p < np) {gids : List ℕ} (hs : SL gids)
    (hm : ∀ x, x ∈ gids ↔ ∃ p ∈ g, x ∈ (C p).ids) :
    ∃ mm, mmems gids (grp C g) = some mm ∧ mm.length = gids.length ∧ ∀ (m x : ℕ), gids[m]? = some x → ∃ L, mm[m]? = some L ∧ Lists (sOf x) L := by
  have hn : gids.Nodup := hs.imp (fun h => Nat.ne_of_lt h)
  have hall := mem_allCls (C := C) g (fun p hp => hM.idl p (hg p hp))
  have hrow : ∀ e ∈ allCls (grp C g), ∃ h : gids.idxOf e.1 < gids.length, gids[gids.idxOf e.1]? = some e.1 ∧ Valid np e.2.2 e.2.1 ∧ sOf e.1 = members e.2.2 e.2.1 := by
    intro e he
    obtain ⟨hp, j, h1, h2⟩ := (hall e).mp he
    have hx : e.1 ∈ gids := (hm _).mpr ⟨_, hp, List.mem_of_getElem? h1⟩
    have hlt := List.idxOf_lt_length_of_mem hx
    obtain ⟨d, g1, g2⟩ := hN.rowI _ (hg _ hp) j _ h1
    rw [h2] at g1; cases g1
    exact ⟨hlt, by rw [List.getElem?_eq_getElem hlt, List.getElem_idxOf], (hM.tabs.ok _ (hg _ hp)).2 _ (List.mem_of_getElem? h2), g2⟩
  have hsz : ∀ e ∈ allCls (grp C g), ∀ e' ∈ allCls (grp C g), gids.idxOf e'.1 = gids.idxOf e.1 → e'.2.1.length + 1 = e.2.1.length + 1 := by
    intro e he e' he' h
    obtain ⟨a1, a2, a3, a4⟩ := hrow e he
    obtain ⟨b1, b2, b3, b4⟩ := hrow e' he'
    rw [h, a2] at b2
    have : e.1 = e'.1 := by simpa using b2
    rw [← members_card a3, ← members_card b3, ← a4, ← b4, this]
  unfold mmems
  obtain ⟨t, h1, h2, h3⟩ := mmems_aux (fun m => ((allCls (grp C g)).filter fun e => gids.idxOf e.1 = m).foldl (fun _ e => e.2.1.length + 1) 0) gids.idxOf (allCls (grp C g)) gids.length
    (fun m r => ∃ x, gids[m]? = some x ∧ r.Nodup ∧ ∀ y, y ∈ r ↔ y ∈ sOf x)
    (by
      intro e he
      obtain ⟨a1, a2, a3, a4⟩ := hrow e he
      refine ⟨a1, ?_, e.1, a2, ?_, ?_⟩
      · refine (foldl_last (fun e : ℕ × List ℕ × ℕ => e.2.1.length + 1) _ _ ?_ ?_ 0).symm
        · intro e' he'
          rw [List.mem_filter, decide_eq_true_eq] at he'
          exact hsz e he e' he'.1 he'.2
        · exact List.ne_nil_of_mem (List.mem_filter.mpr ⟨he, by simp⟩)
      · refine List.nodup_append.mpr ⟨a3.sorted.imp (fun h => Nat.ne_of_lt h), by simp, ?_⟩
        intro x hx y hy
        rw [List.mem_singleton] at hy
        subst hy; rintro rfl; exact a3.notSelf hx
      · intro y
        rw [a4, mem_members, List.mem_append, List.mem_singleton]
        tauto)
    (List.replicate gids.length []) (by simp) (fun _ => False) (fun _ _ h => h.elim)
  dsimp only
  rw [h1, Option.map_some]
  refine ⟨_, rfl, by rw [List.length_map, h2], ?_⟩
  intro m x hx
  have hmlt := (List.getElem?_eq_some_iff.mp hx).1
  obtain ⟨p, hp, hxp⟩ := (hm x).mp (List.mem_of_getElem? hx)
  obtain ⟨j, hj⟩ := List.mem_iff_getElem?.mp hxp
  obtain ⟨d, hd⟩ := hM.rowI (hg p hp) hj
  obtain ⟨r, g1, y, g2, g3, g4⟩ := h3 m hmlt (Or.inr ⟨(x, d, p), (hall _).mpr ⟨hp, j, hj, hd⟩, idxOf_get hn hx⟩)
  rw [hx] at g2; cases g2
  refine ⟨r.insertionSort (· ≤ ·), by rw [List.getElem?_map, g1]; rfl, sl_insertionSort g3, ?_⟩
  intro y
  rw [(List.perm_insertionSort _ _).mem_iff, g4]

/-! ### contracted classes -/

theorem crsDps_aux {groups : List (List ℕ)} (hG : GroupsOK np groups) (crank : ℕ) (L : List ℕ) (hL : ∀ p ∈ L, p < np) (out : List ℕ) (ho : out.Nodup) :
    ∃ o, L.foldlM (fun (out : List ℕ) p => (procMap groups p).map fun g => if g ≠ crank ∧ g ∉ out then out ++ [g] else out) out = some o ∧ o.Nodup ∧
      ∀ y, y ∈ o ↔ y ∈ out ∨ (y ≠ crank ∧ ∃ p ∈ L, gOf groups p = y) := by
  induction L generalizing out with
  | nil => exact ⟨out, rfl, ho, by simp⟩
  | cons p L ih =>
    rw [List.foldlM_cons, procMap_spec hG (hL p List.mem_cons_self)]
    obtain ⟨gp, hgp⟩ : ∃ x, x = gOf groups p := ⟨_, rfl⟩
    simp only [Option.map_some, Option.bind_eq_bind, Option.bind_some]
    by_cases h : gOf groups p ≠ crank ∧ gOf groups p ∉ out
    · rw [if_pos h]
      obtain ⟨o, h1, h2, h3⟩ := ih (fun p hp => hL p (List.mem_cons_of_mem _ hp)) (out ++ [gOf groups p]) (List.nodup_append.mpr ⟨ho, by simp, by
        intro x hx y hy
        rw [List.mem_singleton] at hy
        rintro rfl; subst hy; exact h.2 hx⟩)
      refine ⟨o, h1, h2, fun y => ?_⟩
      rw [h3, List.mem_append, List.mem_singleton]
      constructor
      · rintro ((a | rfl) | ⟨a, q, b, c⟩)
        · exact Or.inl a
        · exact Or.inr ⟨h.1, p, List.mem_cons_self, rfl⟩
        · exact Or.inr ⟨a, q, List.mem_cons_of_mem _ b, c⟩
      · rintro (a | ⟨a, q, b, c⟩)
        · exact Or.inl (Or.inl a)
        · rcases List.mem_cons.mp b with rfl | b
          · exact Or.inl (Or.inr c.symm)
          · exact Or.inr ⟨a, q, b, c⟩
    · rw [if_neg h]
      obtain ⟨o, h1, h2, h3⟩ := ih (fun p hp => hL p (List.mem_cons_of_mem _ hp)) out ho
      refine ⟨o, h1, h2, fun y => ?_⟩
      rw [h3]
      constructor
      · rintro (a | ⟨a, q, b, c⟩)
        · exact Or.inl a
        · exact Or.inr ⟨a, q, List.mem_cons_of_mem _ b, c⟩
      · rintro (a | ⟨a, q, b, c⟩)
        · exact Or.inl a
        · rcases List.mem_cons.mp b with rfl | b
          · left
            by_contra hy
            exact h ⟨by rw [c]; exact a, by rw [c]; exact hy⟩
          · exact Or.inr ⟨a, q, b, c⟩

theorem crsDps_spec {groups : List (List ℕ)} (hG : GroupsOK np groups) {crank : ℕ} {S : Finset ℕ} {L : List ℕ} (hL : Lists S L) (hS : ∀ p ∈ S, p < np) (hc : ∃ p ∈ S, gOf groups p = crank) :
    ∃ d, crsDps groups crank L = some d ∧ Valid groups.length crank d ∧ members crank d = S.image (gOf groups) := by
  obtain ⟨o, h1, h2, h3⟩ := crsDps_aux hG crank L (fun p hp => hS p ((hL.2 p).mp hp)) [] List.nodup_nil
  refine ⟨o.insertionSort (· ≤ ·), by unfold crsDps; rw [h1]; rfl, ⟨sl_insertionSort h2, ?_, ?_⟩, ?_⟩
  · intro q hq
    rw [(List.perm_insertionSort _ _).mem_iff, h3] at hq
    rcases hq with h | ⟨-, p, hp, rfl⟩
    · cases h
    · exact (hG.gOf_lt (hS p ((hL.2 p).mp hp))).1
  · rw [(List.perm_insertionSort _ _).mem_iff, h3]
    rintro (h | ⟨h, -⟩)
    · cases h
    · exact h rfl
  · ext y
    rw [mem_members, (List.perm_insertionSort _ _).mem_iff, h3, Finset.mem_image]
    constructor
    · rintro (rfl | h | ⟨-, p, hp, h⟩)
      · exact hc
      · cases h
      · exact ⟨p, (hL.2 p).mp hp, h⟩
    · rintro ⟨p, hp, h⟩
      by_cases hy : y = crank
      · exact Or.inl hy
      · exact Or.inr (Or.inr ⟨hy, p, (hL.2 p).mpr hp, h⟩)

theorem intern_aux (l : List (List ℕ)) (s : List (List ℕ) × List ℕ) (hs : s.1.Nodup) (l0 : List (List ℕ)) (h0 : s.2.length = l0.length) (h0' : ∀ d, d ∈ s.1 ↔ d ∈ l0)
    (h0'' : ∀ (m : ℕ) (d : List ℕ), l0[m]? = some d → ∃ i, s.2[m]? = some i ∧ s.1[i]? = some d) :
    let r := l.foldl (fun s d => if s.1.contains d then (s.1, s.2 ++ [s.1.idxOf d]) else (s.1 ++ [d], s.2 ++ [s.1.length])) s
    r.1.Nodup ∧ r.2.length = (l0 ++ l).length ∧ (∀ d, d ∈ r.1 ↔ d ∈ l0 ++ l) ∧ ∀ (m : ℕ) (d : List ℕ), (l0 ++ l)[m]? = some d → ∃ i, r.2[m]? = some i ∧ r.1[i]? = some d := by
  induction l generalizing s l0 with
  | nil => simpa using ⟨hs, h0, h0', h0''⟩
  | cons a l ih =>
    have e : l0 ++ a :: l = (l0 ++ [a]) ++ l := by simp
    simp only [List.foldl_cons]
    rw [e]
    by_cases ha : a ∈ s.1
    · rw [if_pos (by simpa using ha)]
      refine ih (s.1, s.2 ++ [s.1.idxOf a]) hs (l0 ++ [a]) (by simp [h0]) ?_ ?_
      · intro d; rw [h0', List.mem_append, List.mem_singleton]
        constructor
        · exact Or.inl
        · rintro (h | rfl)
          · exact h
          · exact (h0' _).mp ha
      · intro m d hd
        rw [List.getElem?_append] at hd
        split_ifs at hd with hm
        · obtain ⟨i, g1, g2⟩ := h0'' m d hd
          exact ⟨i, by rw [List.getElem?_append_left (by omega)]; exact g1, g2⟩
        · rw [List.getElem?_singleton] at hd
          split_ifs at hd with hm'
          cases hd
          refine ⟨s.1.idxOf a, ?_, ?_⟩
          · rw [List.getElem?_append_right (by omega), h0, hm']; simp
          · rw [List.getElem?_eq_getElem (List.idxOf_lt_length_of_mem ha), List.getElem_idxOf]
    · rw [if_neg (by simpa using ha)]
      refine ih (s.1 ++ [a], s.2 ++ [s.1.length]) ?_ (l0 ++ [a]) (by simp [h0]) ?_ ?_
      · exact List.nodup_append.mpr ⟨hs, by simp, by
          intro x hx y hy
          rw [List.mem_singleton] at hy
          rintro rfl; subst hy; exact ha hx⟩
      · intro d; rw [List.mem_append, List.mem_append, h0']
      · intro m d hd
        rw [List.getElem?_append] at hd
        split_ifs at hd with hm
        · obtain ⟨i, g1, g2⟩ := h0'' m d hd
          have := (List.getElem?_eq_some_iff.mp g2).1
          exact ⟨i, by rw [List.getElem?_append_left (by omega)]; exact g1, by rw [List.getElem?_append_left this]; exact g2⟩
        · rw [List.getElem?_singleton] at hd
          split_ifs at hd with hm'
          cases hd
          refine ⟨s.1.length, ?_, ?_⟩
          · rw [List.getElem?_append_right (by omega), h0, hm']; simp
          · rw [List.getElem?_append_right (by omega)]; simp

theorem intern_spec (l : List (List ℕ)) :
    (intern l).1.Nodup ∧ (intern l).2.length = l.length ∧ (∀ d, d ∈ (intern l).1 ↔ d ∈ l) ∧ ∀ (m : ℕ) (d : List ℕ), l[m]? = some d → ∃ i, (intern l).2[m]? = some i ∧ (intern l).1[i]? = some d := by
  have := intern_aux l ([], []) List.nodup_nil [] rfl (by simp) (by simp)
  rw [List.nil_append] at this
  exact this

theorem mapM_get {α β : Type} (f : α → Option β) (l : List α) (h : ∀ a ∈ l, ∃ b, f a = some b) :
    ∃ r, l.mapM f = some r ∧ r.length = l.length ∧ ∀ (i : ℕ) (a : α), l[i]? = some a → ∃ b, r[i]? = some b ∧ f a = some b := by
  induction l with
  | nil => exact ⟨[], rfl, rfl, by simp⟩
  | cons a l ih =>
    obtain ⟨b, hb⟩ := h a List.mem_cons_self
    obtain ⟨r, h1, h2, h3⟩ := ih (fun a ha => h a (List.mem_cons_of_mem _ ha))
    refine ⟨b :: r, by rw [List.mapM_cons, hb, h1]; rfl, by simp [h2], ?_⟩
    intro i x hx
    cases i with
    | zero => simp only [List.getElem?_cons_zero, Option.some.injEq] at hx; subst hx; exact ⟨b, rfl, hb⟩
    | succ i => simp only [List.getElem?_cons_succ] at hx ⊢; exact h3 i x hx

/-- what `BuildCEQCH` leaves on the master of the group `g` with number `gi` -/
structure CEqcOK (groups : List (List ℕ)) (C : ℕ → Ctx) (sOf : ℕ → Finset ℕ) (gi : ℕ) (g : List ℕ) (R : CEqc) : Prop where
  gidsS : SL R.gids
  gidsM : ∀ x, x ∈ R.gids ↔ ∃ p ∈ g, x ∈ (C p).ids
  mmL : R.mm.length = R.gids.length
  mm : ∀ (m x : ℕ), R.gids[m]? = some x → ∃ L, R.mm[m]? = some L ∧ Lists (sOf x) L
  fam : FamOK groups.length gi R.fam
  tab : R.tab = sortEqcs R.fam
  famM : ∀ d ∈ R.fam, ∃ x ∈ R.gids, members gi d = (sOf x).image (gOf groups)
  mcL : R.mc.length = R.gids.length
  mc : ∀ (m x : ℕ), R.gids[m]? = some x → ∃ c d, R.mc[m]? = some c ∧ R.tab[c]? = some d ∧ members gi d = (sOf x).image (gOf groups)
  om : R.om = g.map fun p => (C p).ids.map R.gids.idxOf
  oc : R.oc = R.om.map fun row => row.map fun m => R.mc.getD m 0

theorem buildCEQCH_spec (hM : VMesh np C) {groups : List (List ℕ)} (hG : GroupsOK np groups) {sOf : ℕ → Finset ℕ} {cnt : ℕ → ℕ} (hN : Names np C sOf cnt) {gi : ℕ} {g : List ℕ} (hgi : groups[gi]? = some g) :
    ∃ R, buildCEQCH groups gi (grp C g) = some R ∧ CEqcOK groups C sOf gi g R := by
  have hg : ∀ p ∈ g, p < np := fun p hp => hG.mem.mpr ⟨gi, g, hgi, hp⟩
  have hids : (grp C g).map (fun m => m.2.ids) = g.map fun p => (C p).ids := by unfold grp; rw [List.map_map]; rfl
  obtain ⟨gids, hgd⟩ : ∃ x, x = mergeIds (g.map fun p => (C p).ids) := ⟨_, rfl⟩
  obtain ⟨h1, h2⟩ := mergeIds_spec (g.map fun p => (C p).ids) (by
    intro l hl
    obtain ⟨p, hp, rfl⟩ := List.mem_map.mp hl
    exact hN.nodup p (hg p hp))
  rw [← hgd] at h1 h2
  have hm : ∀ x, x ∈ gids ↔ ∃ p ∈ g, x ∈ (C p).ids := by
    intro x; rw [h2]; simp
  obtain ⟨mm, m1, m2, m3⟩ := mmems_spec hM hN hg h1 hm
  have hcls : ∀ x ∈ gids, (∀ p ∈ sOf x, p < np) ∧ ∃ p ∈ sOf x, gOf groups p = gi := by
    intro x hx
    obtain ⟨p, hp, hxp⟩ := (hm x).mp hx
    obtain ⟨a, b⟩ := hN.mem p (hg p hp) x hxp
    exact ⟨fun q hq => (b q hq).1, p, a, hG.gOf_eq hgi hp⟩
  obtain ⟨cd, c1, c2, c3⟩ := mapM_get (crsDps groups gi) mm (by
    intro L hL
    obtain ⟨m, hmL⟩ := List.mem_iff_getElem?.mp hL
    have hlt := (List.getElem?_eq_some_iff.mp hmL).1
    have hx : gids[m]? = some (gids[m]'(by omega)) := List.getElem?_eq_getElem _
    obtain ⟨L', g1, g2⟩ := m3 m _ hx
    rw [hmL] at g1; cases g1
    obtain ⟨a, b⟩ := hcls _ (List.mem_of_getElem? hx)
    obtain ⟨d, hd, -⟩ := crsDps_spec hG g2 a b
    exact ⟨d, hd⟩)
  have c4 : ∀ (m x : ℕ), gids[m]? = some x → ∃ d, cd[m]? = some d ∧ Valid groups.length gi d ∧ members gi d = (sOf x).image (gOf groups) := by
    intro m x hx
    obtain ⟨L, g1, g2⟩ := m3 m x hx
    obtain ⟨a, b⟩ := hcls _ (List.mem_of_getElem? hx)
    obtain ⟨d, hd, hd1, hd2⟩ := crsDps_spec hG g2 a b
    obtain ⟨d', g3, g4⟩ := c3 m L g1
    rw [hd] at g4; cases g4
    exact ⟨d, g3, hd1, hd2⟩
  have c5 : ∀ d ∈ cd, ∃ x ∈ gids, Valid groups.length gi d ∧ members gi d = (sOf x).image (gOf groups) := by
    intro d hd
    obtain ⟨m, hmd⟩ := List.mem_iff_getElem?.mp hd
    have hlt := (List.getElem?_eq_some_iff.mp hmd).1
    have hx : gids[m]? = some (gids[m]'(by omega)) := List.getElem?_eq_getElem _
    obtain ⟨d', g1, g2⟩ := c4 m _ hx
    rw [hmd] at g1; cases g1
    exact ⟨_, List.mem_of_getElem? hx, g2⟩
  obtain ⟨i1, i2, i3, i4⟩ := intern_spec cd
  have hperm := sortEqcs_perm (intern cd).1
  obtain ⟨re, r1, r2, r3⟩ := mapM_get (fun d => if (sortEqcs (intern cd).1).contains d then some ((sortEqcs (intern cd).1).idxOf d) else none) (intern cd).1 (by
    intro d hd
    exact ⟨_, if_pos (by simpa using hperm.mem_iff.mpr hd)⟩)
  have r4 : ∀ (i : ℕ) (d : List ℕ), (intern cd).1[i]? = some d → ∃ c, re[i]? = some c ∧ (sortEqcs (intern cd).1)[c]? = some d := by
    intro i d hd
    obtain ⟨c, g1, g2⟩ := r3 i d hd
    have hd' : d ∈ sortEqcs (intern cd).1 := hperm.mem_iff.mpr (List.mem_of_getElem? hd)
    rw [if_pos (by simpa using hd')] at g2
    cases g2
    exact ⟨_, g1, by rw [List.getElem?_eq_getElem (List.idxOf_lt_length_of_mem hd'), List.getElem_idxOf]⟩
  obtain ⟨mc, k1, k2, k3⟩ := mapM_get (fun l => re[l]?) (intern cd).2 (by
    intro l hl
    obtain ⟨m, hml⟩ := List.mem_iff_getElem?.mp hl
    have hlt := (List.getElem?_eq_some_iff.mp hml).1
    have hd : cd[m]? = some (cd[m]'(by omega)) := List.getElem?_eq_getElem _
    obtain ⟨i, g1, g2⟩ := i4 m _ hd
    rw [hml] at g1; cases g1
    obtain ⟨c, g3, -⟩ := r4 l _ g2
    exact ⟨c, g3⟩)
  have k4 : ∀ (m x : ℕ), gids[m]? = some x → ∃ c d, mc[m]? = some c ∧ (sortEqcs (intern cd).1)[c]? = some d ∧ members gi d = (sOf x).image (gOf groups) := by
    intro m x hx
    obtain ⟨d, g1, g2, g3⟩ := c4 m x hx
    obtain ⟨i, g4, g5⟩ := i4 m d g1
    obtain ⟨c, g6, g7⟩ := r4 i d g5
    obtain ⟨c', g8, g9⟩ := k3 m i g4
    rw [g6] at g9; cases g9
    exact ⟨c, d, g8, g7, g3⟩
  have hmcl : mc.length = gids.length := by rw [k2, i2, c2, m2]
  have hom : (grp C g).map (fun m => m.2.ids.map gids.idxOf) = g.map fun p => (C p).ids.map gids.idxOf := by unfold grp; rw [List.map_map]; rfl
  have hoc : ((g.map fun p => (C p).ids.map gids.idxOf).mapM fun (row : List ℕ) => row.mapM fun (m : ℕ) => mc[m]?) = some ((g.map fun p => (C p).ids.map gids.idxOf).map fun row => row.map fun m => mc.getD m 0) := by
    refine RedTab.mapM_some_of _ _ _ ?_
    intro row hrow
    obtain ⟨p, hp, rfl⟩ := List.mem_map.mp hrow
    refine RedTab.mapM_some_of _ _ _ ?_
    intro m hmm
    obtain ⟨x, hx, rfl⟩ := List.mem_map.mp hmm
    have hx' : x ∈ gids := (hm x).mpr ⟨p, hp, hx⟩
    have hlt := List.idxOf_lt_length_of_mem hx'
    rw [List.getD_eq_getElem?_getD, List.getElem?_eq_getElem (by omega)]; rfl
  refine ⟨⟨gids, mm, (intern cd).1, sortEqcs (intern cd).1, mc, g.map fun p => (C p).ids.map gids.idxOf, (g.map fun p => (C p).ids.map gids.idxOf).map fun row => row.map fun m => mc.getD m 0⟩, ?_,
    ⟨h1, hm, m2, m3, ⟨i1, fun d hd => ?_⟩, rfl, fun d hd => ?_, hmcl, k4, rfl, rfl⟩⟩
  · unfold buildCEQCH
    dsimp only
    rw [hids, ← hgd, hom, m1, Option.bind_some, c1, Option.bind_some]
    unfold remapOf
    rw [r1, Option.bind_some, k1, Option.bind_some, hoc]; rfl
  · obtain ⟨x, -, h, -⟩ := c5 d ((i3 d).mp hd)
    exact h
  · obtain ⟨x, h, -, h'⟩ := c5 d ((i3 d).mp hd)
    exact ⟨x, h, h'⟩

end NgsAMG.GCtr
