import Verif.Model.EQC
import Mathlib.Data.Finset.Sort
import Mathlib.Data.Finset.Powerset
import Mathlib.Data.List.NodupEquivFin
import Mathlib.Data.List.Perm.Basic
import Mathlib.Tactic.Ring
import Mathlib.Tactic.Linarith

/-!
# Properties of the equivalence-class hierarchy, part 1: closing the family of classes (C57)
-/

namespace NgsAMG.EQC

open NgsAMG.Exch NgsAMG.DCC

/-! ### specification -/

/-- strictly ascending -/
abbrev SL (d : List ℕ) : Prop := d.Pairwise (· < ·)

/-- the distant processes of a class as seen by process `p`: ranks in ascending order, not `p` itself -/
structure Valid (np p : ℕ) (d : List ℕ) : Prop where
  sorted : SL d
  range : ∀ q ∈ d, q < np
  notSelf : p ∉ d

/-- all processes of a class (`d`: the distant ones as seen by `p`) -/
def members (p : ℕ) (d : List ℕ) : Finset ℕ := insert p d.toFinset

/-- the processes know the same classes: whenever `p` has a class, every other process of the class has it too -/
def Consistent (np : ℕ) (R : ℕ → List (List ℕ)) : Prop :=
  ∀ p < np, ∀ d ∈ R p, ∀ q ∈ d, ∃ e ∈ R q, members q e = members p d

/-- every process has a list of distinct classes -/
def FamOK (np p : ℕ) (F : List (List ℕ)) : Prop := F.Nodup ∧ ∀ d ∈ F, Valid np p d

/-! ### sorted lists -/

theorem sl_ext {a b : List ℕ} (ha : SL a) (hb : SL b) (h : ∀ x, x ∈ a ↔ x ∈ b) : a = b := by
  have hp : a.Perm b := (List.perm_ext_iff_of_nodup (ha.imp fun h => Nat.ne_of_lt h) (hb.imp fun h => Nat.ne_of_lt h)).mpr h
  exact hp.eq_of_pairwise (fun x y _ _ h1 h2 => absurd h1 (Nat.lt_asymm h2)) ha hb

theorem sl_insertionSort {a : List ℕ} (h : a.Nodup) : SL (a.insertionSort (· ≤ ·)) := by
  have h1 := List.pairwise_insertionSort (· ≤ ·) a
  have h2 : (a.insertionSort (· ≤ ·)).Nodup := (List.perm_insertionSort _ _).nodup_iff.mpr h
  exact (h1.and h2).imp fun h => lt_of_le_of_ne h.1 h.2

theorem mergeL_spec (a b : List ℕ) (ha : SL a) (hb : SL b) : SL (mergeL a b) ∧ ∀ x, x ∈ mergeL a b ↔ x ∈ a ∨ x ∈ b := by
  fun_induction mergeL a b with
  | case1 b => simp [hb]
  | case2 a as => simp [ha]
  | case3 a as b bs h ih =>
    obtain ⟨h1, h2⟩ := ih (List.pairwise_cons.mp ha).2 hb
    refine ⟨List.pairwise_cons.mpr ⟨?_, h1⟩, fun x => by simp only [List.mem_cons, h2]; tauto⟩
    intro x hx
    rcases (h2 x).mp hx with hx | hx
    · exact (List.pairwise_cons.mp ha).1 x hx
    · rcases List.mem_cons.mp hx with rfl | hx
      · exact h
      · exact lt_trans h ((List.pairwise_cons.mp hb).1 x hx)
  | case4 a as b bs h h' ih =>
    obtain ⟨h1, h2⟩ := ih ha (List.pairwise_cons.mp hb).2
    refine ⟨List.pairwise_cons.mpr ⟨?_, h1⟩, fun x => by simp only [List.mem_cons, h2]; tauto⟩
    intro x hx
    rcases (h2 x).mp hx with hx | hx
    · rcases List.mem_cons.mp hx with rfl | hx
      · exact h'
      · exact lt_trans h' ((List.pairwise_cons.mp ha).1 x hx)
    · exact (List.pairwise_cons.mp hb).1 x hx
  | case5 a as b bs h h' ih =>
    have hab : a = b := by omega
    subst hab
    obtain ⟨h1, h2⟩ := ih (List.pairwise_cons.mp ha).2 (List.pairwise_cons.mp hb).2
    refine ⟨List.pairwise_cons.mpr ⟨?_, h1⟩, fun x => by simp only [List.mem_cons, h2]; tauto⟩
    intro x hx
    rcases (h2 x).mp hx with hx | hx
    · exact (List.pairwise_cons.mp ha).1 x hx
    · exact (List.pairwise_cons.mp hb).1 x hx

theorem interL_spec (a b : List ℕ) (ha : SL a) (hb : SL b) : SL (interL a b) ∧ ∀ x, x ∈ interL a b ↔ x ∈ a ∧ x ∈ b := by
  fun_induction interL a b with
  | case1 b => simp
  | case2 a as => simp
  | case3 as b bs ih =>
    have hA := List.pairwise_cons.mp ha
    have hB := List.pairwise_cons.mp hb
    obtain ⟨h1, h2⟩ := ih hA.2 hB.2
    refine ⟨List.pairwise_cons.mpr ⟨fun x hx => hA.1 x ((h2 x).mp hx).1, h1⟩, fun x => ?_⟩
    simp only [List.mem_cons, h2]; tauto
  | case4 a as b bs h h' ih =>
    have hA := List.pairwise_cons.mp ha
    have hB := List.pairwise_cons.mp hb
    obtain ⟨h1, h2⟩ := ih hA.2 hb
    refine ⟨h1, fun x => ?_⟩
    rw [h2]
    simp only [List.mem_cons]
    constructor
    · rintro ⟨h1, h2⟩; exact ⟨Or.inr h1, h2⟩
    · rintro ⟨rfl | h1, h2⟩
      · rcases h2 with rfl | h2
        · exact absurd rfl h
        · have := hB.1 x h2; omega
      · exact ⟨h1, h2⟩
  | case5 a as b bs h h' ih =>
    have hA := List.pairwise_cons.mp ha
    have hB := List.pairwise_cons.mp hb
    obtain ⟨h1, h2⟩ := ih ha hB.2
    refine ⟨h1, fun x => ?_⟩
    rw [h2]
    simp only [List.mem_cons]
    constructor
    · rintro ⟨h1, h2⟩; exact ⟨h1, Or.inr h2⟩
    · rintro ⟨h1, rfl | h2⟩
      · rcases h1 with rfl | h1
        · exact absurd rfl h
        · have := hA.1 x h1; omega
      · exact ⟨h1, h2⟩

theorem mem_members {p : ℕ} {d : List ℕ} {x : ℕ} : x ∈ members p d ↔ x = p ∨ x ∈ d := by simp [members]

theorem members_inj {np p : ℕ} {d e : List ℕ} (hd : Valid np p d) (he : Valid np p e) (h : members p d = members p e) : d = e := by
  refine sl_ext hd.sorted he.sorted fun x => ?_
  have := congrArg (x ∈ ·) h
  simp only [mem_members, eq_iff_iff] at this
  constructor
  · intro hx
    rcases this.mp (Or.inr hx) with rfl | h
    · exact absurd hx hd.notSelf
    · exact h
  · intro hx
    rcases this.mpr (Or.inr hx) with rfl | h
    · exact absurd hx he.notSelf
    · exact h

/-- there are at most `2 ^ np` classes -/
theorem famOK_length {np p : ℕ} {F : List (List ℕ)} (h : FamOK np p F) : F.length ≤ 2 ^ np := by
  have hinj : ∀ d ∈ F, ∀ e ∈ F, d.toFinset = e.toFinset → d = e := by
    intro d hd e he heq
    refine sl_ext (h.2 d hd).sorted (h.2 e he).sorted fun x => ?_
    have := congrArg (x ∈ ·) heq
    simpa using this
  have hn : (F.map List.toFinset).Nodup := by
    rw [List.nodup_map_iff_inj_on h.1]
    exact hinj
  have hsub : (F.map List.toFinset).toFinset ⊆ (Finset.range np).powerset := by
    intro s hs
    simp only [List.mem_toFinset, List.mem_map] at hs
    obtain ⟨d, hd, rfl⟩ := hs
    rw [Finset.mem_powerset]
    intro x hx
    exact Finset.mem_range.mpr ((h.2 d hd).range x (List.mem_toFinset.mp hx))
  have := Finset.card_le_card hsub
  rw [List.toFinset_card_of_nodup hn, Finset.card_powerset, Finset.card_range, List.length_map] at this
  exact this

/-! ### loops with a growing bound -/

theorem dynFor_spec {S : Type} (size : S → ℕ) (body : ℕ → S → Option S) (Inv : ℕ → S → Prop) (N : ℕ)
    (hN : ∀ i s, Inv i s → size s ≤ N)
    (hb : ∀ i s, Inv i s → i < size s → ∃ s', body i s = some s' ∧ Inv (i + 1) s') :
    ∀ fuel i s, Inv i s → 1 ≤ fuel → N + 1 ≤ fuel + i →
      ∃ s' i', dynFor size body fuel i s = some s' ∧ Inv i' s' ∧ size s' ≤ i' := by
  intro fuel
  induction fuel with
  | zero => intro i s _ h; omega
  | succ fuel ih =>
    intro i s hi _ hf
    rw [dynFor]
    by_cases hlt : i < size s
    · rw [if_pos hlt]
      obtain ⟨s', e, hs'⟩ := hb i s hi hlt
      rw [e, Option.bind_some]
      have := hN i s hi
      exact ih (i + 1) s' hs' (by omega) (by omega)
    · rw [if_neg hlt]
      exact ⟨s, i, rfl, hi, by omega⟩

/-! ### adding unions -/

theorem getD_mem {α : Type} (l : List α) (i : ℕ) (x : α) (h : i < l.length) : l.getD i x ∈ l := by
  rw [List.getD_eq_getElem?_getD, List.getElem?_eq_getElem h]
  exact List.getElem_mem h

/-- invariant of the union loop -/
structure UInv (np p : ℕ) (V F : List (List ℕ)) : Prop where
  ok : FamOK np p F
  pre : V <+: F
  below : ∀ d ∈ F, ∃ v ∈ V, ∀ q ∈ d, q ∈ v

theorem UInv.within {np p : ℕ} {V F : List (List ℕ)} (h : UInv np p V F) : ∀ d ∈ F, ∀ q ∈ d, ∃ v ∈ V, q ∈ v := fun d hd q hq =>
  let ⟨v, hv, hs⟩ := h.below d hd
  ⟨v, hv, hs q hq⟩

theorem addUnion_inv {np p : ℕ} {V F : List (List ℕ)} (h : UInv np p V F) (e1 e2 : ℕ) (h1 : e1 < F.length) (h2 : e2 < F.length) :
    UInv np p V (addUnion e1 F e2) ∧ F.length ≤ (addUnion e1 F e2).length := by
  unfold addUnion
  dsimp only
  set m := mergeL (F.getD e1 []) (F.getD e2 []) with hm
  split_ifs with hc
  · rw [Bool.and_eq_true, Bool.not_eq_true', Bool.eq_false_iff] at hc
    have ha := getD_mem F e1 [] h1
    have hb := getD_mem F e2 [] h2
    obtain ⟨s1, s2⟩ := mergeL_spec _ _ (h.ok.2 _ ha).sorted (h.ok.2 _ hb).sorted
    have hv : Valid np p m := by
      refine ⟨s1, ?_, ?_⟩
      · intro q hq
        rcases (s2 q).mp hq with hq | hq
        · exact (h.ok.2 _ ha).range q hq
        · exact (h.ok.2 _ hb).range q hq
      · intro hq
        rcases (s2 p).mp hq with hq | hq
        · exact (h.ok.2 _ ha).notSelf hq
        · exact (h.ok.2 _ hb).notSelf hq
    have hnot : m ∉ F := by
      intro hmem
      apply hc.2
      rw [List.any_eq_true]
      exact ⟨m, hmem, by simp⟩
    refine ⟨⟨⟨?_, ?_⟩, h.pre.trans (List.prefix_append _ _), ?_⟩, by simp⟩
    · rw [List.nodup_append]
      refine ⟨h.ok.1, List.nodup_singleton _, ?_⟩
      intro a ha b hb hab
      rw [List.mem_singleton] at hb
      exact hnot (by rw [← hb, ← hab]; exact ha)
    · intro d hd
      rcases List.mem_append.mp hd with hd | hd
      · exact h.ok.2 d hd
      · rw [List.mem_singleton.mp hd]; exact hv
    · intro d hd
      rcases List.mem_append.mp hd with hd | hd
      · exact h.below d hd
      · rw [List.mem_singleton.mp hd]
        obtain ⟨f, hf, hfm⟩ := List.any_eq_true.mp hc.1
        obtain ⟨v, hv, hfv⟩ := h.below f hf
        rw [List.all_eq_true] at hfm
        exact ⟨v, hv, fun q hq => hfv q (by simpa using hfm q hq)⟩
  · exact ⟨h, le_refl _⟩

theorem addUnion_prefix (e1 e2 : ℕ) (F : List (List ℕ)) : F <+: addUnion e1 F e2 := by
  unfold addUnion
  dsimp only
  split_ifs
  · exact List.prefix_append _ _
  · exact List.prefix_refl _

/-- after the step the union is there, if it is below one of the given classes -/
theorem addUnion_adds {np p : ℕ} {V F : List (List ℕ)} (h : UInv np p V F) (e1 e2 : ℕ) (h1 : e1 < F.length) (h2 : e2 < F.length)
    (hb : ∃ v ∈ V, ∀ q ∈ mergeL (F.getD e1 []) (F.getD e2 []), q ∈ v) :
    mergeL (F.getD e1 []) (F.getD e2 []) ∈ addUnion e1 F e2 := by
  unfold addUnion
  dsimp only
  set m := mergeL (F.getD e1 []) (F.getD e2 []) with hm
  obtain ⟨s1, -⟩ := mergeL_spec _ _ (h.ok.2 _ (getD_mem F e1 [] h1)).sorted (h.ok.2 _ (getD_mem F e2 [] h2)).sorted
  rw [← hm] at s1
  split_ifs with hc
  · simp
  · rw [Bool.and_eq_true, not_and_or] at hc
    rcases hc with hc | hc
    · exfalso
      apply hc
      obtain ⟨v, hv, hq⟩ := hb
      rw [List.any_eq_true]
      exact ⟨v, h.pre.subset hv, by rw [List.all_eq_true]; intro q hm; simpa using hq q hm⟩
    · rw [Bool.not_eq_true', Bool.not_eq_false, List.any_eq_true] at hc
      obtain ⟨d, hd, hdm⟩ := hc
      rw [Bool.and_eq_true, List.all_eq_true, beq_iff_eq] at hdm
      have hsub : m ⊆ d := fun x hx => by simpa using hdm.1 x hx
      have hnd : m.Nodup := s1.imp fun h => Nat.ne_of_lt h
      have hperm : m.Perm d := (List.subperm_of_subset hnd hsub).perm_of_length_le (by omega)
      have := sl_ext s1 (h.ok.2 d hd).sorted fun x => hperm.mem_iff
      rw [this]; exact hd

/-- the pairs that were worked off -/
def Pairs (V F : List (List ℕ)) (Done : ℕ → ℕ → Prop) : Prop :=
  ∀ a b, Done a b → b < a → a < F.length → (∃ v ∈ V, ∀ q ∈ mergeL (F.getD a []) (F.getD b []), q ∈ v) →
    mergeL (F.getD a []) (F.getD b []) ∈ F

theorem getD_prefix {F G : List (List ℕ)} (h : F <+: G) {a : ℕ} (ha : a < F.length) : G.getD a [] = F.getD a [] := by
  obtain ⟨t, rfl⟩ := h
  rw [List.getD_eq_getElem?_getD, List.getD_eq_getElem?_getD, List.getElem?_append_left ha]

theorem unionLoop_spec {np p : ℕ} {V : List (List ℕ)} (hV : FamOK np p V) (fuel : ℕ) (hf : 2 ^ np + 1 ≤ fuel) :
    ∃ F, unionLoop fuel V = some F ∧ UInv np p V F ∧
      ∀ d ∈ F, ∀ e ∈ F, ∀ f ∈ F, members p d ∪ members p e ⊆ members p f → ∃ c ∈ F, members p c = members p d ∪ members p e := by
  have hpos := Nat.one_le_two_pow (n := np)
  have h0 : UInv np p V V := ⟨hV, List.prefix_refl _, fun d hd => ⟨d, hd, fun _ h => h⟩⟩
  have := dynFor_spec List.length (fun e1 F => some ((List.range e1).foldl (addUnion e1) F))
    (fun i F => UInv np p V F ∧ i ≤ F.length ∧ Pairs V F fun a _ => a < i) (2 ^ np)
    (fun _ s hs => famOK_length hs.1.ok) ?_ fuel 0 V ⟨h0, Nat.zero_le _, fun a b h => absurd h (Nat.not_lt_zero a)⟩ (by omega) (by omega)
  · obtain ⟨F, i', e, ⟨h, hi, hp⟩, hsz⟩ := this
    refine ⟨F, e, h, ?_⟩
    have key : ∀ a b, a < F.length → b < F.length → b < a → ∀ f ∈ F, members p (F.getD a []) ∪ members p (F.getD b []) ⊆ members p f →
        ∃ c ∈ F, members p c = members p (F.getD a []) ∪ members p (F.getD b []) := by
      intro a b ha hb hba f hf hsub
      have va := h.ok.2 _ (getD_mem F a [] ha)
      have vb := h.ok.2 _ (getD_mem F b [] hb)
      obtain ⟨-, s2⟩ := mergeL_spec _ _ va.sorted vb.sorted
      refine ⟨_, hp a b (by omega) hba ha ?_, ?_⟩
      · obtain ⟨v, hv, hfv⟩ := h.below f hf
        refine ⟨v, hv, fun q hq => hfv q ?_⟩
        have hqm : q ∈ members p f := hsub (by
          rw [Finset.mem_union, mem_members, mem_members]
          rcases (s2 q).mp hq with h | h
          · exact Or.inl (Or.inr h)
          · exact Or.inr (Or.inr h))
        rcases mem_members.mp hqm with rfl | h'
        · rcases (s2 q).mp hq with h | h
          · exact absurd h va.notSelf
          · exact absurd h vb.notSelf
        · exact h'
      · ext x
        rw [mem_members, s2, Finset.mem_union, mem_members, mem_members]
        tauto
    intro d hd e he f hf hsub
    obtain ⟨a, ha, rfl⟩ := List.mem_iff_getElem.mp hd
    obtain ⟨b, hb, rfl⟩ := List.mem_iff_getElem.mp he
    have hga : F.getD a [] = F[a] := by rw [List.getD_eq_getElem?_getD, List.getElem?_eq_getElem ha]; rfl
    have hgb : F.getD b [] = F[b] := by rw [List.getD_eq_getElem?_getD, List.getElem?_eq_getElem hb]; rfl
    rcases Nat.lt_trichotomy a b with hab | rfl | hab
    · have := key b a hb ha hab f hf (by rw [hga, hgb, Finset.union_comm]; exact hsub)
      rw [hga, hgb, Finset.union_comm] at this
      exact this
    · exact ⟨_, hd, by rw [Finset.union_self]⟩
    · have := key a b ha hb hab f hf (by rw [hga, hgb]; exact hsub)
      rw [hga, hgb] at this
      exact this
  · rintro e1 F ⟨hF, -, hFp⟩ he1
    refine ⟨_, rfl, ?_⟩
    have gen : ∀ n ≤ e1, UInv np p V ((List.range n).foldl (addUnion e1) F) ∧ F <+: (List.range n).foldl (addUnion e1) F ∧
        Pairs V ((List.range n).foldl (addUnion e1) F) fun a b => a < e1 ∨ (a = e1 ∧ b < n) := by
      intro n hn
      induction n with
      | zero =>
        refine ⟨hF, List.prefix_refl _, ?_⟩
        intro a b h
        exact hFp a b (by omega)
      | succ n ih =>
        obtain ⟨h1, h2, h3⟩ := ih (by omega)
        rw [List.range_succ, List.foldl_append]
        simp only [List.foldl_cons, List.foldl_nil]
        set G := (List.range n).foldl (addUnion e1) F
        have hl := h2.length_le
        have hpre := addUnion_prefix e1 n G
        refine ⟨(addUnion_inv h1 e1 n (by omega) (by omega)).1, h2.trans hpre, ?_⟩
        intro a b hd hba ha hv
        by_cases haG : a < G.length
        · rw [getD_prefix hpre haG, getD_prefix hpre (by omega : b < G.length)] at hv ⊢
          by_cases hnew : a = e1 ∧ b = n
          · obtain ⟨rfl, rfl⟩ := hnew
            exact addUnion_adds h1 _ _ haG (by omega) hv
          · exact hpre.subset (h3 a b (by omega) hba haG hv)
        · exfalso; omega
    obtain ⟨h1, h2, h3⟩ := gen e1 le_rfl
    have hl := h2.length_le
    refine ⟨h1, by omega, ?_⟩
    intro a b h hba
    exact h3 a b (by omega) hba

/-! ### messages -/

theorem decode_encode (N : List (List ℕ)) (tail : List ℕ) : decode N.length ((N.flatMap fun d => d.length :: d) ++ tail) = some N := by
  induction N with
  | nil => simp [decode]
  | cons d N ih =>
    simp only [List.length_cons, List.flatMap_cons, List.cons_append, List.append_assoc, decode]
    rw [if_pos (by simp)]
    rw [List.drop_left, List.take_left, ih]
    rfl

theorem addMessage_encode (q p : ℕ) (F N : List (List ℕ)) : addMessage q p F (encode N) = N.foldlM (addReceived q p) F := by
  have := decode_encode N []
  rw [List.append_nil] at this
  unfold encode addMessage
  dsimp only
  rw [this]
  rfl

/-- a received class is the same set of processes -/
theorem swap_spec {np q p : ℕ} {d : List ℕ} (hd : Valid np p d) (hp : p < np) (hq : q ∈ d) :
    Valid np q ((d.set (d.idxOf q) p).insertionSort (· ≤ ·)) ∧
      members q ((d.set (d.idxOf q) p).insertionSort (· ≤ ·)) = members p d := by
  have hnd : d.Nodup := hd.sorted.imp fun h => Nat.ne_of_lt h
  have hi : d.idxOf q < d.length := List.idxOf_lt_length_iff.mpr hq
  have hgi : d[d.idxOf q] = q := List.getElem_idxOf hi
  have hmem : ∀ x, x ∈ d.set (d.idxOf q) p ↔ x = p ∨ (x ∈ d ∧ x ≠ q) := by
    intro x
    rw [List.mem_iff_getElem]
    constructor
    · rintro ⟨i, hil, rfl⟩
      rw [List.getElem_set]
      split_ifs with h
      · exact Or.inl rfl
      · right
        have hil' : i < d.length := by simpa using hil
        refine ⟨List.getElem_mem _, ?_⟩
        intro he
        apply h
        have : d[i] = d[d.idxOf q] := by rw [he, hgi]
        exact ((List.Nodup.getElem_inj_iff hnd).mp this).symm
    · rintro (rfl | ⟨hx, hne⟩)
      · exact ⟨d.idxOf q, by simpa using hi, by simp⟩
      · obtain ⟨i, hil, rfl⟩ := List.mem_iff_getElem.mp hx
        refine ⟨i, by simpa using hil, ?_⟩
        rw [List.getElem_set]
        rw [if_neg]
        intro he
        apply hne
        subst he
        exact hgi
  have hnd2 : (d.set (d.idxOf q) p).Nodup := by
    rw [List.nodup_iff_pairwise_ne, List.pairwise_iff_getElem]
    intro i j hi1 hj1 hij
    rw [List.getElem_set, List.getElem_set]
    have hi2 : i < d.length := by simpa using hi1
    have hj2 : j < d.length := by simpa using hj1
    split_ifs with h1 h2 h2
    · omega
    · intro he; exact hd.notSelf (he ▸ List.getElem_mem hj2)
    · intro he; exact hd.notSelf (he ▸ List.getElem_mem hi2)
    · intro he
      have := (List.Nodup.getElem_inj_iff hnd).mp he
      omega
  have hmem2 : ∀ x, x ∈ (d.set (d.idxOf q) p).insertionSort (· ≤ ·) ↔ x = p ∨ (x ∈ d ∧ x ≠ q) := by
    intro x; rw [List.mem_insertionSort, hmem]
  refine ⟨⟨sl_insertionSort hnd2, ?_, ?_⟩, ?_⟩
  · intro x hx
    rcases (hmem2 x).mp hx with rfl | ⟨h, -⟩
    · exact hp
    · exact hd.range x h
  · intro hx
    rcases (hmem2 q).mp hx with rfl | ⟨-, h⟩
    · exact hd.notSelf hq
    · exact h rfl
  · ext x
    rw [mem_members, mem_members, hmem2]
    by_cases hxq : x = q
    · subst hxq; simp [hq]
    · simp [hxq]

theorem addReceived_spec {np q p : ℕ} {F : List (List ℕ)} (hF : FamOK np q F) {d : List ℕ} (hd : Valid np p d) (hp : p < np)
    (hq : q ∈ d) :
    ∃ F', addReceived q p F d = some F' ∧ FamOK np q F' ∧ F <+: F' ∧
      (∃ e ∈ F', members q e = members p d) ∧ (∀ e ∈ F', e ∈ F ∨ members q e = members p d) := by
  obtain ⟨h1, h2⟩ := swap_spec hd hp hq
  unfold addReceived
  rw [if_pos (by simpa using hq)]
  refine ⟨_, rfl, ?_⟩
  generalize (d.set (d.idxOf q) p).insertionSort (· ≤ ·) = c at h1 h2
  split_ifs with hc
  · have hc' : c ∈ F := by simpa using hc
    exact ⟨hF, List.prefix_refl _, ⟨c, hc', h2⟩, fun e he => Or.inl he⟩
  · have hc' : c ∉ F := by simpa using hc
    refine ⟨⟨?_, ?_⟩, List.prefix_append _ _, ⟨c, by simp, h2⟩, ?_⟩
    · rw [List.nodup_append]
      refine ⟨hF.1, List.nodup_singleton _, ?_⟩
      intro a ha b hb hab
      rw [List.mem_singleton] at hb
      exact hc' (by rw [← hb, ← hab]; exact ha)
    · intro e he
      rcases List.mem_append.mp he with he | he
      · exact hF.2 e he
      · rw [List.mem_singleton.mp he]; exact h1
    · intro e he
      rcases List.mem_append.mp he with he | he
      · exact Or.inl he
      · rw [List.mem_singleton.mp he]; exact Or.inr h2

theorem foldl_received {np q p : ℕ} (hp : p < np) (N : List (List ℕ)) (hN : ∀ d ∈ N, Valid np p d ∧ q ∈ d) :
    ∀ F, FamOK np q F → ∃ F', N.foldlM (addReceived q p) F = some F' ∧ FamOK np q F' ∧ F <+: F' ∧
      (∀ d ∈ N, ∃ e ∈ F', members q e = members p d) ∧ (∀ e ∈ F', e ∈ F ∨ ∃ d ∈ N, members q e = members p d) := by
  induction N with
  | nil => intro F hF; exact ⟨F, rfl, hF, List.prefix_refl _, by simp, fun e he => Or.inl he⟩
  | cons d N ih =>
    intro F hF
    obtain ⟨hv, hq⟩ := hN d (by simp)
    obtain ⟨F1, e1, h1, p1, ⟨x, hx, hxe⟩, a1⟩ := addReceived_spec hF hv hp hq
    obtain ⟨F2, e2, h2, p2, m2, a2⟩ := ih (fun d hd => hN d (by simp [hd])) F1 h1
    refine ⟨F2, ?_, h2, p1.trans p2, ?_, ?_⟩
    · rw [List.foldlM_cons, e1]; exact e2
    · intro d' hd'
      rcases List.mem_cons.mp hd' with rfl | hd'
      · exact ⟨x, p2.subset hx, hxe⟩
      · exact m2 d' hd'
    · intro e he
      rcases a2 e he with h | ⟨d', hd', h⟩
      · rcases a1 e h with h | h
        · exact Or.inl h
        · exact Or.inr ⟨d, by simp, h⟩
      · exact Or.inr ⟨d', by simp [hd'], h⟩

/-! ### intersections -/

/-- the classes that have to be there: the given ones and all their intersections -/
inductive Gen (B : Finset ℕ → Prop) : Finset ℕ → Prop
  | base {S : Finset ℕ} : B S → Gen B S
  | inter {S T : Finset ℕ} : Gen B S → Gen B T → Gen B (S ∩ T)

/-- `S` is a class of process `p` -/
def Has (p : ℕ) (F : List (List ℕ)) (S : Finset ℕ) : Prop := ∃ d ∈ F, members p d = S

/-- invariant of the intersection loops: `F0` the family at the beginning of the pass -/
structure IInv (np p : ℕ) (B : Finset ℕ → Prop) (F0 : List (List ℕ)) (s : List (List ℕ) × Bool) : Prop where
  ok : FamOK np p s.1
  pre : F0 <+: s.1
  gen : ∀ d ∈ s.1, Gen B (members p d)
  same : s.2 = false → s.1 = F0
  grown : s.2 = true → F0.length < s.1.length

/-- the intersection of the classes number `k` and `j` is in the family -/
def InterIn (p : ℕ) (F : List (List ℕ)) (k j : ℕ) : Prop := Has p F (members p (F.getD k []) ∩ members p (F.getD j []))

theorem addInter_inv {np p : ℕ} {B : Finset ℕ → Prop} {F0 : List (List ℕ)} {s : List (List ℕ) × Bool} (h : IInv np p B F0 s)
    (k j : ℕ) (hk : k < s.1.length) (hj : j < s.1.length) :
    ∃ s', addInter k j s = some s' ∧ IInv np p B F0 s' ∧ s.1 <+: s'.1 ∧ (s'.2 = false → InterIn p F0 k j) ∧
      (s'.2 = false → s.2 = false) := by
  have ha := getD_mem s.1 k [] hk
  have hb := getD_mem s.1 j [] hj
  unfold addInter
  refine ⟨_, rfl, ?_⟩
  have hnd : ((s.1.getD k []).filter fun p => (s.1.getD j []).contains p).Nodup :=
    ((h.ok.2 _ ha).sorted.imp fun h => Nat.ne_of_lt h).filter _
  have hsl := sl_insertionSort hnd
  have hmem : ∀ x, x ∈ (((s.1.getD k []).filter fun p => (s.1.getD j []).contains p).insertionSort (· ≤ ·)) ↔
      x ∈ s.1.getD k [] ∧ x ∈ s.1.getD j [] := by
    intro x; rw [List.mem_insertionSort, List.mem_filter]; simp
  generalize (((s.1.getD k []).filter fun p => (s.1.getD j []).contains p).insertionSort (· ≤ ·)) = c at hsl hmem
  have hv : Valid np p c := ⟨hsl, fun q hq => (h.ok.2 _ ha).range q ((hmem q).mp hq).1,
    fun hq => (h.ok.2 _ ha).notSelf ((hmem p).mp hq).1⟩
  have hme : members p c = members p (s.1.getD k []) ∩ members p (s.1.getD j []) := by
    ext x
    rw [Finset.mem_inter, mem_members, mem_members, mem_members, hmem]
    tauto
  split_ifs with hc
  · have hc' : c ∈ s.1 := by simpa using hc
    refine ⟨h, List.prefix_refl _, ?_, fun h => h⟩
    intro hs
    have := h.same hs
    unfold InterIn
    rw [← this, ← hme]
    exact ⟨c, hc', rfl⟩
  · have hc' : c ∉ s.1 := by simpa using hc
    refine ⟨⟨⟨?_, ?_⟩, h.pre.trans (List.prefix_append _ _), ?_, by simp, ?_⟩, List.prefix_append _ _, by simp, by simp⟩
    · rw [List.nodup_append]
      refine ⟨h.ok.1, List.nodup_singleton _, ?_⟩
      intro a ha b hb hab
      rw [List.mem_singleton] at hb
      exact hc' (by rw [← hb, ← hab]; exact ha)
    · intro e he
      rcases List.mem_append.mp he with he | he
      · exact h.ok.2 e he
      · rw [List.mem_singleton.mp he]; exact hv
    · intro e he
      rcases List.mem_append.mp he with he | he
      · exact h.gen e he
      · rw [List.mem_singleton.mp he, hme]
        exact Gen.inter (h.gen _ ha) (h.gen _ hb)
    · intro _
      have := h.pre.length_le
      simp
      omega

theorem interPass_spec {np p : ℕ} {B : Finset ℕ → Prop} {F : List (List ℕ)} (hF : FamOK np p F)
    (hg : ∀ d ∈ F, Gen B (members p d)) (fuel : ℕ) (hf : 2 ^ np + 1 ≤ fuel) :
    ∃ s, interPass fuel F = some s ∧ IInv np p B F s ∧
      (s.2 = false → ∀ k < F.length, ∀ j < F.length, InterIn p F k j) := by
  have hpos := Nat.one_le_two_pow (n := np)
  have h0 : IInv np p B F (F, false) := ⟨hF, List.prefix_refl _, hg, by simp, by simp⟩
  have hbound : ∀ s, IInv np p B F s → s.1.length ≤ 2 ^ np := fun s hs => famOK_length hs.ok
  have inner : ∀ k (s : List (List ℕ) × Bool), IInv np p B F s → k < s.1.length →
      ∃ s', dynFor (fun s : List (List ℕ) × Bool => s.1.length) (addInter k) fuel 0 s = some s' ∧ IInv np p B F s' ∧ s.1 <+: s'.1 ∧
        (s'.2 = false → ∀ j < F.length, InterIn p F k j) ∧ (s'.2 = false → s.2 = false) := by
    intro k s hs hk
    have hstep : ∀ (i : ℕ) (t : List (List ℕ) × Bool), (IInv np p B F t ∧ s.1 <+: t.1 ∧
        (t.2 = false → ∀ j < i, InterIn p F k j) ∧ (t.2 = false → s.2 = false)) → i < t.1.length →
        ∃ t', addInter k i t = some t' ∧ (IInv np p B F t' ∧ s.1 <+: t'.1 ∧
          (t'.2 = false → ∀ j < i + 1, InterIn p F k j) ∧ (t'.2 = false → s.2 = false)) := by
      rintro i t ⟨t1, t2, t3, t4⟩ hi
      have hk' : k < t.1.length := lt_of_lt_of_le hk t2.length_le
      obtain ⟨t', e, u1, u2, u3, u4⟩ := addInter_inv t1 k i hk' hi
      refine ⟨t', e, u1, t2.trans u2, ?_, fun h => t4 (u4 h)⟩
      intro hf j hj
      by_cases hji : j < i
      · exact t3 (u4 hf) j hji
      · rw [show j = i by omega]; exact u3 hf
    obtain ⟨s', i', e, ⟨h1, h2, h3, h4⟩, h5⟩ := dynFor_spec (fun s : List (List ℕ) × Bool => s.1.length) (addInter k)
      (fun i t => IInv np p B F t ∧ s.1 <+: t.1 ∧ (t.2 = false → ∀ j < i, InterIn p F k j) ∧ (t.2 = false → s.2 = false)) (2 ^ np)
      (fun _ t ht => hbound t ht.1) hstep fuel 0 s ⟨hs, List.prefix_refl _, fun _ j hj => absurd hj (by omega), fun h => h⟩
      (by omega) (by omega)
    refine ⟨s', e, h1, h2, ?_, h4⟩
    intro hs2 j hj
    have := h1.same hs2
    refine h3 hs2 j ?_
    rw [this] at h5
    omega
  obtain ⟨s', i', e, ⟨h1, h2⟩, h3⟩ := dynFor_spec (fun s : List (List ℕ) × Bool => s.1.length)
      (fun k s => dynFor (fun s => s.1.length) (addInter k) fuel 0 s)
      (fun i t => IInv np p B F t ∧ (t.2 = false → ∀ k < i, ∀ j < F.length, InterIn p F k j)) (2 ^ np)
      (fun _ t ht => hbound t ht.1) (by
        rintro i t ⟨t1, t2⟩ hi
        obtain ⟨s', e, u1, -, u3, u4⟩ := inner i t t1 hi
        refine ⟨s', e, u1, ?_⟩
        intro hf k hk j hj
        by_cases hki : k < i
        · exact t2 (u4 hf) k hki j hj
        · rw [show k = i by omega]; exact u3 hf j hj) fuel 0 (F, false) ⟨h0, fun _ k hk => absurd hk (by omega)⟩ (by omega) (by omega)
  refine ⟨s', e, h1, ?_⟩
  intro hs k hk j hj
  have := h1.same hs
  rw [this] at h3
  exact h2 hs k (by omega) j hj

theorem interLoop_spec {np p : ℕ} {B : Finset ℕ → Prop} (fuel : ℕ) (hf : 2 ^ np + 1 ≤ fuel) :
    ∀ (n : ℕ) (F : List (List ℕ)), FamOK np p F → (∀ d ∈ F, Gen B (members p d)) → 2 ^ np + 1 ≤ n + F.length →
      1 ≤ n →
      ∃ R, interLoop fuel n F = some R ∧ FamOK np p R ∧ F <+: R ∧ (∀ d ∈ R, Gen B (members p d)) ∧
        ∀ d ∈ R, ∀ e ∈ R, Has p R (members p d ∩ members p e) := by
  intro n
  induction n with
  | zero => intro F _ _ _ h; omega
  | succ n ih =>
    intro F hF hg hn _
    obtain ⟨s, e, h1, h2⟩ := interPass_spec hF hg fuel hf
    rw [interLoop, e, Option.bind_some]
    by_cases hs : s.2 = true
    · rw [if_pos hs]
      have hl := h1.grown hs
      have hb := famOK_length h1.ok
      obtain ⟨R, e, r1, r2, r3, r4⟩ := ih s.1 h1.ok h1.gen (by omega) (by omega)
      exact ⟨R, e, r1, h1.pre.trans r2, r3, r4⟩
    · rw [if_neg hs]
      rw [Bool.not_eq_true] at hs
      have hsame := h1.same hs
      refine ⟨s.1, rfl, h1.ok, h1.pre, h1.gen, ?_⟩
      rw [hsame]
      intro d hd e he
      obtain ⟨k, hk, rfl⟩ := List.mem_iff_getElem.mp hd
      obtain ⟨j, hj, rfl⟩ := List.mem_iff_getElem.mp he
      have := h2 hs k hk j hj
      unfold InterIn at this
      simpa [List.getD_eq_getElem?_getD, hk, hj] using this

end NgsAMG.EQC
