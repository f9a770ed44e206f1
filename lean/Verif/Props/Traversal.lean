import Verif.Model.Traversal
import Mathlib.Data.List.Sort
import Mathlib.Data.List.Nodup
import Mathlib.Tactic.Ring

/-!
C03 (two-way and table merge), C04, C05: merges and traversals of sorted arrays.
Specification vocabulary: `List.Pairwise (· < ·)` (strictly increasing), membership, and array reads `a[i]?`.
-/

namespace NgsAMG.Traversal

variable {α : Type*} [LinearOrder α]

/-! ### two-way merge -/

theorem mem_merge2 (a b : List α) (v : α) : v ∈ merge2 a b ↔ v ∈ a ∨ v ∈ b := by
  fun_induction merge2 a b with
  | case1 bs => simp
  | case2 x as => simp
  | case3 as y bs ih => simp only [List.mem_cons, ih]; tauto
  | case4 x as y bs h1 h2 ih => simp only [List.mem_cons, ih]; tauto
  | case5 x as y bs h1 h2 ih => simp only [List.mem_cons, ih]; tauto

theorem merge2_pairwise (a b : List α) (ha : a.Pairwise (· < ·)) (hb : b.Pairwise (· < ·)) :
    (merge2 a b).Pairwise (· < ·) := by
  fun_induction merge2 a b with
  | case1 bs => exact hb
  | case2 x as => exact ha
  | case3 as y bs ih =>
    rw [List.pairwise_cons] at *
    refine ⟨?_, ih ha.2 hb.2⟩
    intro v hv
    rcases (mem_merge2 _ _ _).1 hv with h | h
    · exact ha.1 v h
    · exact hb.1 v h
  | case4 x as y bs h1 h2 ih =>
    rw [List.pairwise_cons] at *
    refine ⟨?_, ih ha.2 hb⟩
    intro v hv
    rcases (mem_merge2 _ _ _).1 hv with h | h
    · exact ha.1 v h
    · rcases List.mem_cons.1 h with rfl | h
      · exact h2
      · exact h2.trans (hb.1 v h)
  | case5 x as y bs h1 h2 ih =>
    rw [List.pairwise_cons] at *
    have hlt : y < x := lt_of_le_of_ne (not_lt.1 h2) (Ne.symm h1)
    refine ⟨?_, ih ha hb.2⟩
    intro v hv
    rcases (mem_merge2 _ _ _).1 hv with h | h
    · rcases List.mem_cons.1 h with rfl | h
      · exact hlt
      · exact hlt.trans (ha.1 v h)
    · exact hb.1 v h

/-- a strictly increasing list is determined by its elements -/
theorem eq_of_pairwise_of_mem {a b : List α} (ha : a.Pairwise (· < ·)) (hb : b.Pairwise (· < ·))
    (h : ∀ v, v ∈ a ↔ v ∈ b) : a = b := by
  have hp : a.Perm b := (List.perm_ext_iff_of_nodup (ha.imp ne_of_lt) (hb.imp ne_of_lt)).2 h
  exact hp.eq_of_pairwise (fun x y _ _ h1 h2 => absurd h2 (not_lt.2 h1.le)) ha hb

/-- **C03 (two-way).** The merge of two strictly increasing arrays is the strictly increasing array of
exactly the elements of both. -/
theorem merge2_correct (a b : List α) (ha : a.Pairwise (· < ·)) (hb : b.Pairwise (· < ·)) :
    (merge2 a b).Pairwise (· < ·) ∧ ∀ v, v ∈ merge2 a b ↔ v ∈ a ∨ v ∈ b :=
  ⟨merge2_pairwise a b ha hb, mem_merge2 a b⟩

/-- **C03 (two-way, in place).** -/
theorem mergeAIntoB_correct (a b : List α) (ha : a.Pairwise (· < ·)) (hb : b.Pairwise (· < ·)) :
    (mergeAIntoB a b).Pairwise (· < ·) ∧ ∀ v, v ∈ mergeAIntoB a b ↔ v ∈ a ∨ v ∈ b :=
  merge2_correct a b ha hb

example : merge2 [1, 3, 5] ([2, 3, 9] : List ℕ) = [1, 2, 3, 5, 9] := by decide +kernel

/-! ### three-way partition -/

/-- the value an invocation talks about -/
def evVal (A B : List α) : Ev → Option α
  | .inter i _ => A[i]?
  | .aNotB i => A[i]?
  | .bNotA j => B[j]?

theorem map_tailA (A B pa a : List α) (hA : A = pa ++ a) :
    (tailA pa.length a).map (evVal A B) = a.map some := by
  induction a generalizing pa with
  | nil => rfl
  | cons x as ih =>
    have := ih (pa ++ [x]) (by simp [hA])
    simp only [List.length_append, List.length_singleton] at this
    have hx : A[pa.length]? = some x := by simp [hA]
    simp [tailA, evVal, this, hx]

theorem map_tailB (A B pb b : List α) (hB : B = pb ++ b) :
    (tailB pb.length b).map (evVal A B) = b.map some := by
  induction b generalizing pb with
  | nil => rfl
  | cons x as ih =>
    have := ih (pb ++ [x]) (by simp [hB])
    simp only [List.length_append, List.length_singleton] at this
    have hx : B[pb.length]? = some x := by simp [hB]
    simp [tailB, evVal, this, hx]

theorem map_iterABC (A B pa a pb b : List α) (hA : A = pa ++ a) (hB : B = pb ++ b) :
    (iterABC pa.length a pb.length b).map (evVal A B) = (merge2 a b).map some := by
  fun_induction merge2 a b generalizing pa pb with
  | case1 bs => rw [iterABC]; exact map_tailB A B pb bs hB
  | case2 x as =>
    rw [iterABC]
    · exact map_tailA A B pa _ hA
    · simp
  | case3 as y bs ih =>
    have := ih (pa ++ [y]) (pb ++ [y]) (by simp [hA]) (by simp [hB])
    simp only [List.length_append, List.length_singleton] at this
    rw [iterABC, if_pos rfl]
    have hx : A[pa.length]? = some y := by simp [hA]
    simp [this, evVal, hx]
  | case4 x as y bs h1 h2 ih =>
    have := ih (pa ++ [x]) pb (by simp [hA]) hB
    simp only [List.length_append, List.length_singleton] at this
    rw [iterABC, if_neg h1, if_pos h2]
    have hx : A[pa.length]? = some x := by simp [hA]
    simp [this, evVal, hx]
  | case5 x as y bs h1 h2 ih =>
    have := ih pa (pb ++ [y]) hA (by simp [hB])
    simp only [List.length_append, List.length_singleton] at this
    rw [iterABC, if_neg h1, if_neg h2]
    have hx : B[pb.length]? = some y := by simp [hB]
    simp [this, evVal, hx]

/-- an invocation is truthful -/
def EvOk (A B : List α) : Ev → Prop
  | .inter i j => ∃ v, A[i]? = some v ∧ B[j]? = some v
  | .aNotB i => ∃ v, A[i]? = some v ∧ v ∉ B
  | .bNotA j => ∃ v, B[j]? = some v ∧ v ∉ A

theorem tailA_ok (A B pa a : List α) (hA : A = pa ++ a) (hab : ∀ w ∈ a, w ∉ B) :
    ∀ e ∈ tailA pa.length a, EvOk A B e := by
  induction a generalizing pa with
  | nil => simp [tailA]
  | cons x as ih =>
    have := ih (pa ++ [x]) (by simp [hA]) (fun w hw => hab w (by simp [hw]))
    simp only [List.length_append, List.length_singleton] at this
    simp only [tailA, List.mem_cons, forall_eq_or_imp]
    exact ⟨⟨x, by simp [hA], hab x (by simp)⟩, this⟩

theorem tailB_ok (A B pb b : List α) (hB : B = pb ++ b) (hab : ∀ w ∈ b, w ∉ A) :
    ∀ e ∈ tailB pb.length b, EvOk A B e := by
  induction b generalizing pb with
  | nil => simp [tailB]
  | cons x as ih =>
    have := ih (pb ++ [x]) (by simp [hB]) (fun w hw => hab w (by simp [hw]))
    simp only [List.length_append, List.length_singleton] at this
    simp only [tailB, List.mem_cons, forall_eq_or_imp]
    exact ⟨⟨x, by simp [hB], hab x (by simp)⟩, this⟩

theorem not_mem_append_of {p a : List α} {v : α} (h1 : ∀ u ∈ p, u < v) (h2 : v ∉ a) : v ∉ p ++ a := by
  intro h
  rcases List.mem_append.1 h with h | h
  · exact lt_irrefl _ (h1 v h)
  · exact h2 h

theorem not_mem_of_lt_head {y v : α} {bs : List α} (hb : (y :: bs).Pairwise (· < ·)) (h : v < y) :
    v ∉ y :: bs := by
  intro hm
  rcases List.mem_cons.1 hm with rfl | hm
  · exact lt_irrefl _ h
  · exact lt_irrefl _ (h.trans (List.rel_of_pairwise_cons hb hm))

theorem iterABC_ok (A B pa a pb b : List α) (hA : A = pa ++ a) (hB : B = pb ++ b)
    (ha : a.Pairwise (· < ·)) (hb : b.Pairwise (· < ·))
    (hab : ∀ u ∈ pa, ∀ w ∈ b, u < w) (hba : ∀ u ∈ pb, ∀ w ∈ a, u < w) :
    ∀ e ∈ iterABC pa.length a pb.length b, EvOk A B e := by
  fun_induction merge2 a b generalizing pa pb with
  | case1 bs =>
    rw [iterABC]
    refine tailB_ok A B pb bs hB ?_
    intro w hw
    rw [hA]; exact not_mem_append_of (fun u hu => hab u hu w hw) (by simp)
  | case2 x as =>
    rw [iterABC]
    · refine tailA_ok A B pa _ hA ?_
      intro w hw
      rw [hB]; exact not_mem_append_of (fun u hu => hba u hu w hw) (by simp)
    · simp
  | case3 as y bs ih =>
    have hr := ih (pa ++ [y]) (pb ++ [y]) (by simp [hA]) (by simp [hB]) ha.of_cons hb.of_cons ?_ ?_
    · simp only [List.length_append, List.length_singleton] at hr
      rw [iterABC, if_pos rfl]
      simp only [List.mem_cons, forall_eq_or_imp]
      exact ⟨⟨y, by simp [hA], by simp [hB]⟩, hr⟩
    · intro u hu w hw
      rcases List.mem_append.1 hu with h | h
      · exact hab u h w (by simp [hw])
      · simp at h; subst h; exact List.rel_of_pairwise_cons hb hw
    · intro u hu w hw
      rcases List.mem_append.1 hu with h | h
      · exact hba u h w (by simp [hw])
      · simp at h; subst h; exact List.rel_of_pairwise_cons ha hw
  | case4 x as y bs h1 h2 ih =>
    have hr := ih (pa ++ [x]) pb (by simp [hA]) hB ha.of_cons hb ?_ ?_
    · simp only [List.length_append, List.length_singleton] at hr
      rw [iterABC, if_neg h1, if_pos h2]
      simp only [List.mem_cons, forall_eq_or_imp]
      refine ⟨⟨x, by simp [hA], ?_⟩, hr⟩
      rw [hB]
      exact not_mem_append_of (fun u hu => hba u hu x (by simp)) (not_mem_of_lt_head hb h2)
    · intro u hu w hw
      rcases List.mem_append.1 hu with h | h
      · exact hab u h w hw
      · simp at h; subst h
        rcases List.mem_cons.1 hw with rfl | hw
        · exact h2
        · exact h2.trans (List.rel_of_pairwise_cons hb hw)
    · intro u hu w hw; exact hba u hu w (by simp [hw])
  | case5 x as y bs h1 h2 ih =>
    have hlt : y < x := lt_of_le_of_ne (not_lt.1 h2) (Ne.symm h1)
    have hr := ih pa (pb ++ [y]) hA (by simp [hB]) ha hb.of_cons ?_ ?_
    · simp only [List.length_append, List.length_singleton] at hr
      rw [iterABC, if_neg h1, if_neg h2]
      simp only [List.mem_cons, forall_eq_or_imp]
      refine ⟨⟨y, by simp [hB], ?_⟩, hr⟩
      rw [hA]
      exact not_mem_append_of (fun u hu => hab u hu y (by simp)) (not_mem_of_lt_head ha hlt)
    · intro u hu w hw; exact hab u hu w (by simp [hw])
    · intro u hu w hw
      rcases List.mem_append.1 hu with h | h
      · exact hba u h w hw
      · simp at h; subst h
        rcases List.mem_cons.1 hw with rfl | hw
        · exact hlt
        · exact hlt.trans (List.rel_of_pairwise_cons ha hw)

theorem pos_unique {a : List α} (ha : a.Pairwise (· < ·)) {i j : ℕ} {v : α}
    (hi : a[i]? = some v) (hj : a[j]? = some v) : i = j := by
  obtain ⟨hi', hi⟩ := List.getElem?_eq_some_iff.1 hi
  obtain ⟨hj', hj⟩ := List.getElem?_eq_some_iff.1 hj
  have hn : a.Nodup := ha.imp ne_of_lt
  exact (List.Nodup.getElem_inj_iff hn).1 (hi.trans hj.symm)

/-- **C04 (three-way partition).** `iterate_ABC` on strictly increasing arrays invokes its callback for exactly the
right positions, and the values it talks about come in strictly increasing order (so each element once). -/
theorem iterABC_correct (a b : List α) (ha : a.Pairwise (· < ·)) (hb : b.Pairwise (· < ·)) :
    (∃ vs : List α, (iterABC 0 a 0 b).map (evVal a b) = vs.map some ∧ vs.Pairwise (· < ·)) ∧
    (∀ i j, Ev.inter i j ∈ iterABC 0 a 0 b ↔ ∃ v, a[i]? = some v ∧ b[j]? = some v) ∧
    (∀ i, Ev.aNotB i ∈ iterABC 0 a 0 b ↔ ∃ v, a[i]? = some v ∧ v ∉ b) ∧
    (∀ j, Ev.bNotA j ∈ iterABC 0 a 0 b ↔ ∃ v, b[j]? = some v ∧ v ∉ a) := by
  have hm := map_iterABC a b [] a [] b rfl rfl
  have hok := iterABC_ok a b [] a [] b rfl rfl ha hb (by simp) (by simp)
  simp only [List.length_nil] at hm hok
  have hex : ∀ v, v ∈ a ∨ v ∈ b → ∃ e ∈ iterABC 0 a 0 b, evVal a b e = some v := by
    intro v hv
    have : some v ∈ (iterABC 0 a 0 b).map (evVal a b) := by
      rw [hm]; exact List.mem_map.2 ⟨v, (mem_merge2 a b v).2 hv, rfl⟩
    obtain ⟨e, he, hev⟩ := List.mem_map.1 this
    exact ⟨e, he, hev⟩
  refine ⟨⟨_, hm, merge2_pairwise a b ha hb⟩, ?_, ?_, ?_⟩
  · intro i j
    refine ⟨fun h => hok _ h, ?_⟩
    rintro ⟨v, hi, hj⟩
    obtain ⟨e, he, hev⟩ := hex v (Or.inl (List.mem_of_getElem? hi))
    have hk := hok e he
    cases e with
    | inter p q =>
      obtain ⟨w, h1, h2⟩ := hk
      simp only [evVal] at hev
      have : w = v := by rw [h1] at hev; simpa using hev
      subst this
      have e1 := pos_unique ha h1 hi
      have e2 := pos_unique hb h2 hj
      subst e1 e2; exact he
    | aNotB p =>
      obtain ⟨w, h1, h2⟩ := hk
      simp only [evVal] at hev
      have : w = v := by rw [h1] at hev; simpa using hev
      subst this; exact absurd (List.mem_of_getElem? hj) h2
    | bNotA p =>
      obtain ⟨w, h1, h2⟩ := hk
      simp only [evVal] at hev
      have : w = v := by rw [h1] at hev; simpa using hev
      subst this; exact absurd (List.mem_of_getElem? hi) h2
  · intro i
    refine ⟨fun h => hok _ h, ?_⟩
    rintro ⟨v, hi, hj⟩
    obtain ⟨e, he, hev⟩ := hex v (Or.inl (List.mem_of_getElem? hi))
    have hk := hok e he
    cases e with
    | inter p q =>
      obtain ⟨w, h1, h2⟩ := hk
      simp only [evVal] at hev
      have : w = v := by rw [h1] at hev; simpa using hev
      subst this; exact absurd (List.mem_of_getElem? h2) hj
    | aNotB p =>
      obtain ⟨w, h1, h2⟩ := hk
      simp only [evVal] at hev
      have : w = v := by rw [h1] at hev; simpa using hev
      subst this
      have e1 := pos_unique ha h1 hi
      subst e1; exact he
    | bNotA p =>
      obtain ⟨w, h1, h2⟩ := hk
      simp only [evVal] at hev
      have : w = v := by rw [h1] at hev; simpa using hev
      subst this; exact absurd (List.mem_of_getElem? h1) hj
  · intro i
    refine ⟨fun h => hok _ h, ?_⟩
    rintro ⟨v, hi, hj⟩
    obtain ⟨e, he, hev⟩ := hex v (Or.inr (List.mem_of_getElem? hi))
    have hk := hok e he
    cases e with
    | inter p q =>
      obtain ⟨w, h1, h2⟩ := hk
      simp only [evVal] at hev
      have : w = v := by rw [h1] at hev; simpa using hev
      subst this; exact absurd (List.mem_of_getElem? h1) hj
    | aNotB p =>
      obtain ⟨w, h1, h2⟩ := hk
      simp only [evVal] at hev
      have : w = v := by rw [h1] at hev; simpa using hev
      subst this; exact absurd (List.mem_of_getElem? h1) hj
    | bNotA p =>
      obtain ⟨w, h1, h2⟩ := hk
      simp only [evVal] at hev
      have : w = v := by rw [h1] at hev; simpa using hev
      subst this
      have e1 := pos_unique hb h1 hi
      subst e1; exact he

example : iterABC 0 [1, 3, 5] 0 ([2, 3, 9] : List ℕ) =
    [.aNotB 0, .bNotA 0, .inter 1 1, .aNotB 2, .bNotA 2] := by decide +kernel

/-! ### the other traversals are projections of the three-way partition -/

/-- events that `iterate_AC` reports -/
def keepAC : Ev → Option Ev
  | .bNotA _ => none
  | e => some e

/-- events that `iterate_intersection` reports -/
def keepInter : Ev → Option (ℕ × ℕ)
  | .inter i j => some (i, j)
  | _ => none

/-- events that `iterate_anotb` reports -/
def keepA : Ev → Option ℕ
  | .aNotB i => some i
  | _ => none

omit [LinearOrder α] in
theorem filterMap_tailB {β} (f : Ev → Option β) (hf : ∀ j, f (.bNotA j) = none) (j : ℕ) (b : List α) :
    (tailB j b).filterMap f = [] := by
  induction b generalizing j with
  | nil => rfl
  | cons y bs ih => simp [tailB, hf, ih]

omit [LinearOrder α] in
theorem filterMap_tailA_keepAC (i : ℕ) (a : List α) : (tailA i a).filterMap keepAC = tailA i a := by
  induction a generalizing i with
  | nil => rfl
  | cons y bs ih => simp only [tailA, List.filterMap_cons, keepAC, ih]

omit [LinearOrder α] in
theorem filterMap_tailA_keepInter (i : ℕ) (a : List α) : (tailA i a).filterMap keepInter = [] := by
  induction a generalizing i with
  | nil => rfl
  | cons y bs ih => simp only [tailA, List.filterMap_cons, keepInter, ih]

theorem filterMap_tailA_keepA (i : ℕ) (a : List α) : (tailA i a).filterMap keepA = iterANotB i a [] := by
  induction a generalizing i with
  | nil => rw [iterANotB]; rfl
  | cons y bs ih => rw [iterANotB]; simp only [tailA, List.filterMap_cons, keepA, ih]

theorem iterAC_eq (i : ℕ) (a : List α) (j : ℕ) (b : List α) :
    iterAC i a j b = (iterABC i a j b).filterMap keepAC := by
  fun_induction iterAC i a j b with
  | case1 => rw [iterABC, filterMap_tailB _ (by simp [keepAC])]
  | case2 i j x as =>
    rw [iterABC, filterMap_tailA_keepAC]
    simp
  | case3 i j as y bs ih => rw [iterABC, if_pos rfl]; simp only [List.filterMap_cons, keepAC, ih]
  | case4 i j x as y bs h1 h2 ih => rw [iterABC, if_neg h1, if_pos h2]; simp only [List.filterMap_cons, keepAC, ih]
  | case5 i j x as y bs h1 h2 ih => rw [iterABC, if_neg h1, if_neg h2]; simp only [List.filterMap_cons, keepAC, ih]

theorem iterInter_eq (i : ℕ) (a : List α) (j : ℕ) (b : List α) :
    iterInter i a j b = (iterABC i a j b).filterMap keepInter := by
  fun_induction iterInter i a j b with
  | case1 => rw [iterABC, filterMap_tailB _ (by simp [keepInter])]
  | case2 i j x as =>
    rw [iterABC, filterMap_tailA_keepInter]
    simp
  | case3 i j as y bs ih => rw [iterABC, if_pos rfl]; simp only [List.filterMap_cons, keepInter, ih]
  | case4 i j x as y bs h1 h2 ih => rw [iterABC, if_neg h1, if_pos h2]; simp only [List.filterMap_cons, keepInter, ih]
  | case5 i j x as y bs h1 h2 ih => rw [iterABC, if_neg h1, if_neg h2]; simp only [List.filterMap_cons, keepInter, ih]

theorem iterANotB_eq (i : ℕ) (a : List α) (j : ℕ) (b : List α) :
    iterANotB i a b = (iterABC i a j b).filterMap keepA := by
  fun_induction iterABC i a j b with
  | case1 i j bs => rw [iterANotB, filterMap_tailB _ (by simp [keepA])]
  | case2 i j as h => rw [filterMap_tailA_keepA]
  | case3 i j as y bs ih => rw [iterANotB, if_neg (lt_irrefl _), if_pos rfl]; simp only [List.filterMap_cons, keepA, ih]
  | case4 i j x as y bs h1 h2 ih => rw [iterANotB, if_pos h2]; simp only [List.filterMap_cons, keepA, ih]
  | case5 i j x as y bs h1 h2 ih => rw [iterANotB, if_neg h2, if_neg h1]; simp only [List.filterMap_cons, keepA, ih]

theorem pairwise_filterMap_of_vals {β} (f : Ev → Option β) (g : β → Option α) (a b : List α)
    (hg : ∀ e x, f e = some x → g x = evVal a b e) (evs : List Ev) (vs : List α)
    (h : evs.map (evVal a b) = vs.map some) (hs : vs.Pairwise (· < ·)) :
    ∃ ws : List α, (evs.filterMap f).map g = ws.map some ∧ ws.Pairwise (· < ·) ∧ ∀ w ∈ ws, w ∈ vs := by
  induction evs generalizing vs with
  | nil => exact ⟨[], rfl, List.Pairwise.nil, by simp⟩
  | cons e evs ih =>
    rcases vs with _ | ⟨v, vs⟩
    · simp at h
    · simp only [List.map_cons, List.cons.injEq] at h
      obtain ⟨ws, h1, h2, h3⟩ := ih vs h.2 hs.of_cons
      rcases he : f e with _ | x
      · refine ⟨ws, by simp [he, h1], h2, fun w hw => by simp [h3 w hw]⟩
      · refine ⟨v :: ws, ?_, ?_, ?_⟩
        · simp [he, h1, hg e x he, h.1]
        · rw [List.pairwise_cons]
          exact ⟨fun w hw => List.rel_of_pairwise_cons hs (h3 w hw), h2⟩
        · intro w hw
          rcases List.mem_cons.1 hw with rfl | hw
          · simp
          · simp [h3 w hw]

/-- **C04 (intersection).** `iterate_intersection` reports exactly the position pairs of common elements, the
common elements in strictly increasing order. -/
theorem iterInter_correct (a b : List α) (ha : a.Pairwise (· < ·)) (hb : b.Pairwise (· < ·)) :
    (∀ i j, (i, j) ∈ iterInter 0 a 0 b ↔ ∃ v, a[i]? = some v ∧ b[j]? = some v) ∧
    ∃ vs : List α, (iterInter 0 a 0 b).map (fun p => a[p.1]?) = vs.map some ∧ vs.Pairwise (· < ·) := by
  obtain ⟨⟨vs, h1, h2⟩, h3, -, -⟩ := iterABC_correct a b ha hb
  rw [iterInter_eq]
  constructor
  · intro i j
    rw [← h3, List.mem_filterMap]
    constructor
    · rintro ⟨e, he, hk⟩
      cases e <;> simp [keepInter] at hk
      obtain ⟨rfl, rfl⟩ := hk; exact he
    · intro h; exact ⟨_, h, rfl⟩
  · obtain ⟨ws, h4, h5, -⟩ := pairwise_filterMap_of_vals keepInter (fun p => a[p.1]?) a b
      (by intro e x he; cases e <;> simp [keepInter] at he; subst he; rfl) _ vs h1 h2
    exact ⟨ws, h4, h5⟩

/-- **C04 (first set with membership flag).** `iterate_AC` reports each position of `a` once, in increasing order of
values, classified by membership in `b`. -/
theorem iterAC_correct (a b : List α) (ha : a.Pairwise (· < ·)) (hb : b.Pairwise (· < ·)) :
    (∀ i j, Ev.inter i j ∈ iterAC 0 a 0 b ↔ ∃ v, a[i]? = some v ∧ b[j]? = some v) ∧
    (∀ i, Ev.aNotB i ∈ iterAC 0 a 0 b ↔ ∃ v, a[i]? = some v ∧ v ∉ b) ∧
    (iterAC 0 a 0 b).map (evVal a b) = a.map some := by
  obtain ⟨⟨vs, h1, h2⟩, h3, h3', -⟩ := iterABC_correct a b ha hb
  have hA : (∀ i j, Ev.inter i j ∈ iterAC 0 a 0 b ↔ ∃ v, a[i]? = some v ∧ b[j]? = some v) := by
    intro i j
    rw [iterAC_eq, ← h3, List.mem_filterMap]
    constructor
    · rintro ⟨e, he, hk⟩
      cases e <;> simp [keepAC] at hk
      obtain ⟨rfl, rfl⟩ := hk; exact he
    · intro h; exact ⟨_, h, rfl⟩
  have hB : (∀ i, Ev.aNotB i ∈ iterAC 0 a 0 b ↔ ∃ v, a[i]? = some v ∧ v ∉ b) := by
    intro i
    rw [iterAC_eq, ← h3', List.mem_filterMap]
    constructor
    · rintro ⟨e, he, hk⟩
      cases e <;> simp [keepAC] at hk
      subst hk; exact he
    · intro h; exact ⟨_, h, rfl⟩
  refine ⟨hA, hB, ?_⟩
  obtain ⟨ws, h4, h5, -⟩ := pairwise_filterMap_of_vals keepAC (evVal a b) a b
    (by intro e x he; cases e <;> simp [keepAC] at he <;> subst he <;> rfl) _ vs h1 h2
  rw [← iterAC_eq] at h4
  rw [h4]
  congr 1
  apply eq_of_pairwise_of_mem h5 ha
  intro v
  have hmem : v ∈ ws ↔ ∃ e ∈ iterAC 0 a 0 b, evVal a b e = some v := by
    rw [← List.mem_map, h4]; simp
  rw [hmem]
  constructor
  · rintro ⟨e, he, hv⟩
    cases e with
    | inter i j => exact List.mem_of_getElem? hv
    | aNotB i => exact List.mem_of_getElem? hv
    | bNotA j =>
      exfalso
      rw [iterAC_eq, List.mem_filterMap] at he
      obtain ⟨e', -, he'⟩ := he
      cases e' <;> simp [keepAC] at he'
  · intro hv
    obtain ⟨i, hi⟩ := List.mem_iff_getElem?.1 hv
    by_cases hvb : v ∈ b
    · obtain ⟨j, hj⟩ := List.mem_iff_getElem?.1 hvb
      exact ⟨_, (hA i j).2 ⟨v, hi, hj⟩, hi⟩
    · exact ⟨_, (hB i).2 ⟨v, hi, hvb⟩, hi⟩

/-- **C04 (difference, positions).** -/
theorem iterANotB_correct (a b : List α) (ha : a.Pairwise (· < ·)) (hb : b.Pairwise (· < ·)) :
    (∀ i, i ∈ iterANotB 0 a b ↔ ∃ v, a[i]? = some v ∧ v ∉ b) ∧
    (iterANotB 0 a b).map (fun i => a[i]?) = (a.filter (· ∉ b)).map some := by
  obtain ⟨⟨vs, h1, h2⟩, -, h3, -⟩ := iterABC_correct a b ha hb
  have hA : ∀ i, i ∈ iterANotB 0 a b ↔ ∃ v, a[i]? = some v ∧ v ∉ b := by
    intro i
    rw [iterANotB_eq 0 a 0 b, ← h3, List.mem_filterMap]
    constructor
    · rintro ⟨e, he, hk⟩
      cases e <;> simp [keepA] at hk
      subst hk; exact he
    · intro h; exact ⟨_, h, rfl⟩
  refine ⟨hA, ?_⟩
  obtain ⟨ws, h4, h5, -⟩ := pairwise_filterMap_of_vals keepA (fun i => a[i]?) a b
    (by intro e x he; cases e <;> simp [keepA] at he; subst he; rfl) _ vs h1 h2
  rw [← iterANotB_eq] at h4
  rw [h4]
  congr 1
  apply eq_of_pairwise_of_mem h5 (ha.filter _)
  intro v
  have hmem : v ∈ ws ↔ ∃ i ∈ iterANotB 0 a b, a[i]? = some v := by
    have : some v ∈ ws.map some ↔ v ∈ ws := by simp
    rw [← this, ← h4, List.mem_map]
  rw [hmem]
  simp only [List.mem_filter, decide_eq_true_eq]
  constructor
  · rintro ⟨i, hi, hv⟩
    obtain ⟨w, h6, h7⟩ := (hA i).1 hi
    have : w = v := by rw [h6] at hv; simpa using hv
    subst this; exact ⟨List.mem_of_getElem? h6, h7⟩
  · rintro ⟨hv, hnb⟩
    obtain ⟨i, hi⟩ := List.mem_iff_getElem?.1 hv
    exact ⟨i, (hA i).2 ⟨v, hi, hnb⟩, hi⟩

/-- **C04 (set difference).** `setMinus` never reads out of bounds and returns the elements of `a` that are not in `b`,
in order. -/
theorem setMinus_correct (a b : List α) (ha : a.Pairwise (· < ·)) (hb : b.Pairwise (· < ·)) :
    setMinus a b = some (a.filter (· ∉ b)) := by
  have h := (iterANotB_correct a b ha hb).2
  unfold setMinus
  generalize iterANotB 0 a b = l at h
  generalize a.filter (· ∉ b) = r at h
  induction l generalizing r with
  | nil => cases r <;> simp_all
  | cons x l ih =>
    cases r with
    | nil => simp at h
    | cons y r =>
      simp only [List.map_cons, List.cons.injEq] at h
      simp [List.mapM_cons, h.1, ih r h.2]

example : setMinus [1, 3, 5, 7] ([3, 4, 7] : List ℕ) = some [1, 5] := by decide +kernel

theorem isIntersectEmpty_iff (a b : List α) (ha : a.Pairwise (· < ·)) (hb : b.Pairwise (· < ·)) :
    isIntersectEmpty a b = true ↔ ∀ v, v ∈ a → v ∉ b := by
  fun_induction isIntersectEmpty a b with
  | case1 => simp
  | case2 => simp
  | case3 as y bs => simp
  | case4 x as y bs h1 h2 ih =>
    rw [ih ha.of_cons hb]
    constructor
    · intro h v hv
      rcases List.mem_cons.1 hv with rfl | hv
      · exact not_mem_of_lt_head hb h2
      · exact h v hv
    · intro h v hv; exact h v (by simp [hv])
  | case5 x as y bs h1 h2 ih =>
    have hlt : y < x := lt_of_le_of_ne (not_lt.1 h2) (Ne.symm h1)
    rw [ih ha hb.of_cons]
    constructor
    · intro h v hv hm
      rcases List.mem_cons.1 hm with rfl | hm
      · exact not_mem_of_lt_head ha hlt hv
      · exact h v hv hm
    · intro h v hv hm; exact h v hv (by simp [hm])

/-- **C04 (emptiness query).** -/
theorem isIntersectEmpty_correct (a b : List α) (ha : a.Pairwise (· < ·)) (hb : b.Pairwise (· < ·)) :
    isIntersectEmpty a b = true ↔ ¬ ∃ v, v ∈ a ∧ v ∈ b := by
  rw [isIntersectEmpty_iff a b ha hb]; simp

/-- **C04 (intersection as array).** -/
theorem intersectSorted_correct (a b : List α) (ha : a.Pairwise (· < ·)) (hb : b.Pairwise (· < ·)) :
    intersectSorted a b = a.filter (· ∈ b) := by
  fun_induction intersectSorted a b with
  | case1 => simp
  | case2 => simp
  | case3 as y bs ih =>
    rw [ih ha.of_cons hb.of_cons]
    rw [List.filter_cons_of_pos (by simp)]
    congr 1
    apply List.filter_congr
    intro v hv
    have : v ≠ y := (List.rel_of_pairwise_cons ha hv).ne'
    simp [this]
  | case4 x as y bs h1 h2 ih =>
    rw [ih ha.of_cons hb, List.filter_cons_of_neg]
    simpa using not_mem_of_lt_head hb h2
  | case5 x as y bs h1 h2 ih =>
    have hlt : y < x := lt_of_le_of_ne (not_lt.1 h2) (Ne.symm h1)
    rw [ih ha hb.of_cons]
    apply List.filter_congr
    intro v hv
    have : v ≠ y := by
      rintro rfl; exact not_mem_of_lt_head ha hlt hv
    simp [this]

/-! ### C05 -/

theorem posSorted_spec (a : List α) (pb b : List α) (ha : a.Pairwise (· < ·)) (hb : b.Pairwise (· < ·))
    (hsub : ∀ v ∈ a, v ∈ b) :
    (posSorted a pb.length b).map (fun o => o.bind fun j => (pb ++ b)[j]?) = a.map some := by
  induction b generalizing a pb with
  | nil =>
    have : a = [] := by
      rcases a with _ | ⟨x, as⟩
      · rfl
      · exact absurd (hsub x (by simp)) (by simp)
    subst this; rfl
  | cons y bs ih =>
    rcases a with _ | ⟨x, as⟩
    · rfl
    · rw [posSorted]
      split_ifs with h
      · subst h
        have := ih as (pb ++ [x]) ha.of_cons hb.of_cons ?_
        · simp only [List.length_append, List.length_singleton, List.append_assoc,
            List.singleton_append] at this
          simp [this]
        · intro v hv
          have h1 := hsub v (by simp [hv])
          rcases List.mem_cons.1 h1 with rfl | h1
          · exact absurd (List.rel_of_pairwise_cons ha hv) (lt_irrefl _)
          · exact h1
      · have := ih (x :: as) (pb ++ [y]) ha hb.of_cons ?_
        · simp only [List.length_append, List.length_singleton, List.append_assoc,
            List.singleton_append] at this
          exact this
        · intro v hv
          have h1 := hsub v hv
          rcases List.mem_cons.1 h1 with rfl | h1
          · exfalso
            have h2 := hsub x (by simp)
            rcases List.mem_cons.1 h2 with h2 | h2
            · exact h h2
            · rcases List.mem_cons.1 hv with h3 | h3
              · exact h h3.symm
              · exact lt_asymm (List.rel_of_pairwise_cons ha h3) (List.rel_of_pairwise_cons hb h2)
          · exact h1

omit [LinearOrder α] in
theorem posSorted_length [LinearOrder α] (a : List α) (j : ℕ) (b : List α) : (posSorted a j b).length = a.length := by
  induction b generalizing a j with
  | nil => cases a <;> simp [posSorted]
  | cons y bs ih =>
    cases a with
    | nil => rfl
    | cons x as => rw [posSorted]; split_ifs <;> simp [ih]

/-- **C05.** For `a ⊆ b`, both strictly increasing, position `i` of the result is a position of `a[i]` in `b`. -/
theorem posSorted_correct (a b : List α) (ha : a.Pairwise (· < ·)) (hb : b.Pairwise (· < ·))
    (hsub : ∀ v ∈ a, v ∈ b) :
    (posSorted a 0 b).length = a.length ∧
    ∀ (i : ℕ) v, a[i]? = some v → ∃ j : ℕ, (posSorted a 0 b)[i]? = some (some j) ∧ b[j]? = some v := by
  refine ⟨posSorted_length a 0 b, ?_⟩
  intro i v hi
  have h := posSorted_spec a [] b ha hb hsub
  have h2 := congrArg (fun l : List (Option α) => l[i]?) h
  simp only [List.length_nil, List.nil_append, List.getElem?_map, hi, Option.map_some] at h2
  rcases hp : (posSorted a 0 b)[i]? with _ | o
  · rw [hp] at h2; simp at h2
  · rw [hp] at h2
    rcases o with _ | j
    · simp at h2
    · exact ⟨j, rfl, by simpa using h2⟩

/-- The hypothesis `a ⊆ b` of C05 is needed: one missing element destroys all later positions, although `5` is in `b`. -/
theorem posSorted_needs_subset :
    ∃ a b : List ℕ, a.Pairwise (· < ·) ∧ b.Pairwise (· < ·) ∧ 5 ∈ a ∧ 5 ∈ b ∧ posSorted a 0 b = [none, none] :=
  ⟨[2, 5], [1, 5], by decide, by decide, by decide, by decide, by decide⟩

example : posSorted [3, 7] 0 ([1, 3, 5, 7] : List ℕ) = [some 1, some 3] := by decide

/-! ### partitionAB -/

omit [LinearOrder α] in
theorem length_flatMap_blockIdx {β : Type*} (BS : ℕ) (l : List β) (f : β → Option ℕ) :
    (l.flatMap fun e => match f e with | some i => blockIdx BS i | none => []).length =
      (l.filterMap f).length * BS := by
  induction l with
  | nil => simp
  | cons x l ih =>
    rcases h : f x with _ | i
    · simp only [List.flatMap_cons, h, List.nil_append, ih]
      simp [h]
    · simp only [List.flatMap_cons, h, List.length_append, ih]
      simp [h, blockIdx]; ring

omit [LinearOrder α] in
theorem flatMap_blockIdx_eq {β : Type*} (BS : ℕ) (l : List β) (f : β → Option ℕ) :
    (l.flatMap fun e => match f e with | some i => blockIdx BS i | none => []) =
      (l.filterMap f).flatMap (blockIdx BS) := by
  induction l with
  | nil => simp
  | cons x l ih =>
    rcases h : f x with _ | i
    · simp [List.flatMap_cons, h, ih]
    · simp [List.flatMap_cons, h, ih]

/-- positions of `bigSet` whose element satisfies `p`, in increasing order -/
def positions (l : List α) (p : α → Bool) : List ℕ :=
  (List.range l.length).filter fun i => match l[i]? with | some v => p v | none => false

/-- first component of an event of `iterate_AC` -/
def evI : Ev → ℕ
  | .inter i _ => i
  | .aNotB i => i
  | .bNotA j => j

theorem map_evI_tailA (pa a : List α) : (tailA pa.length a).map evI = List.range' pa.length a.length := by
  induction a generalizing pa with
  | nil => rfl
  | cons x as ih =>
    have := ih (pa ++ [x])
    simp only [List.length_append, List.length_singleton] at this
    simp [tailA, evI, this, List.range'_succ]

theorem map_evI_iterAC (i : ℕ) (a : List α) (j : ℕ) (b : List α) :
    (iterAC i a j b).map evI = List.range' i a.length := by
  fun_induction iterAC i a j b with
  | case1 => rfl
  | case2 i j x as =>
    have : ∀ (i : ℕ) (l : List α), (tailA i l).map evI = List.range' i l.length := by
      intro i l
      induction l generalizing i with
      | nil => rfl
      | cons y l ih => simp [tailA, evI, ih, List.range'_succ]
    exact this i _
  | case3 i j as y bs ih => simp [evI, ih, List.range'_succ]
  | case4 i j x as y bs h1 h2 ih => simp [evI, ih, List.range'_succ]
  | case5 i j x as y bs h1 h2 ih => exact ih

/-- positions that go to the first index array -/
def fA : Ev → Option ℕ
  | .inter i _ => some i
  | _ => none

/-- positions that go to the second index array -/
def fB : Ev → Option ℕ
  | .aNotB i => some i
  | _ => none

/-- scalar indices of the blocks at the selected positions: all `i < n * BS` whose block `i / BS` is selected, increasing -/
def scalarPositions (l : List α) (BS : ℕ) (p : α → Bool) : List ℕ :=
  (List.range (l.length * BS)).filter fun i => match l[i / BS]? with | some v => p v | none => false

theorem range_blocks (n BS : ℕ) (q : ℕ → Bool) :
    ((List.range n).filter q).flatMap (blockIdx BS) = (List.range (n * BS)).filter fun i => q (i / BS) := by
  induction n with
  | zero => simp
  | succ n ih =>
    rw [List.range_succ, List.filter_append, List.flatMap_append, ih, Nat.succ_mul, List.range_add, List.filter_append]
    congr 1
    rcases Nat.eq_zero_or_pos BS with rfl | hB
    · by_cases hq : q n <;> simp [hq, blockIdx]
    · have hd : ∀ l < BS, (n * BS + l) / BS = n := fun l hl => by
        rw [Nat.mul_comm, Nat.mul_add_div hB, Nat.div_eq_of_lt hl, Nat.add_zero]
      by_cases hq : q n = true
      · rw [List.filter_cons_of_pos hq, (List.filter_eq_self (l := (List.range BS).map (n * BS + ·))).2]
        · simp [blockIdx, Nat.mul_comm]
        · intro i hi
          obtain ⟨l, hl, rfl⟩ := List.mem_map.1 hi
          rw [hd l (List.mem_range.1 hl)]; exact hq
      · rw [List.filter_cons_of_neg hq, (List.filter_eq_nil_iff (l := (List.range BS).map (n * BS + ·))).2]
        · rfl
        · intro i hi
          obtain ⟨l, hl, rfl⟩ := List.mem_map.1 hi
          rw [hd l (List.mem_range.1 hl)]; exact hq

theorem partitionAB_blocks (subA bigSet : List α) (BS : ℕ) (ha : subA.Pairwise (· < ·))
    (hb : bigSet.Pairwise (· < ·)) (hsub : ∀ v ∈ subA, v ∈ bigSet) :
    partitionAB subA bigSet BS = some
      ((positions bigSet (· ∈ subA)).flatMap (blockIdx BS),
       (positions bigSet (· ∉ subA)).flatMap (blockIdx BS)) := by
  obtain ⟨h1, h2, h3⟩ := iterAC_correct bigSet subA hb ha
  set ev := iterAC 0 bigSet 0 subA with hev
  have hnb : ∀ e ∈ ev, ∀ j, e ≠ .bNotA j := by
    intro e he j hej
    subst hej
    rw [hev, iterAC_eq, List.mem_filterMap] at he
    obtain ⟨e', -, he'⟩ := he
    cases e' <;> simp [keepAC] at he'
  have hrange : ev.map evI = List.range bigSet.length := by
    rw [hev, map_evI_iterAC, List.range_eq_range']
  have hA : ev.filterMap fA = positions bigSet (· ∈ subA) := by
    unfold positions
    rw [← hrange, List.filter_map]
    have : ∀ l : List Ev, (∀ e ∈ l, e ∈ ev) → l.filterMap fA =
        (l.filter ((fun i => match bigSet[i]? with | some v => decide (v ∈ subA) | none => false) ∘ evI)).map evI := by
      intro l hl
      induction l with
      | nil => rfl
      | cons e l ih =>
        have ih := ih fun e he => hl e (by simp [he])
        have he := hl e (by simp)
        cases e with
        | inter i j =>
          obtain ⟨v, h4, h5⟩ := (h1 i j).1 he
          have hm : v ∈ subA := List.mem_of_getElem? h5
          rw [List.filterMap_cons_some (f := fA) (b := i) rfl, List.filter_cons_of_pos (by simp [evI, h4, hm]), List.map_cons, ih]; rfl
        | aNotB i =>
          obtain ⟨v, h4, h5⟩ := (h2 i).1 he
          rw [List.filterMap_cons_none rfl, List.filter_cons_of_neg (by simp [evI, h4, h5]), ih]
        | bNotA j => exact absurd rfl (hnb _ he j)
    exact this ev fun e he => he
  have hB : ev.filterMap fB = positions bigSet (· ∉ subA) := by
    unfold positions
    rw [← hrange, List.filter_map]
    have : ∀ l : List Ev, (∀ e ∈ l, e ∈ ev) → l.filterMap fB =
        (l.filter ((fun i => match bigSet[i]? with | some v => decide (v ∉ subA) | none => false) ∘ evI)).map evI := by
      intro l hl
      induction l with
      | nil => rfl
      | cons e l ih =>
        have ih := ih fun e he => hl e (by simp [he])
        have he := hl e (by simp)
        cases e with
        | inter i j =>
          obtain ⟨v, h4, h5⟩ := (h1 i j).1 he
          have hm : v ∈ subA := List.mem_of_getElem? h5
          rw [List.filterMap_cons_none rfl, List.filter_cons_of_neg (by simp [evI, h4, hm]), ih]
        | aNotB i =>
          obtain ⟨v, h4, h5⟩ := (h2 i).1 he
          rw [List.filterMap_cons_some (f := fB) (b := i) rfl, List.filter_cons_of_pos (by simp [evI, h4, h5]), List.map_cons, ih]; rfl
        | bNotA j => exact absurd rfl (hnb _ he j)
    exact this ev fun e he => he
  have hcnt : (ev.filterMap fA).length = subA.length := by
    -- the values at the intersection positions are exactly subA
    obtain ⟨hi1, vs, hi2, hi3⟩ := iterInter_correct bigSet subA hb ha
    have e1 : ev.filterMap fA = (iterInter 0 bigSet 0 subA).map Prod.fst := by
      rw [hev, iterAC_eq, iterInter_eq, List.filterMap_filterMap, List.map_filterMap]
      congr 1; funext e; cases e <;> rfl
    rw [e1, List.length_map]
    have e2 : vs = subA := by
      apply eq_of_pairwise_of_mem hi3 ha
      intro v
      have : v ∈ vs ↔ ∃ p ∈ iterInter 0 bigSet 0 subA, bigSet[p.1]? = some v := by
        have : some v ∈ vs.map some ↔ v ∈ vs := by simp
        rw [← this, ← hi2, List.mem_map]
      rw [this]
      constructor
      · rintro ⟨⟨i, j⟩, hp, hv⟩
        obtain ⟨w, h4, h5⟩ := (hi1 i j).1 hp
        have : w = v := by rw [h4] at hv; simpa using hv
        subst this; exact List.mem_of_getElem? h5
      · intro hv
        obtain ⟨i, hi⟩ := List.mem_iff_getElem?.1 (hsub v hv)
        obtain ⟨j, hj⟩ := List.mem_iff_getElem?.1 hv
        exact ⟨(i, j), (hi1 i j).2 ⟨v, hi, hj⟩, hi⟩
    have := congrArg List.length hi2
    simpa [e2] using this
  have hcnt2 : (ev.filterMap fA).length + (ev.filterMap fB).length = bigSet.length := by
    have hl : ev.length = bigSet.length := by
      have := congrArg List.length hrange; simpa using this
    rw [← hl]
    have : ∀ l : List Ev, (∀ e ∈ l, e ∈ ev) → (l.filterMap fA).length + (l.filterMap fB).length = l.length := by
      intro l hl
      induction l with
      | nil => rfl
      | cons e l ih =>
        have ih := ih fun e he => hl e (by simp [he])
        cases e with
        | inter i j =>
          rw [List.filterMap_cons_some (f := fA) (b := i) rfl, List.filterMap_cons_none (f := fB) rfl]
          simp only [List.length_cons]; omega
        | aNotB i =>
          rw [List.filterMap_cons_some (f := fB) (b := i) rfl, List.filterMap_cons_none (f := fA) rfl]
          simp only [List.length_cons]; omega
        | bNotA j => exact absurd rfl (hnb _ (hl _ (by simp)) j)
    exact this ev fun e he => he
  have eA : ev.flatMap (evToA BS) =
      (ev.filterMap fA).flatMap (blockIdx BS) := by
    rw [← flatMap_blockIdx_eq]
    congr 1; funext e; cases e <;> rfl
  have eB : ev.flatMap (evToB BS) =
      (ev.filterMap fB).flatMap (blockIdx BS) := by
    rw [← flatMap_blockIdx_eq]
    congr 1; funext e; cases e <;> rfl
  have lenfm : ∀ l : List ℕ, (l.flatMap (blockIdx BS)).length = l.length * BS := by
    intro l
    induction l with
    | nil => simp
    | cons x l ih => simp [ih, blockIdx]; ring
  unfold partitionAB
  simp only []
  rw [← hev, eA, eB, if_pos, hA, hB]
  refine ⟨by rw [lenfm, hcnt], by omega, ?_⟩
  rw [lenfm]
  congr 1
  omega

/-- **C04 (partition with block expansion).** For a strictly increasing subset of a strictly increasing set,
`partitionAB` fills its two index arrays completely without overflow; they list, in increasing order, exactly the scalar
indices whose block belongs to the subset, and those whose block does not. -/
theorem partitionAB_correct (subA bigSet : List α) (BS : ℕ) (ha : subA.Pairwise (· < ·))
    (hb : bigSet.Pairwise (· < ·)) (hsub : ∀ v ∈ subA, v ∈ bigSet) :
    partitionAB subA bigSet BS = some (scalarPositions bigSet BS (· ∈ subA), scalarPositions bigSet BS (· ∉ subA)) := by
  rw [partitionAB_blocks subA bigSet BS ha hb hsub]
  unfold positions
  rw [range_blocks, range_blocks]
  rfl

example : partitionAB [3, 7] ([1, 3, 5, 7] : List ℕ) 2 = some ([2, 3, 6, 7], [0, 1, 4, 5]) := by decide +kernel

/-- the subset hypothesis is needed: otherwise the second index array overflows -/
theorem partitionAB_needs_subset : partitionAB [2, 3] ([1, 3] : List ℕ) 1 = none := by decide +kernel

end NgsAMG.Traversal
