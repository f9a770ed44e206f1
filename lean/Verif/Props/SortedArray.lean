import Verif.Model.SortedArray
import Mathlib.Data.List.Sort
import Mathlib.Data.List.Perm.Basic

/-!
C01, C02: sorted-array search and insertion.
"Strictly increasing" is `List.Pairwise (· < ·)`, "sorted" is `List.Pairwise (· ≤ ·)`.
-/

namespace NgsAMG.SortedArray

variable {α : Type*} [LinearOrder α]

/-- what a search for `x` in `a` has to answer -/
def FindSpec (x : α) (a : List α) (r : Res) : Prop :=
  match r with
  | .pos i => a[i]? = some x
  | .sentinel => x ∉ a

theorem findTail_spec (x : α) (a : List α) (first last : ℕ) (hl : last ≤ a.length) :
    ∃ r, findTail x a first last = some r ∧
      match r with
      | .pos i => a[i]? = some x
      | .sentinel => ∀ i, first ≤ i → i < last → a[i]? ≠ some x := by
  fun_induction findTail x a first last with
  | case1 first h1 h2 =>
    rw [List.getElem?_eq_none_iff] at h2; omega
  | case2 first h1 h2 => exact ⟨_, rfl, h2⟩
  | case3 first h1 v h2 h3 ih =>
    obtain ⟨r, hr, hs⟩ := ih
    refine ⟨r, hr, ?_⟩
    cases r with
    | pos i => exact hs
    | sentinel =>
      intro i h4 h5
      rcases Nat.eq_or_lt_of_le h4 with h6 | h6
      · subst h6; rw [h2]; simpa using h3
      · exact hs i h6 h5
  | case4 first h1 => exact ⟨_, rfl, fun i h2 h3 => by omega⟩

theorem lt_of_pairwise {a : List α} (hs : a.Pairwise (· < ·)) {i j : ℕ} {v w : α}
    (hi : a[i]? = some v) (hj : a[j]? = some w) (hij : i < j) : v < w := by
  obtain ⟨hi', hi⟩ := List.getElem?_eq_some_iff.1 hi
  obtain ⟨hj', hj⟩ := List.getElem?_eq_some_iff.1 hj
  subst hi hj
  exact List.pairwise_iff_getElem.1 hs i j hi' hj' hij

theorem le_of_pairwise {a : List α} (hs : a.Pairwise (· ≤ ·)) {i j : ℕ} {v w : α}
    (hi : a[i]? = some v) (hj : a[j]? = some w) (hij : i ≤ j) : v ≤ w := by
  obtain ⟨hi', hi⟩ := List.getElem?_eq_some_iff.1 hi
  obtain ⟨hj', hj⟩ := List.getElem?_eq_some_iff.1 hj
  subst hi hj
  rcases Nat.eq_or_lt_of_le hij with h | h
  · subst h; exact le_refl _
  · exact List.pairwise_iff_getElem.1 hs i j hi' hj' h

theorem findLoop_spec (x : α) (a : List α) (hs : a.Pairwise (· < ·)) (first last : ℕ)
    (hl : last ≤ a.length)
    (hlo : ∀ i, i < first → a[i]? ≠ some x) (hhi : ∀ i, last ≤ i → a[i]? ≠ some x) :
    ∃ r, findLoop x a first last = some r ∧ FindSpec x a r := by
  fun_induction findLoop x a first last with
  | case1 first last h1 mid h2 =>
    rw [List.getElem?_eq_none_iff] at h2; omega
  | case2 first last h1 mid v h2 h3 ih =>
    refine ih (by omega) hlo ?_
    intro i hi he
    have : v ≤ x := le_of_pairwise (hs.imp le_of_lt) h2 he hi
    exact absurd h3 (not_lt.2 this)
  | case3 first last h1 mid h2 h3 => exact ⟨_, rfl, h2⟩
  | case4 first last h1 mid v h2 h3 h4 ih =>
    refine ih hl ?_ hhi
    intro i hi he
    have : x ≤ v := le_of_pairwise (hs.imp le_of_lt) he h2 (by omega)
    exact h4 (le_antisymm (not_lt.1 h3) this)
  | case5 first last h1 =>
    obtain ⟨r, hr, hp⟩ := findTail_spec x a first last hl
    refine ⟨r, hr, ?_⟩
    cases r with
    | pos i => exact hp
    | sentinel =>
      intro hx
      obtain ⟨i, hi⟩ := List.mem_iff_getElem?.1 hx
      rcases lt_or_ge i first with h | h
      · exact hlo i h hi
      · rcases lt_or_ge i last with h' | h'
        · exact hp i h h' hi
        · exact hhi i h' hi

/-- **C01.** Searching a strictly increasing array never leaves the array and answers exactly. -/
theorem find_correct (x : α) (a : List α) (hs : a.Pairwise (· < ·)) :
    ∃ r, find x a = some r ∧
      (x ∈ a → ∃ i, r = .pos i ∧ a[i]? = some x) ∧ (x ∉ a → r = .sentinel) := by
  obtain ⟨r, hr, hp⟩ := findLoop_spec x a hs 0 a.length le_rfl (by simp)
    (by intro i hi; rw [List.getElem?_eq_none_iff.2 hi]; simp)
  refine ⟨r, hr, ?_, ?_⟩
  · intro hx
    cases r with
    | pos i => exact ⟨i, rfl, hp⟩
    | sentinel => exact absurd hx hp
  · intro hx
    cases r with
    | pos i => exact absurd (List.mem_of_getElem? hp) hx
    | sentinel => rfl

example : ([1, 4, 6, 8, 9, 12, 15, 20, 31] : List ℕ).Pairwise (· < ·) := by decide
example : find 15 ([1, 4, 6, 8, 9, 12, 15, 20, 31] : List ℕ) = some (.pos 6) := by
  decide +kernel
example : find 7 ([1, 4, 6, 8, 9, 12, 15, 20, 31] : List ℕ) = some .sentinel := by
  decide +kernel

/-- the announced meaning of `merge_pos_in_sorted_array`: `a[0..pos) <= elem < a[pos..Size())` -/
def MergePosSpec (x : α) (a : List α) (p : ℕ) : Prop :=
  p ≤ a.length ∧ (∀ i v, a[i]? = some v → i < p → v ≤ x) ∧ (∀ i v, a[i]? = some v → p ≤ i → x < v)

theorem mergePosTail_spec (x : α) (a : List α) (first last : ℕ) (hl : last ≤ a.length)
    (hs : a.Pairwise (· ≤ ·))
    (hlo : ∀ i v, a[i]? = some v → i < first → v ≤ x)
    (hex : ∃ i v, first ≤ i ∧ i < last ∧ a[i]? = some v ∧ x < v) :
    ∃ p, mergePosTail x a first last = some (.pos p) ∧ MergePosSpec x a p := by
  fun_induction mergePosTail x a first last with
  | case1 first h1 h2 => rw [List.getElem?_eq_none_iff] at h2; omega
  | case2 first h1 v h2 h3 =>
    refine ⟨_, rfl, by omega, hlo, ?_⟩
    intro i w hi hle
    exact lt_of_lt_of_le h3 (le_of_pairwise hs h2 hi hle)
  | case3 first h1 v h2 h3 ih =>
    apply ih
    · intro i w hi hlt
      rcases Nat.lt_or_ge i first with h | h
      · exact hlo i w hi h
      · have : i = first := by omega
        subst this; rw [h2] at hi; cases hi; exact not_lt.1 h3
    · obtain ⟨i, w, h4, h5, h6, h7⟩ := hex
      refine ⟨i, w, ?_, h5, h6, h7⟩
      rcases Nat.eq_or_lt_of_le h4 with h | h
      · subst h; rw [h2] at h6; cases h6; exact absurd h7 h3
      · exact h
  | case4 first h1 =>
    obtain ⟨i, w, h4, h5, h6, h7⟩ := hex
    omega

theorem mergePosLoop_spec (x : α) (a : List α) (first last : ℕ) (hl : last ≤ a.length)
    (hs : a.Pairwise (· ≤ ·))
    (hlo : ∀ i v, a[i]? = some v → i < first → v ≤ x)
    (hex : ∃ i v, first ≤ i ∧ i < last ∧ a[i]? = some v ∧ x < v) :
    ∃ p, mergePosLoop x a first last = some (.pos p) ∧ MergePosSpec x a p := by
  fun_induction mergePosLoop x a first last with
  | case1 first last h1 mid h2 => rw [List.getElem?_eq_none_iff] at h2; omega
  | case2 first last h1 mid v h2 h3 ih =>
    apply ih hl
    · intro i w hi hlt
      exact le_trans (le_of_pairwise hs hi h2 (by omega)) h3
    · obtain ⟨i, w, h4, h5, h6, h7⟩ := hex
      refine ⟨i, w, ?_, h5, h6, h7⟩
      by_contra hc
      exact absurd (le_trans (le_of_pairwise hs h6 h2 (by omega)) h3) (not_le.2 h7)
  | case3 first last h1 mid v h2 h3 h4 => rw [List.getElem?_eq_none_iff] at h4; omega
  | case4 first last h1 mid v h2 h3 w h4 h5 ih =>
    apply ih (by omega) hlo
    exact ⟨mid - 1, w, by omega, by omega, h4, h5⟩
  | case5 first last h1 mid v h2 h3 w h4 h5 =>
    refine ⟨_, rfl, by omega, ?_, ?_⟩
    · intro i u hi hlt
      exact le_trans (le_of_pairwise hs hi h4 (by omega)) (not_lt.1 h5)
    · intro i u hi hle
      exact lt_of_lt_of_le (not_le.1 h3) (le_of_pairwise hs h2 hi hle)
  | case6 first last h1 => exact mergePosTail_spec x a first last hl hs hlo hex

/-- **C02 (position).** On a sorted array the insertion position is well defined, never the sentinel,
never out of bounds, and splits the array into the part `≤ x` and the part `> x`. -/
theorem mergePos_correct (x : α) (a : List α) (hs : a.Pairwise (· ≤ ·)) :
    ∃ p, mergePos x a = some (.pos p) ∧ MergePosSpec x a p := by
  unfold mergePos
  rcases a with _ | ⟨h, t⟩
  · exact ⟨0, rfl, by simp [MergePosSpec]⟩
  · obtain ⟨l, hl⟩ : ∃ l, (h :: t).getLast? = some l := ⟨_, List.getLast?_eq_some_getLast (by simp)⟩
    have hl' : (h :: t)[t.length]? = some l := by
      rw [List.getLast?_eq_getElem?] at hl; simpa using hl
    have hh' : (h :: t)[0]? = some h := rfl
    simp only [List.head?_cons, hl]
    split_ifs with h1 h2
    · refine ⟨0, rfl, by simp, by simp, ?_⟩
      intro i v hi _
      exact lt_of_lt_of_le h1 (le_of_pairwise hs hh' hi (by omega))
    · refine ⟨_, rfl, le_rfl, ?_, ?_⟩
      · intro i v hi hlt
        exact le_trans (le_of_pairwise hs hi hl' (by simp at hlt; omega)) h2
      · intro i v hi hle
        obtain ⟨hlt, _⟩ := List.getElem?_eq_some_iff.1 hi
        omega
    · exact mergePosLoop_spec x (h :: t) 0 _ le_rfl hs (by simp)
        ⟨t.length, l, by omega, by simp, hl', not_le.1 h2⟩

omit [LinearOrder α] in
theorem insertIdx_take_drop (a : List α) (p : ℕ) (x : α) (h : p ≤ a.length) :
    a.insertIdx p x = a.take p ++ x :: a.drop p := by
  induction a generalizing p with
  | nil => simp at h; subst h; rfl
  | cons y a ih =>
    cases p with
    | zero => simp
    | succ p => simp [ih p (by simpa using h)]

theorem pairwise_insertIdx {a : List α} (hs : a.Pairwise (· ≤ ·)) {x : α} {p : ℕ} (hp : MergePosSpec x a p) :
    (a.insertIdx p x).Pairwise (· ≤ ·) := by
  obtain ⟨h1, h2, h3⟩ := hp
  have e : a.insertIdx p x = a.take p ++ x :: a.drop p := by
    exact insertIdx_take_drop a p x h1
  rw [e, List.pairwise_append]
  have hb : ∀ v ∈ a.take p, v ≤ x := by
    intro v hv
    obtain ⟨i, hi⟩ := List.mem_iff_getElem?.1 hv
    rw [List.getElem?_take] at hi
    split_ifs at hi with hlt
    exact h2 i v hi hlt
  have ha : ∀ v ∈ a.drop p, x < v := by
    intro v hv
    obtain ⟨i, hi⟩ := List.mem_iff_getElem?.1 hv
    rw [List.getElem?_drop] at hi
    exact h3 _ v hi (by omega)
  refine ⟨hs.sublist (List.take_sublist _ _), ?_, ?_⟩
  · rw [List.pairwise_cons]
    exact ⟨fun v hv => (ha v hv).le, hs.sublist (List.drop_sublist _ _)⟩
  · intro v hv w hw
    rcases List.mem_cons.1 hw with rfl | hw
    · exact hb v hv
    · exact (hb v hv).trans (ha w hw).le

/-- **C02 (multiset insert).** Inserting into a sorted array succeeds, keeps it sorted and adds exactly the element. -/
theorem insertSorted_correct (x : α) (a : List α) (hs : a.Pairwise (· ≤ ·)) :
    ∃ b, insertSorted x a = some b ∧ b.Pairwise (· ≤ ·) ∧ b.Perm (x :: a) := by
  obtain ⟨p, hp, hsp⟩ := mergePos_correct x a hs
  refine ⟨a.insertIdx p x, ?_, pairwise_insertIdx hs hsp, List.perm_insertIdx _ _ hsp.1⟩
  simp [insertSorted, hp, arrayInsert, hsp.1]

/-- **C02 (set insert).** Inserting without duplicates into a strictly increasing array keeps it strictly
increasing, the flag tells whether the element was new, and the elements are the old ones plus `x`. -/
theorem insertUnique_correct (x : α) (a : List α) (hs : a.Pairwise (· < ·)) :
    ∃ isNew p b, insertUnique x a = some (isNew, .pos p, b) ∧ b.Pairwise (· < ·) ∧
      (∀ v, v ∈ b ↔ v = x ∨ v ∈ a) ∧ (isNew = true ↔ x ∉ a) ∧ (x ∈ a → b = a) := by
  have hle : a.Pairwise (· ≤ ·) := hs.imp le_of_lt
  obtain ⟨p, hp, hsp⟩ := mergePos_correct x a hle
  have key : x ∈ a ↔ 0 < p ∧ a[p - 1]? = some x := by
    constructor
    · intro hx
      obtain ⟨i, hi⟩ := List.mem_iff_getElem?.1 hx
      have hip : i < p := by
        by_contra hc
        exact absurd (hsp.2.2 i x hi (by omega)) (lt_irrefl _)
      refine ⟨by omega, ?_⟩
      rcases Nat.lt_or_ge i (p - 1) with h | h
      · have hlt : p - 1 < a.length := by have := hsp.1; omega
        have hw : a[p - 1]? = some a[p - 1] := List.getElem?_eq_getElem hlt
        have h1 := lt_of_pairwise hs hi hw h
        have h2 := hsp.2.1 _ _ hw (by omega)
        exact absurd h1 (not_lt.2 h2)
      · have : i = p - 1 := by omega
        subst this; exact hi
    · intro h; exact List.mem_of_getElem? h.2
  by_cases hx : x ∈ a
  · obtain ⟨h1, h2⟩ := key.1 hx
    refine ⟨false, p, a, ?_, hs, ?_, by simpa using hx, fun _ => rfl⟩
    · simp [insertUnique, hp, h1, h2]
    · intro v; constructor
      · exact Or.inr
      · rintro (rfl | h)
        · exact hx
        · exact h
  · have hins : arrayInsert a p x = some (a.insertIdx p x) := by simp [arrayInsert, hsp.1]
    have hperm : (a.insertIdx p x).Perm (x :: a) := List.perm_insertIdx _ _ hsp.1
    refine ⟨true, p, a.insertIdx p x, ?_, ?_, ?_, by simpa using hx, fun h => absurd h hx⟩
    · unfold insertUnique
      rw [hp]
      by_cases h0 : 0 < p
      · have hlt : p - 1 < a.length := by have := hsp.1; omega
        have hw : a[p - 1]? = some a[p - 1] := List.getElem?_eq_getElem hlt
        have hne : a[p - 1] ≠ x := by
          intro he; apply hx; rw [key]; exact ⟨h0, by rw [hw, he]⟩
        simp only [h0, if_true, hw, hne, if_false, hins, Option.map_some]
      · simp only [h0, if_false, hins, Option.map_some]
    · have h1 := pairwise_insertIdx hle hsp
      have h2 : (a.insertIdx p x).Nodup := by
        rw [hperm.nodup_iff, List.nodup_cons]
        exact ⟨hx, hs.imp ne_of_lt⟩
      exact (h1.and h2).imp fun h => lt_of_le_of_ne h.1 h.2
    · intro v; rw [hperm.mem_iff, List.mem_cons]

theorem insertNodups_correct (x : α) (a : List α) (hs : a.Pairwise (· < ·)) :
    ∃ isNew b, insertNodups x a = some (isNew, b) ∧ b.Pairwise (· < ·) ∧
      (∀ v, v ∈ b ↔ v = x ∨ v ∈ a) ∧ (isNew = true ↔ x ∉ a) ∧ (x ∈ a → b = a) := by
  obtain ⟨n, p, b, h, r⟩ := insertUnique_correct x a hs
  exact ⟨n, b, by simp [insertNodups, h], r⟩

/-- a history of duplicate-free insertions -/
def insertAll : List α → List α → Option (List α)
  | [], a => some a
  | x :: xs, a => (insertNodups x a).bind fun r => insertAll xs r.2

/-- a history of multiset insertions -/
def insertAllMulti : List α → List α → Option (List α)
  | [], a => some a
  | x :: xs, a => (insertSorted x a).bind fun r => insertAllMulti xs r

/-- **C02 (histories, set).** Any history of duplicate-free inserts into an empty array yields the strictly
increasing array of exactly the inserted values. -/
theorem insertAll_correct (xs : List α) :
    ∃ b, insertAll xs [] = some b ∧ b.Pairwise (· < ·) ∧ ∀ v, v ∈ b ↔ v ∈ xs := by
  suffices H : ∀ (a : List α), a.Pairwise (· < ·) →
      ∃ b, insertAll xs a = some b ∧ b.Pairwise (· < ·) ∧ ∀ v, v ∈ b ↔ v ∈ xs ∨ v ∈ a by
    simpa using H [] List.Pairwise.nil
  induction xs with
  | nil => intro a ha; exact ⟨a, rfl, ha, by simp⟩
  | cons x xs ih =>
    intro a ha
    obtain ⟨n, b, h1, h2, h3, -⟩ := insertNodups_correct x a ha
    obtain ⟨c, h4, h5, h6⟩ := ih b h2
    refine ⟨c, by simp [insertAll, h1, h4], h5, ?_⟩
    intro v; rw [h6, h3, List.mem_cons]; tauto

/-- **C02 (histories, multiset).** -/
theorem insertAllMulti_correct (xs : List α) :
    ∃ b, insertAllMulti xs [] = some b ∧ b.Pairwise (· ≤ ·) ∧ b.Perm xs := by
  suffices H : ∀ (a : List α), a.Pairwise (· ≤ ·) →
      ∃ b, insertAllMulti xs a = some b ∧ b.Pairwise (· ≤ ·) ∧ b.Perm (xs ++ a) by
    simpa using H [] List.Pairwise.nil
  induction xs with
  | nil => intro a ha; exact ⟨a, rfl, ha, by simp⟩
  | cons x xs ih =>
    intro a ha
    obtain ⟨b, h1, h2, h3⟩ := insertSorted_correct x a ha
    obtain ⟨c, h4, h5, h6⟩ := ih b h2
    refine ⟨c, by simp [insertAllMulti, h1, h4], h5, ?_⟩
    refine h6.trans ?_
    refine ((List.Perm.refl xs).append h3).trans ?_
    simp

example : insertAll [5, 3, 5, 9] ([] : List ℕ) = some [3, 5, 9] := by
  decide +kernel
example : insertAllMulti [5, 3, 5, 9] ([] : List ℕ) = some [3, 5, 5, 9] := by
  decide +kernel

theorem indOfMaxLoop_spec (pre rest : List α) (ind : ℕ) (m : α)
    (h1 : pre[ind]? = some m) (h2 : ∀ v ∈ pre, v ≤ m)
    (h3 : ∀ i v, pre[i]? = some v → i < ind → v < m) :
    ∃ m', (pre ++ rest)[indOfMaxLoop rest pre.length ind m]? = some m' ∧
      (∀ v ∈ pre ++ rest, v ≤ m') ∧
      (∀ i v, (pre ++ rest)[i]? = some v → i < indOfMaxLoop rest pre.length ind m → v < m') := by
  induction rest generalizing pre ind m with
  | nil => exact ⟨m, by simpa [indOfMaxLoop] using h1, by simpa using h2, by simpa [indOfMaxLoop] using h3⟩
  | cons w r ih =>
    have e : pre ++ w :: r = (pre ++ [w]) ++ r := by simp
    have el : pre.length + 1 = (pre ++ [w]).length := by simp
    unfold indOfMaxLoop
    have hind : ind < pre.length := (List.getElem?_eq_some_iff.1 h1).1
    split_ifs with hgt
    · rw [e, el]
      apply ih
      · simp
      · intro v hv
        rcases List.mem_append.1 hv with h | h
        · exact (h2 v h).trans hgt.le
        · simp at h; exact h.le
      · intro i v hi hlt
        rw [List.getElem?_append_left hlt] at hi
        exact lt_of_le_of_lt (h2 v (List.mem_of_getElem? hi)) hgt
    · rw [e, el]
      apply ih
      · rw [List.getElem?_append_left hind]; exact h1
      · intro v hv
        rcases List.mem_append.1 hv with h | h
        · exact h2 v h
        · simp at h; rw [h]; exact not_lt.1 hgt
      · intro i v hi hlt
        rw [List.getElem?_append_left (by omega)] at hi
        exact h3 i v hi hlt

/-- **C01 (maximum).** `ind_of_max` returns the first position of the maximum, and `-1` only for empty arrays. -/
theorem indOfMax_correct (a : List α) :
    (a = [] ∧ indOfMax a = .sentinel) ∨
    ∃ i m, indOfMax a = .pos i ∧ a[i]? = some m ∧ (∀ v ∈ a, v ≤ m) ∧
      ∀ j v, a[j]? = some v → j < i → v < m := by
  rcases a with _ | ⟨w, r⟩
  · exact Or.inl ⟨rfl, rfl⟩
  · right
    obtain ⟨m, h⟩ := indOfMaxLoop_spec [w] r 0 w rfl (by simp) (by simp)
    exact ⟨_, m, rfl, h⟩

example : indOfMax ([3, 7, 7, 1] : List ℕ) = .pos 1 := by decide

omit [LinearOrder α] in
/-- removing position `pos` deletes exactly that element and keeps the order of the others -/
theorem removeEntry_correct (a : List α) (pos : ℕ) (h : pos < a.length) :
    removeEntry pos a = some (a.eraseIdx pos) := by
  simp [removeEntry, h, List.eraseIdx_eq_take_drop_succ]

example : removeEntry 1 ([3, 7, 8] : List ℕ) = some [3, 8] := by decide

end NgsAMG.SortedArray
