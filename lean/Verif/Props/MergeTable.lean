import Verif.Props.Traversal
import Mathlib.Algebra.BigOperators.Group.List.Basic

/-! C03: the k-way merge `merge_arrays (tab, out, lam)`. -/

namespace NgsAMG.Traversal

variable {α : Type*} [LinearOrder α]

theorem scanMin_spec (m : α) (has : List ℕ) (k : ℕ) (rows : List (List α)) :
    (scanMin m has k rows).1 ≤ m ∧
    (∀ r ∈ rows, ∀ x ∈ r.head?, (scanMin m has k rows).1 ≤ x) ∧
    ((scanMin m has k rows).1 = m ∨ ∃ r ∈ rows, r.head? = some (scanMin m has k rows).1) ∧
    (∀ q, q ∈ (scanMin m has k rows).2 ↔
      ((scanMin m has k rows).1 = m ∧ q ∈ has) ∨
        ∃ i r, rows[i]? = some r ∧ r.head? = some (scanMin m has k rows).1 ∧ q = k + i) := by
  fun_induction scanMin m has k rows with
  | case1 m has k => simp
  | case2 m has k rs ih =>
    obtain ⟨h1, h2, h3, h4⟩ := ih
    refine ⟨h1, ?_, ?_, ?_⟩
    · intro r hr x hx
      rcases List.mem_cons.1 hr with rfl | hr
      · simp at hx
      · exact h2 r hr x hx
    · rcases h3 with h3 | ⟨r, hr, hh⟩
      · exact Or.inl h3
      · exact Or.inr ⟨r, by simp [hr], hh⟩
    · intro q
      rw [h4 q]
      apply or_congr Iff.rfl
      constructor
      · rintro ⟨i, r, hi, hh, rfl⟩
        exact ⟨i + 1, r, by simpa using hi, hh, by omega⟩
      · rintro ⟨i, r, hi, hh, rfl⟩
        rcases i with _ | i
        · simp at hi; subst hi; simp at hh
        · exact ⟨i, r, by simpa using hi, hh, by omega⟩
  | case3 has k x tl rs ih =>
    obtain ⟨h1, h2, h3, h4⟩ := ih
    refine ⟨h1, ?_, ?_, ?_⟩
    · intro r hr y hy
      rcases List.mem_cons.1 hr with rfl | hr
      · simp at hy; subst hy; exact h1
      · exact h2 r hr y hy
    · rcases h3 with h3 | ⟨r, hr, hh⟩
      · exact Or.inl h3
      · exact Or.inr ⟨r, by simp [hr], hh⟩
    · intro q
      rw [h4 q, List.mem_cons]
      constructor
      · rintro (⟨he, rfl | hq⟩ | ⟨i, r, hi, hh, rfl⟩)
        · exact Or.inr ⟨0, _, rfl, by simp [he], by omega⟩
        · exact Or.inl ⟨he, hq⟩
        · exact Or.inr ⟨i + 1, r, by simpa using hi, hh, by omega⟩
      · rintro (⟨he, hq⟩ | ⟨i, r, hi, hh, rfl⟩)
        · exact Or.inl ⟨he, Or.inr hq⟩
        · rcases i with _ | i
          · simp at hi; subst hi; simp at hh
            exact Or.inl ⟨hh.symm, Or.inl (by omega)⟩
          · exact Or.inr ⟨i, r, by simpa using hi, hh, by omega⟩
  | case4 m has k x tl rs hne hlt ih =>
    obtain ⟨h1, h2, h3, h4⟩ := ih
    refine ⟨h1.trans hlt.le, ?_, ?_, ?_⟩
    · intro r hr y hy
      rcases List.mem_cons.1 hr with rfl | hr
      · simp at hy; subst hy; exact h1
      · exact h2 r hr y hy
    · rcases h3 with h3 | ⟨r, hr, hh⟩
      · exact Or.inr ⟨_, List.mem_cons_self, by simp [h3]⟩
      · exact Or.inr ⟨r, by simp [hr], hh⟩
    · intro q
      have hne' : (scanMin x [k] (k + 1) rs).1 ≠ m := (lt_of_le_of_lt h1 hlt).ne
      rw [h4 q, List.mem_singleton]
      constructor
      · rintro (⟨he, rfl⟩ | ⟨i, r, hi, hh, rfl⟩)
        · exact Or.inr ⟨0, _, rfl, by simp [he], by omega⟩
        · exact Or.inr ⟨i + 1, r, by simpa using hi, hh, by omega⟩
      · rintro (⟨he, hq⟩ | ⟨i, r, hi, hh, rfl⟩)
        · exact absurd he hne'
        · rcases i with _ | i
          · simp at hi; subst hi; simp at hh
            exact Or.inl ⟨hh.symm, by omega⟩
          · exact Or.inr ⟨i, r, by simpa using hi, hh, by omega⟩
  | case5 m has k x tl rs hne hlt ih =>
    obtain ⟨h1, h2, h3, h4⟩ := ih
    have hgt : m < x := lt_of_le_of_ne (not_lt.1 hlt) (Ne.symm hne)
    refine ⟨h1, ?_, ?_, ?_⟩
    · intro r hr y hy
      rcases List.mem_cons.1 hr with rfl | hr
      · simp at hy; subst hy; exact h1.trans hgt.le
      · exact h2 r hr y hy
    · rcases h3 with h3 | ⟨r, hr, hh⟩
      · exact Or.inl h3
      · exact Or.inr ⟨r, by simp [hr], hh⟩
    · intro q
      have hne' : (scanMin m has (k + 1) rs).1 ≠ x := (lt_of_le_of_lt h1 hgt).ne
      rw [h4 q]
      apply or_congr Iff.rfl
      constructor
      · rintro ⟨i, r, hi, hh, rfl⟩
        exact ⟨i + 1, r, by simpa using hi, hh, by omega⟩
      · rintro ⟨i, r, hi, hh, rfl⟩
        rcases i with _ | i
        · simp at hi; subst hi; simp at hh; exact absurd hh.symm hne'
        · exact ⟨i, r, by simpa using hi, hh, by omega⟩

/-- drop the head if it is `m` -/
def dropIf (m : α) (r : List α) : List α := if r.head? = some m then r.tail else r

theorem advance_spec (m : α) (has : List ℕ) (k : ℕ) (rows : List (List α))
    (h : ∀ i r, rows[i]? = some r → (k + i ∈ has ↔ r.head? = some m)) :
    (advance has k rows).1 = rows.map (dropIf m) ∧
    (rows.map (dropIf m)).countP List.isEmpty = rows.countP List.isEmpty + (advance has k rows).2 := by
  induction rows generalizing k with
  | nil => simp [advance]
  | cons r rs ih =>
    obtain ⟨h1, h2⟩ := ih (k + 1) (by
      intro i r' hr'
      have := h (i + 1) r' (by simpa using hr')
      rw [← this]; simp [Nat.add_assoc, Nat.add_comm 1 i])
    have h0 := h 0 r rfl
    simp only [Nat.add_zero] at h0
    by_cases hk : k ∈ has
    · have hh := h0.1 hk
      rcases r with _ | ⟨x, tl⟩
      · simp at hh
      · simp at hh; subst hh
        rcases tl with _ | ⟨y, tl⟩
        · simp [advance, hk, h1, h2, dropIf, List.countP_cons]; omega
        · simp [advance, hk, h1, h2, dropIf, List.countP_cons]
    · have hh : r.head? ≠ some m := fun hc => hk (h0.2 hc)
      simp [advance, hk, h1, h2, dropIf, hh, List.countP_cons]; omega

theorem firstHead_none (rows : List (List α)) : firstHead rows = none ↔ ∀ r ∈ rows, r = [] := by
  fun_induction firstHead rows <;> simp_all

theorem firstHead_mem (rows : List (List α)) (x : α) (h : firstHead rows = some x) :
    ∃ r ∈ rows, r.head? = some x := by
  fun_induction firstHead rows with
  | case1 => simp at h
  | case2 rs ih => obtain ⟨r, h1, h2⟩ := ih h; exact ⟨r, by simp [h1], h2⟩
  | case3 y tl rs => exact ⟨_, List.mem_cons_self, by simpa using h⟩

theorem mem_dropIf {m v : α} {r : List α} (hr : r.Pairwise (· < ·)) (hm : ∀ x ∈ r.head?, m ≤ x) :
    (v ∈ r → v = m ∨ v ∈ dropIf m r) ∧ (v ∈ dropIf m r → v ∈ r ∧ m < v) := by
  rcases r with _ | ⟨x, tl⟩
  · simp [dropIf]
  · simp at hm
    by_cases hx : x = m
    · subst hx
      simp only [dropIf, List.head?_cons, if_true, List.tail_cons, List.mem_cons]
      exact ⟨id, fun h => ⟨Or.inr h, List.rel_of_pairwise_cons hr h⟩⟩
    · have hlt : m < x := lt_of_le_of_ne hm (Ne.symm hx)
      simp only [dropIf, List.head?_cons, Option.some.injEq, hx, if_false]
      refine ⟨Or.inr, fun h => ⟨h, ?_⟩⟩
      rcases List.mem_cons.1 h with rfl | h
      · exact hlt
      · exact hlt.trans (List.rel_of_pairwise_cons hr h)

theorem dropIf_pairwise {m : α} {r : List α} (hr : r.Pairwise (· < ·)) : (dropIf m r).Pairwise (· < ·) := by
  unfold dropIf; split_ifs
  · exact hr.tail
  · exact hr

theorem length_dropIf_le (m : α) (r : List α) : (dropIf m r).length ≤ r.length := by
  unfold dropIf; split_ifs <;> simp

theorem length_dropIf_lt {m : α} {r : List α} (h : r.head? = some m) : (dropIf m r).length < r.length := by
  rcases r with _ | ⟨x, tl⟩
  · simp at h
  · simp [dropIf, h]

/-- total number of elements -/
def total (rows : List (List α)) : ℕ := (rows.map List.length).sum

omit [LinearOrder α] in
theorem total_cons (r : List α) (rows : List (List α)) : total (r :: rows) = r.length + total rows := by
  simp [total]

omit [LinearOrder α] in
theorem length_le_total {r : List α} {rows : List (List α)} (h : r ∈ rows) : r.length ≤ total rows := by
  induction rows with
  | nil => simp at h
  | cons s rs ih =>
    rw [total_cons]
    rcases List.mem_cons.1 h with rfl | h
    · omega
    · have := ih h; omega

theorem total_dropIf_le (m : α) (rows : List (List α)) : total (rows.map (dropIf m)) ≤ total rows := by
  induction rows with
  | nil => simp [total]
  | cons r rs ih =>
    have := length_dropIf_le m r
    rw [List.map_cons, total_cons, total_cons]; omega

theorem total_dropIf_lt {m : α} (rows : List (List α)) (h : ∃ r ∈ rows, r.head? = some m) :
    total (rows.map (dropIf m)) < total rows := by
  induction rows with
  | nil => simp at h
  | cons r rs ih =>
    have h1 := length_dropIf_le m r
    have h2 := total_dropIf_le m rs
    rw [List.map_cons, total_cons, total_cons]
    obtain ⟨r', hr', hh⟩ := h
    rcases List.mem_cons.1 hr' with rfl | hr'
    · have := length_dropIf_lt hh; omega
    · have := ih ⟨r', hr', hh⟩; omega

omit [LinearOrder α] in
theorem countP_isEmpty_lt (rows : List (List α)) :
    rows.countP List.isEmpty < rows.length ↔ ∃ r ∈ rows, r ≠ [] := by
  have h1 := List.countP_le_length (p := List.isEmpty) (l := rows)
  have h2 : rows.countP List.isEmpty = rows.length ↔ ∀ r ∈ rows, r.isEmpty = true :=
    List.countP_eq_length
  constructor
  · intro h
    by_contra hc
    push Not at hc
    have := h2.2 (by intro r hr; simp [hc r hr])
    omega
  · rintro ⟨r, hr, hne⟩
    rcases Nat.lt_or_ge (rows.countP List.isEmpty) rows.length with h | h
    · exact h
    · have := h2.1 (by omega) r hr
      simp at this; exact absurd this hne

theorem mergeLoop_spec (fuel : ℕ) (rows : List (List α)) (min : α)
    (hs : ∀ r ∈ rows, r.Pairwise (· < ·)) (hmin : (∃ r ∈ rows, r ≠ []) → firstHead rows = some min)
    (hf : total rows ≤ fuel) :
    ∃ out, mergeLoop fuel rows (rows.countP List.isEmpty) min = some out ∧ out.Pairwise (· < ·) ∧
      ∀ v, v ∈ out ↔ ∃ r ∈ rows, v ∈ r := by
  induction fuel generalizing rows min with
  | zero =>
    have hall : ¬ ∃ r ∈ rows, r ≠ [] := by
      rintro ⟨r, hr, hne⟩
      have h1 : r.length ≤ total rows := length_le_total hr
      have h2 : 0 < r.length := List.length_pos_iff.2 hne
      omega
    rw [← countP_isEmpty_lt] at hall
    refine ⟨[], by rw [mergeLoop, if_neg hall], List.Pairwise.nil, ?_⟩
    rw [countP_isEmpty_lt] at hall
    intro v
    constructor
    · simp
    · rintro ⟨r, hr, hv⟩
      exact absurd ⟨r, hr, List.ne_nil_of_mem hv⟩ hall
  | succ fuel ih =>
    by_cases hlt : rows.countP List.isEmpty < rows.length
    · have hex := (countP_isEmpty_lt rows).1 hlt
      have hfh := hmin hex
      obtain ⟨s1, s2, s3, s4⟩ := scanMin_spec min [] 0 rows
      set m := (scanMin min [] 0 rows).1 with hm
      set has := (scanMin min [] 0 rows).2 with hhas
      have hmex : ∃ r ∈ rows, r.head? = some m := by
        rcases s3 with h | h
        · rw [h]; exact firstHead_mem rows min hfh
        · exact h
      obtain ⟨a1, a2⟩ := advance_spec m has 0 rows (by
        intro i r hr
        rw [s4]
        simp only [List.not_mem_nil, and_false, false_or, Nat.zero_add]
        constructor
        · rintro ⟨j, r', h1, h2, rfl⟩
          rw [hr] at h1; simp at h1; subst h1; exact h2
        · intro h; exact ⟨i, r, hr, h, rfl⟩)
      have hmr : ∀ r ∈ rows, ∀ x ∈ r.head?, m ≤ x := s2
      have hs' : ∀ r ∈ rows.map (dropIf m), r.Pairwise (· < ·) := by
        intro r hr
        obtain ⟨r0, h0, rfl⟩ := List.mem_map.1 hr
        exact dropIf_pairwise (hs r0 h0)
      have hmin' : (∃ r ∈ rows.map (dropIf m), r ≠ []) →
          firstHead (rows.map (dropIf m)) = some ((firstHead (rows.map (dropIf m))).getD m) := by
        rintro ⟨r, hr, hne⟩
        rcases hfh' : firstHead (rows.map (dropIf m)) with _ | x
        · exact absurd ((firstHead_none _).1 hfh' r hr) hne
        · rfl
      obtain ⟨out, o1, o2, o3⟩ := ih (rows.map (dropIf m)) _ hs' hmin'
        (by have := total_dropIf_lt rows hmex; omega)
      refine ⟨m :: out, ?_, ?_, ?_⟩
      · rw [mergeLoop, if_pos hlt]
        simp only [← hm, ← hhas, a1]
        rw [← a2, o1]; rfl
      · rw [List.pairwise_cons]
        refine ⟨?_, o2⟩
        intro v hv
        obtain ⟨r, hr, hvr⟩ := (o3 v).1 hv
        obtain ⟨r0, h0, rfl⟩ := List.mem_map.1 hr
        exact ((mem_dropIf (hs r0 h0) (hmr r0 h0)).2 hvr).2
      · intro v
        rw [List.mem_cons, o3]
        constructor
        · rintro (rfl | ⟨r, hr, hv⟩)
          · obtain ⟨r, hr, hh⟩ := hmex
            exact ⟨r, hr, List.mem_of_mem_head? hh⟩
          · obtain ⟨r0, h0, rfl⟩ := List.mem_map.1 hr
            exact ⟨r0, h0, ((mem_dropIf (hs r0 h0) (hmr r0 h0)).2 hv).1⟩
        · rintro ⟨r, hr, hv⟩
          rcases (mem_dropIf (hs r hr) (hmr r hr)).1 hv with h | h
          · exact Or.inl h
          · exact Or.inr ⟨_, List.mem_map_of_mem hr, h⟩
    · refine ⟨[], by rw [mergeLoop, if_neg hlt], List.Pairwise.nil, ?_⟩
      rw [countP_isEmpty_lt] at hlt
      intro v
      constructor
      · simp
      · rintro ⟨r, hr, hv⟩
        exact absurd ⟨r, hr, List.ne_nil_of_mem hv⟩ hlt

/-- **C03 (k-way table merge).** Merging any table of strictly increasing rows terminates (after at most as many rounds
as there are entries) and yields the strictly increasing array of exactly the elements occurring in some row. -/
theorem mergeTable_correct (rows : List (List α)) (hs : ∀ r ∈ rows, r.Pairwise (· < ·))
    (fuel : ℕ) (hf : (rows.map List.length).sum ≤ fuel) :
    ∃ out, mergeTable fuel rows = some out ∧ out.Pairwise (· < ·) ∧ ∀ v, v ∈ out ↔ ∃ r ∈ rows, v ∈ r := by
  unfold mergeTable
  rcases h : firstHead rows with _ | x
  · refine ⟨[], rfl, List.Pairwise.nil, ?_⟩
    intro v
    constructor
    · simp
    · rintro ⟨r, hr, hv⟩
      rw [(firstHead_none rows).1 h r hr] at hv; simp at hv
  · exact mergeLoop_spec fuel rows x hs (fun _ => h) hf

example : mergeTable 10 [[1, 4], [], [2, 4, 9], ([1] : List ℕ)] = some [1, 2, 4, 9] := by decide

end NgsAMG.Traversal
