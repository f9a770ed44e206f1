import Verif.Model.Orders
import Mathlib.Order.RelClasses
import Mathlib.Data.List.Lex
import Mathlib.Tactic.SplitIfs
import Mathlib.Tactic.Order

/-! C07: comparison operators used for sorting. -/

namespace NgsAMG.Orders

variable {α : Type*} [LinearOrder α]

/-- a comparison usable for sorting with total keys: irreflexive, transitive, trichotomous -/
structure IsStrictTotal {β : Type*} (lt : β → β → Bool) : Prop where
  irrefl : ∀ a, lt a a = false
  trans : ∀ a b c, lt a b = true → lt b c = true → lt a c = true
  tri : ∀ a b, lt a b = true ∨ a = b ∨ lt b a = true

/-- the independent meaning of `lex_smaller`: shorter arrays first, equal lengths lexicographically: there is a first
position where they differ, and there `a` is smaller -/
def ShortLex (a b : List α) : Prop :=
  a.length < b.length ∨
  (a.length = b.length ∧ ∃ (i : ℕ) (x y : α), a[i]? = some x ∧ b[i]? = some y ∧ x < y ∧ ∀ j < i, a[j]? = b[j]?)

theorem lexScan_spec (a b : List α) (h : a.length = b.length) :
    (lexScan a b).getD false = true ↔
      ∃ (i : ℕ) (x y : α), a[i]? = some x ∧ b[i]? = some y ∧ x < y ∧ ∀ j < i, a[j]? = b[j]? := by
  induction a generalizing b with
  | nil =>
    have : b = [] := by simpa using h.symm
    subst this; simp [lexScan]
  | cons x xs ih =>
    rcases b with _ | ⟨y, ys⟩
    · simp at h
    · rw [lexScan]
      split_ifs with h1 h2
      · simp only [Option.getD_some, true_iff]
        exact ⟨0, x, y, rfl, rfl, h1, by simp⟩
      · simp only [Option.getD_some, Bool.false_eq_true, false_iff]
        rintro ⟨i, u, v, hu, hv, huv, hp⟩
        rcases i with _ | i
        · simp at hu hv; subst hu hv; exact h1 huv
        · have := hp 0 (by omega); simp at this; exact h2 this
      · have hxy : x = y := not_not.1 h2
        subst hxy
        rw [ih ys (by simpa using h)]
        constructor
        · rintro ⟨i, u, v, hu, hv, huv, hp⟩
          refine ⟨i + 1, u, v, by simpa using hu, by simpa using hv, huv, ?_⟩
          intro j hj
          rcases j with _ | j
          · rfl
          · simpa using hp j (by omega)
        · rintro ⟨i, u, v, hu, hv, huv, hp⟩
          rcases i with _ | i
          · simp at hu hv; subst hu hv; exact absurd huv (lt_irrefl _)
          · refine ⟨i, u, v, by simpa using hu, by simpa using hv, huv, ?_⟩
            intro j hj
            simpa using hp (j + 1) (by omega)

/-- **C07 (meaning).** `lex_smaller` decides the short-lex order. -/
theorem lexSmaller_iff (a b : List α) : lexSmaller a b = true ↔ ShortLex a b := by
  unfold lexSmaller ShortLex
  by_cases h : a.length = b.length
  · rw [if_pos h]
    have : decide (a.length < b.length) = false := by simp [h]
    rw [this, lexScan_spec a b h]
    simp [h]
  · simp [h]

theorem shortLex_trans {a b c : List α} (h1 : ShortLex a b) (h2 : ShortLex b c) : ShortLex a c := by
  unfold ShortLex at *
  rcases h1 with h1 | ⟨e1, i, x, y, hx, hy, hxy, hp⟩
  · rcases h2 with h2 | ⟨e2, -⟩ <;> left <;> omega
  · rcases h2 with h2 | ⟨e2, j, u, v, hu, hv, huv, hq⟩
    · left; omega
    · right
      refine ⟨e1.trans e2, ?_⟩
      rcases lt_trichotomy i j with hij | hij | hij
      · exact ⟨i, x, y, hx, (hq i hij) ▸ hy, hxy, fun k hk => (hp k hk).trans (hq k (hk.trans hij))⟩
      · subst hij
        rw [hy] at hu; simp at hu; subst hu
        exact ⟨i, x, v, hx, hv, hxy.trans huv, fun k hk => (hp k hk).trans (hq k hk)⟩
      · exact ⟨j, u, v, (hp j hij).trans hu, hv, huv, fun k hk => (hp k (hk.trans hij)).trans (hq k hk)⟩

theorem shortLex_tri (a b : List α) : ShortLex a b ∨ a = b ∨ ShortLex b a := by
  rcases lt_trichotomy a.length b.length with h | h | h
  · exact Or.inl (Or.inl h)
  · have key : (∃ (i : ℕ) (x y : α), a[i]? = some x ∧ b[i]? = some y ∧ x < y ∧ ∀ j < i, a[j]? = b[j]?) ∨ a = b ∨
        (∃ (i : ℕ) (x y : α), b[i]? = some x ∧ a[i]? = some y ∧ x < y ∧ ∀ j < i, b[j]? = a[j]?) := by
      induction a generalizing b with
      | nil =>
        have : b = [] := by simpa using h.symm
        exact Or.inr (Or.inl this.symm)
      | cons x xs ih =>
        rcases b with _ | ⟨y, ys⟩
        · simp at h
        · have lift : ∀ (as bs : List α) (z : α),
              (∃ (i : ℕ) (x y : α), as[i]? = some x ∧ bs[i]? = some y ∧ x < y ∧ ∀ j < i, as[j]? = bs[j]?) →
              (∃ (i : ℕ) (x y : α), (z :: as)[i]? = some x ∧ (z :: bs)[i]? = some y ∧ x < y ∧
                ∀ j < i, (z :: as)[j]? = (z :: bs)[j]?) := by
            rintro as bs z ⟨i, u, v, hu, hv, huv, hp⟩
            refine ⟨i + 1, u, v, by simpa using hu, by simpa using hv, huv, ?_⟩
            intro j hj
            rcases j with _ | j
            · rfl
            · simpa using hp j (by omega)
          rcases lt_trichotomy x y with hxy | hxy | hxy
          · exact Or.inl ⟨0, x, y, rfl, rfl, hxy, by simp⟩
          · subst hxy
            rcases ih ys (by simpa using h) with h1 | h1 | h1
            · exact Or.inl (lift _ _ _ h1)
            · exact Or.inr (Or.inl (by rw [h1]))
            · exact Or.inr (Or.inr (lift _ _ _ h1))
          · exact Or.inr (Or.inr ⟨0, y, x, rfl, rfl, hxy, by simp⟩)
    rcases key with k | k | k
    · exact Or.inl (Or.inr ⟨h, k⟩)
    · exact Or.inr (Or.inl k)
    · exact Or.inr (Or.inr (Or.inr ⟨h.symm, k⟩))
  · exact Or.inr (Or.inr (Or.inl h))

theorem shortLex_irrefl (a : List α) : ¬ ShortLex a a := by
  rintro (h | ⟨-, i, x, y, hx, hy, hxy, -⟩)
  · omega
  · rw [hx] at hy; simp at hy; subst hy; exact lt_irrefl _ hxy

/-- **C07 (arrays).** `lex_smaller` is a strict total order on arrays. -/
theorem lexSmaller_strictTotal : IsStrictTotal (lexSmaller (α := α)) where
  irrefl a := by
    have := shortLex_irrefl a
    rw [← lexSmaller_iff] at this
    simpa using this
  trans a b c h1 h2 := by
    rw [lexSmaller_iff] at *; exact shortLex_trans h1 h2
  tri a b := by
    rw [lexSmaller_iff, lexSmaller_iff]; exact shortLex_tri a b

/-- **C07 (pairs).** -/
theorem lt2_strictTotal : IsStrictTotal (lt2 (α := α)) where
  irrefl a := by simp [lt2]
  trans a b c h1 h2 := by
    unfold lt2 at *
    split_ifs at * <;> first | rfl | (simp only [decide_eq_true_eq] at *; order) | simp_all
  tri a b := by
    unfold lt2
    obtain ⟨a1, a2⟩ := a; obtain ⟨b1, b2⟩ := b
    rcases lt_trichotomy a1 b1 with h | h | h
    · left; simp [h]
    · subst h
      rcases lt_trichotomy a2 b2 with h | h | h
      · left; simp [h]
      · subst h; simp
      · right; right; simp [h]
    · right; right; simp [h]

theorem lt3_eq (a b : α × α × α) : lt3 a b = true ↔
    a.1 < b.1 ∨ (a.1 = b.1 ∧ (a.2.1 < b.2.1 ∨ (a.2.1 = b.2.1 ∧ a.2.2 < b.2.2))) := by
  obtain ⟨a1, a2, a3⟩ := a; obtain ⟨b1, b2, b3⟩ := b
  unfold lt3
  rcases lt_trichotomy a1 b1 with h | h | h
  · simp [h]
  · subst h
    rcases lt_trichotomy a2 b2 with h | h | h
    · simp [h]
    · subst h; simp
    · simp [h, h.not_gt, h.ne']
  · simp [h, h.not_gt, h.ne']

/-- **C07 (triples).** -/
theorem lt3_strictTotal : IsStrictTotal (lt3 (α := α)) where
  irrefl a := by simp [lt3]
  trans a b c h1 h2 := by
    rw [lt3_eq] at *
    rcases h1 with h1 | ⟨h1, h1' | ⟨h1', h1''⟩⟩ <;> rcases h2 with h2 | ⟨h2, h2' | ⟨h2', h2''⟩⟩
    · left; order
    · left; order
    · left; order
    · left; order
    · right; exact ⟨h1.trans h2, Or.inl (by order)⟩
    · right; exact ⟨h1.trans h2, Or.inl (by order)⟩
    · left; order
    · right; exact ⟨h1.trans h2, Or.inl (by order)⟩
    · right; exact ⟨h1.trans h2, Or.inr ⟨h1'.trans h2', by order⟩⟩
  tri a b := by
    rw [lt3_eq, lt3_eq]
    obtain ⟨a1, a2, a3⟩ := a; obtain ⟨b1, b2, b3⟩ := b
    rcases lt_trichotomy a1 b1 with h | h | h
    · left; left; exact h
    · subst h
      rcases lt_trichotomy a2 b2 with h | h | h
      · left; right; exact ⟨rfl, Or.inl h⟩
      · subst h
        rcases lt_trichotomy a3 b3 with h | h | h
        · left; right; exact ⟨rfl, Or.inr ⟨rfl, h⟩⟩
        · subst h; right; left; rfl
        · right; right; right; exact ⟨rfl, Or.inr ⟨rfl, h⟩⟩
      · right; right; right; exact ⟨rfl, Or.inl h⟩
    · right; right; left; exact h

/-- **C07 (quadruples) fails.** The operator takes a triple on the right, and if the first three entries agree it reads
behind the end of it. -/
theorem lt4_undefined (x y z w : α) : lt4 (x, y, z, w) (x, y, z) = none := by simp [lt4]

/-- **C07 (quintuples) fails.** The operator for 5-tuples is not antisymmetric: two different keys are each smaller than
the other. So it is no strict weak order. -/
theorem lt5_not_antisymm : ∃ a b : ℕ × ℕ × ℕ × ℕ × ℕ, lt5 a b = true ∧ lt5 b a = true :=
  ⟨(0, 0, 0, 0, 1), (0, 0, 0, 1, 0), by decide, by decide⟩

/-- hence it violates the requirement of C07 -/
theorem lt5_not_strictTotal : ¬ IsStrictTotal (lt5 (α := ℕ)) := by
  intro h
  obtain ⟨a, b, h1, h2⟩ := lt5_not_antisymm
  have := h.trans a b a h1 h2
  rw [h.irrefl a] at this
  exact absurd this (by decide)

/-- **C07 (quintuples), partial.** The 5-tuple operator is a correct lexicographic comparison for keys that differ in
one of the first three entries. -/
theorem lt5_partial (a b : α × α × α × α × α)
    (h : (a.1, a.2.1, a.2.2.1) ≠ (b.1, b.2.1, b.2.2.1)) :
    lt5 a b = lt3 (a.1, a.2.1, a.2.2.1) (b.1, b.2.1, b.2.2.1) := by
  obtain ⟨a1, a2, a3, a4, a5⟩ := a; obtain ⟨b1, b2, b3, b4, b5⟩ := b
  simp only [ne_eq, Prod.mk.injEq, not_and] at h
  unfold lt5 lt3
  simp only
  split_ifs with h1 h2 h3 h4 h5 h6 <;> first | rfl | simp_all
  all_goals exact absurd (le_antisymm (by assumption) (by assumption)) (h (by order) (by order))

example : lexSmaller [5, 1] ([1, 2, 0] : List ℕ) = true ∧ lexSmaller [1, 2, 3] ([1, 3, 0] : List ℕ) = true := by decide

end NgsAMG.Orders
