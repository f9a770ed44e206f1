import Verif.Model.FacetAux
import Verif.Spec.Relevant
import Mathlib.Order.Nat
import Mathlib.Data.Nat.Count
import Mathlib.Tactic.Ring

/-! `markToSubsetMappings` gives consecutive numbers -/

namespace NgsAMG.FAux

theorem countMarks_eq (a : ℕ → ℤ) (n : ℕ) : countMarks a n = Nat.count (fun j => a j ≠ 0) n := by
  unfold countMarks
  induction n with
  | zero => simp
  | succ n ih =>
    rw [List.range_succ, List.foldl_append, ih, Nat.count_succ]
    simp only [List.foldl_cons, List.foldl_nil]
    split_ifs <;> rfl

/-- state after the indices below `i` -/
structure MarkInv (a : ℕ → ℤ) (i : ℕ) (s : SubMap) : Prop where
  n : s.n = Nat.count (fun j => a j ≠ 0) i
  later : ∀ j, i ≤ j → s.a2r j = a j
  yes : ∀ j < i, a j ≠ 0 → s.a2r j = Nat.count (fun j => a j ≠ 0) j ∧ s.r2a (Nat.count (fun j => a j ≠ 0) j) = j
  no : ∀ j < i, a j = 0 → s.a2r j = -1
  all : ∀ k < s.n, ∃ j < i, a j ≠ 0 ∧ Nat.count (fun j => a j ≠ 0) j = k

theorem MarkInv.step {a : ℕ → ℤ} {i n : ℕ} {s : SubMap} (h : MarkInv a i s) (hi : i < n) :
    ∃ s', SubMap.step (countMarks a n) s i = some s' ∧ MarkInv a (i + 1) s' := by
  unfold SubMap.step
  rw [h.later i le_rfl, countMarks_eq]
  by_cases ha : a i ≠ 0
  · have hlt : s.n < Nat.count (fun j => a j ≠ 0) n := by
      rw [h.n]
      exact Nat.count_strict_mono (p := fun j => a j ≠ 0) ha hi
    rw [if_pos ha, if_pos hlt]
    refine ⟨_, rfl, ?_, ?_, ?_, ?_, ?_⟩
    · rw [Nat.count_succ, if_pos ha, h.n]
    · intro j hj
      show Function.update s.a2r i _ j = _
      rw [Function.update_of_ne (by omega)]
      exact h.later j (by omega)
    · intro j hj hja
      show Function.update s.a2r i _ j = _ ∧ Function.update s.r2a s.n i _ = j
      by_cases hji : j = i
      · subst hji
        rw [Function.update_self, h.n, Function.update_self]
        exact ⟨rfl, rfl⟩
      · have hj' : j < i := by omega
        rw [Function.update_of_ne hji, Function.update_of_ne]
        · exact h.yes j hj' hja
        · rw [h.n]
          exact (Nat.count_strict_mono (p := fun j => a j ≠ 0) hja hj').ne
    · intro j hj hja
      show Function.update s.a2r i _ j = _
      have hji : j ≠ i := fun hh => ha (hh ▸ hja)
      rw [Function.update_of_ne hji]
      exact h.no j (by omega) hja
    · intro k hk
      have hk' : k < s.n + 1 := hk
      rcases Nat.lt_succ_iff_lt_or_eq.1 hk' with hk2 | hk2
      · obtain ⟨j, hj, h1, h2⟩ := h.all k hk2
        exact ⟨j, by omega, h1, h2⟩
      · exact ⟨i, by omega, ha, by rw [hk2, h.n]⟩
  · rw [if_neg ha]
    push Not at ha
    refine ⟨_, rfl, ?_, ?_, ?_, ?_, ?_⟩
    · rw [Nat.count_succ, if_neg (by simpa using ha), h.n, Nat.add_zero]
    · intro j hj
      show Function.update s.a2r i _ j = _
      rw [Function.update_of_ne (by omega)]
      exact h.later j (by omega)
    · intro j hj hja
      have hji : j ≠ i := fun hh => hja (hh ▸ ha)
      show Function.update s.a2r i _ j = _ ∧ _
      rw [Function.update_of_ne hji]
      exact h.yes j (by omega) hja
    · intro j hj hja
      show Function.update s.a2r i _ j = _
      by_cases hji : j = i
      · rw [hji, Function.update_self]
      · rw [Function.update_of_ne hji]
        exact h.no j (by omega) hja
    · intro k hk
      obtain ⟨j, hj, h1, h2⟩ := h.all k hk
      exact ⟨j, by omega, h1, h2⟩

theorem markToSubset_inv (a : ℕ → ℤ) (n : ℕ) : ∃ s, markToSubset a n = some s ∧ MarkInv a n s := by
  unfold markToSubset
  have key : ∀ i ≤ n, ∃ s, (List.range i).foldlM (SubMap.step (countMarks a n)) ⟨a, 0, fun _ => 0⟩ = some s ∧ MarkInv a i s := by
    intro i
    induction i with
    | zero =>
      intro _
      refine ⟨_, rfl, ?_, fun _ _ => rfl, ?_, ?_, ?_⟩ <;> simp
    | succ i ih =>
      intro hi
      obtain ⟨s, hs, hinv⟩ := ih (by omega)
      obtain ⟨s', hs', hinv'⟩ := hinv.step (n := n) (by omega)
      refine ⟨s', ?_, hinv'⟩
      rw [List.range_succ, List.foldlM_append, hs]
      simp [hs']
  exact key n le_rfl

theorem markToSubset_numbering (a : ℕ → ℤ) (n : ℕ) (P : ℕ → Prop) (hP : ∀ j < n, a j ≠ 0 ↔ P j) :
    ∃ s, markToSubset a n = some s ∧ IsNumbering n P s.n s.a2r s.r2a ∧ s.n ≤ n := by
  obtain ⟨s, hs, h⟩ := markToSubset_inv a n
  have hr : ∀ k < s.n, ∃ j < n, a j ≠ 0 ∧ Nat.count (fun j => a j ≠ 0) j = k ∧ s.r2a k = j := by
    intro k hk
    obtain ⟨j, hj, h1, h2⟩ := h.all k hk
    exact ⟨j, hj, h1, h2, by rw [← h2]; exact (h.yes j hj h1).2⟩
  refine ⟨s, hs, ⟨?_, ?_, ?_, ?_⟩, ?_⟩
  · intro k hk
    obtain ⟨j, hj, h1, _, h3⟩ := hr k hk
    rw [h3]
    exact ⟨hj, (hP j hj).1 h1⟩
  · intro i j hij hj
    obtain ⟨x, hx, hx1, hx2, hx3⟩ := hr i (by omega)
    obtain ⟨y, hy, hy1, hy2, hy3⟩ := hr j hj
    rw [hx3, hy3]
    by_contra hc
    have := Nat.count_monotone (fun j => a j ≠ 0) (show y ≤ x by omega)
    omega
  · intro j hj hp
    have ha := (hP j hj).2 hp
    obtain ⟨h1, h2⟩ := h.yes j hj ha
    refine ⟨_, ?_, h2, h1⟩
    rw [h.n]
    exact Nat.count_strict_mono (p := fun j => a j ≠ 0) ha hj
  · intro j hj hp
    refine h.no j hj ?_
    by_contra hc
    exact hp ((hP j hj).1 hc)
  · rw [h.n]
    exact Nat.count_le _

end NgsAMG.FAux
