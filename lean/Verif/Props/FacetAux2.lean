import Verif.Props.FacetAux1
import Mathlib.Data.Finset.Card
import Mathlib.Data.List.Perm.Basic
import Mathlib.Tactic.Ring

/-! marks and the reduction -/

namespace NgsAMG.FAux

theorem foldl_update_one {V : Type} (v : V) (l : List ℕ) (a : ℕ → V) (k : ℕ) :
    l.foldl (fun a k => Function.update a k v) a k = if k ∈ l then v else a k := by
  induction l generalizing a with
  | nil => simp
  | cons x l ih =>
    rw [List.foldl_cons, ih]
    by_cases hk : k ∈ l
    · simp [hk]
    · by_cases hx : k = x
      · subst hx
        simp [hk]
      · simp [hk, hx]

theorem setBits_eq (l : List ℕ) (k : ℕ) : setBits l k = decide (k ∈ l) := by
  unfold setBits
  rw [foldl_update_one]
  by_cases h : k ∈ l <;> simp [h]

theorem updateBits_eq (m : ℕ) (b : ℕ → Bool) (k : ℕ) : updateBits m b k = (decide (k < m) || b k) := by
  unfold updateBits
  rw [foldl_update_one]
  by_cases h : k < m <;> simp [h]

theorem mem_facetOps (m : PMesh) (k : ℕ) :
    k ∈ m.facetOps ↔ ∃ e < m.nEl, m.defined e = true ∧ k ∈ m.elFacets e := by
  unfold PMesh.facetOps
  rw [List.mem_flatMap]
  constructor
  · rintro ⟨e, he, hk⟩
    by_cases hd : m.defined e = true
    · rw [if_pos hd] at hk
      exact ⟨e, List.mem_range.1 he, hd, hk⟩
    · rw [if_neg hd] at hk
      simp at hk
  · rintro ⟨e, he, hd, hk⟩
    exact ⟨e, List.mem_range.2 he, by rw [if_pos hd]; exact hk⟩

theorem mark_fold (m : PMesh) (l : List ℕ) (s : (ℕ → ℤ) × (ℕ → ℤ)) (k : ℕ) :
    ((l.foldl m.markStep s).1 k ≠ 0 ↔ (s.1 k ≠ 0 ∨ (k ∈ l ∧ m.defined k = true))) ∧
      ((l.foldl m.markStep s).2 k ≠ 0 ↔ (s.2 k ≠ 0 ∨ ∃ e ∈ l, m.defined e = true ∧ k ∈ m.elPsns e)) := by
  induction l generalizing s with
  | nil => simp
  | cons x l ih =>
    rw [List.foldl_cons]
    obtain ⟨h1, h2⟩ := ih (m.markStep s x)
    rw [h1, h2]
    unfold PMesh.markStep
    by_cases hx : m.defined x = true
    · rw [if_pos hx]
      constructor
      · by_cases hkx : k = x
        · subst hkx
          simp [hx]
        · simp [hkx]
      · show ((m.elPsns x).foldl (fun a k => Function.update a k 1) s.2) k ≠ 0 ∨ _ ↔ _
        rw [foldl_update_one]
        by_cases hk : k ∈ m.elPsns x
        · simp [hk, hx]
        · simp [hk]
    · rw [if_neg hx]
      constructor
      · by_cases hkx : k = x
        · subst hkx
          simp [hx]
        · simp [hkx]
      · simp [hx]

theorem mark_el (m : PMesh) (k : ℕ) : m.mark.1 k ≠ 0 ↔ k < m.nEl ∧ m.defined k = true := by
  unfold PMesh.mark
  rw [(mark_fold m _ _ k).1]
  simp

theorem mark_psn (m : PMesh) (k : ℕ) : m.mark.2 k ≠ 0 ↔ ∃ e < m.nEl, m.defined e = true ∧ k ∈ m.elPsns e := by
  unfold PMesh.mark
  rw [(mark_fold m _ _ k).2]
  simp

theorem reduceLor_ne (np : ℕ) (n : ℕ → ℕ) (name : ℕ → ℕ → ℕ) (data : ℕ → ℕ → ℤ) (p k : ℕ) :
    reduceLor np n name data p k ≠ 0 ↔ ∃ q < np, ∃ j < n q, name q j = name p k ∧ data q j ≠ 0 := by
  unfold reduceLor
  split_ifs with h
  · simp only [List.any_eq_true, List.mem_range, Bool.and_eq_true, beq_iff_eq, bne_iff_ne] at h
    simpa using h
  · simp only [List.any_eq_true, List.mem_range, Bool.and_eq_true, beq_iff_eq, bne_iff_ne] at h
    simpa using h

/-- the node `k` of process `p` is a node of an element of some process the space is defined on -/
def Touches (np : ℕ) (M : ℕ → PMesh) (name : ℕ → ℕ → ℕ) (sel : PMesh → ℕ → List ℕ) (p k : ℕ) : Prop :=
  ∃ q < np, ∃ e < (M q).nEl, (M q).defined e = true ∧ ∃ j ∈ sel (M q) e, name q j = name p k

end NgsAMG.FAux
