import Verif.Model.Permutation
import Mathlib.Data.Fintype.Card
import Mathlib.Data.List.FinRange
import Mathlib.Logic.Equiv.Defs
import Mathlib.Data.Fin.VecNotation

/-! C06: permutations are applied exactly. A permutation is given by its `int` array `k ↦ σ k`. -/

namespace NgsAMG.Permutation

variable {T : Type*} {n : ℕ}

/-- the `int` array of a permutation -/
def asInts (σ : Equiv.Perm (Fin n)) : Fin n → ℤ := fun k => ((σ k : Fin n) : ℕ)

theorem idx_ofFin (k : Fin n) : idx n ((k : ℕ) : ℤ) = some k := by
  unfold idx; rw [dif_pos]
  · rfl
  · simp [k.2]

/-- state inside of the walk: `S` finished positions, the walk started in `i` and is at `check` -/
structure WalkInv (mark : ℤ → ℤ) (σ : Equiv.Perm (Fin n)) (a0 : Fin n → T) (i : Fin n) (S : Finset (Fin n))
    (a : Fin n → T) (perm : Fin n → ℤ) (check : Fin n) : Prop where
  hck : check ∉ S
  pre : ∀ k, (σ k ∈ S ∨ σ k = check) → σ k ≠ i → k ∈ S
  permS : ∀ k ∈ S, perm k = mark (asInts σ k)
  permN : ∀ k, k ∉ S → perm k = asInts σ k
  aS : ∀ k ∈ S, a k = a0 (σ k)
  aC : a check = a0 i
  aN : ∀ k, k ∉ S → k ≠ check → a k = a0 k

/-- state between walks -/
structure OuterInv (mark : ℤ → ℤ) (σ : Equiv.Perm (Fin n)) (a0 : Fin n → T) (S : Finset (Fin n))
    (a : Fin n → T) (perm : Fin n → ℤ) : Prop where
  pre : ∀ k, σ k ∈ S → k ∈ S
  permS : ∀ k ∈ S, perm k = mark (asInts σ k)
  permN : ∀ k, k ∉ S → perm k = asInts σ k
  aS : ∀ k ∈ S, a k = a0 (σ k)
  aN : ∀ k, k ∉ S → a k = a0 k

theorem walk_spec (mark : ℤ → ℤ) (σ : Equiv.Perm (Fin n)) (a0 : Fin n → T) (i : Fin n) (fuel : ℕ)
    (S : Finset (Fin n)) (a : Fin n → T) (perm : Fin n → ℤ) (check : Fin n)
    (h : WalkInv mark σ a0 i S a perm check) (hf : Fintype.card (Fin n) ≤ fuel + S.card + 1) :
    ∃ S' a' perm', walk mark i fuel a perm check = some (a', perm') ∧ S ⊆ S' ∧ check ∈ S' ∧
      OuterInv mark σ a0 S' a' perm' ∧ (i ∈ S ∨ i = check → i ∈ S') := by
  induction fuel generalizing S a perm check with
  | zero =>
    have hp : perm check = ((σ check : Fin n) : ℕ) := h.permN check h.hck
    have hins : insert check S = Finset.univ := by
      apply Finset.eq_univ_of_card
      rw [Finset.card_insert_of_notMem h.hck]
      have := Finset.card_le_univ (insert check S)
      rw [Finset.card_insert_of_notMem h.hck] at this
      omega
    have hσ : σ check = i := by
      by_contra hne
      have hm : σ check ∈ insert check S := by rw [hins]; exact Finset.mem_univ _
      rw [Finset.mem_insert] at hm
      exact h.hck (h.pre check hm.symm hne)
    refine ⟨insert check S, a, Function.update perm check (mark (perm check)), ?_, Finset.subset_insert _ _, Finset.mem_insert_self _ _, ?_, ?_⟩
    · rw [walk, if_pos (by rw [hp, hσ])]
    · refine ⟨?_, ?_, ?_, ?_, ?_⟩
      · intro k _; rw [hins]; exact Finset.mem_univ _
      · intro k hk
        by_cases hkc : k = check
        · subst hkc; simp [hp, asInts]
        · rw [Function.update_of_ne hkc]
          exact h.permS k (Finset.mem_of_mem_insert_of_ne hk hkc)
      · intro k hk; exact absurd (by rw [hins]; exact Finset.mem_univ _) hk
      · intro k hk
        by_cases hkc : k = check
        · subst hkc; rw [h.aC, hσ]
        · exact h.aS k (Finset.mem_of_mem_insert_of_ne hk hkc)
      · intro k hk; exact absurd (by rw [hins]; exact Finset.mem_univ _) hk
    · intro _; rw [hins]; exact Finset.mem_univ _
  | succ fuel ih =>
    have hp : perm check = ((σ check : Fin n) : ℕ) := h.permN check h.hck
    by_cases hσ : σ check = i
    · refine ⟨insert check S, a, Function.update perm check (mark (perm check)), ?_, Finset.subset_insert _ _, Finset.mem_insert_self _ _, ?_, ?_⟩
      · rw [walk, if_pos (by rw [hp, hσ])]
      · refine ⟨?_, ?_, ?_, ?_, ?_⟩
        · intro k hk
          rw [Finset.mem_insert] at hk ⊢
          by_cases hki : σ k = i
          · left; exact σ.injective (hki.trans hσ.symm)
          · right; exact h.pre k hk.symm hki
        · intro k hk
          by_cases hkc : k = check
          · subst hkc; simp [hp, asInts]
          · rw [Function.update_of_ne hkc]
            exact h.permS k (Finset.mem_of_mem_insert_of_ne hk hkc)
        · intro k hk
          rw [Finset.mem_insert, not_or] at hk
          rw [Function.update_of_ne hk.1]; exact h.permN k hk.2
        · intro k hk
          by_cases hkc : k = check
          · subst hkc; rw [h.aC, hσ]
          · exact h.aS k (Finset.mem_of_mem_insert_of_ne hk hkc)
        · intro k hk
          rw [Finset.mem_insert, not_or] at hk
          exact h.aN k hk.2 hk.1
      · intro hi; rw [Finset.mem_insert]; exact hi.symm
    · have hfS : σ check ∉ S := fun hm => h.hck (h.pre check (Or.inl hm) hσ)
      have hfc : σ check ≠ check := fun hm => h.hck (h.pre check (Or.inr hm) hσ)
      have hinv : WalkInv mark σ a0 i (insert check S) (swap a check (σ check))
          (Function.update perm check (mark (perm check))) (σ check) := by
        refine ⟨?_, ?_, ?_, ?_, ?_, ?_, ?_⟩
        · rw [Finset.mem_insert, not_or]; exact ⟨hfc, hfS⟩
        · intro k hk hki
          rw [Finset.mem_insert]
          rcases hk with hk | hk
          · rw [Finset.mem_insert] at hk
            right; exact h.pre k hk.symm hki
          · left; exact σ.injective hk
        · intro k hk
          by_cases hkc : k = check
          · subst hkc; simp [hp, asInts]
          · rw [Function.update_of_ne hkc]
            exact h.permS k (Finset.mem_of_mem_insert_of_ne hk hkc)
        · intro k hk
          rw [Finset.mem_insert, not_or] at hk
          rw [Function.update_of_ne hk.1]; exact h.permN k hk.2
        · intro k hk
          by_cases hkc : k = check
          · subst hkc
            unfold swap
            rw [Function.update_of_ne (Ne.symm hfc), Function.update_self]
            exact h.aN _ hfS hfc
          · have hkS := Finset.mem_of_mem_insert_of_ne hk hkc
            have hkf : k ≠ σ check := fun he => hfS (he ▸ hkS)
            unfold swap
            rw [Function.update_of_ne hkf, Function.update_of_ne hkc]
            exact h.aS k hkS
        · unfold swap; rw [Function.update_self]; exact h.aC
        · intro k hk hkf
          rw [Finset.mem_insert, not_or] at hk
          unfold swap
          rw [Function.update_of_ne hkf, Function.update_of_ne hk.1]
          exact h.aN k hk.2 hk.1
      obtain ⟨S', a', perm', h1, h2, h3, h4, h5⟩ := ih (insert check S) _ _ _ hinv (by
        rw [Finset.card_insert_of_notMem h.hck]; omega)
      refine ⟨S', a', perm', ?_, (Finset.subset_insert _ _).trans h2, h2 (Finset.mem_insert_self _ _), h4, ?_⟩
      · rw [walk, if_neg]
        · have hidx : idx n (perm check) = some (σ check) := by rw [hp]; exact idx_ofFin _
          simp only [hidx]
          exact h1
        · rw [hp]
          intro hc
          apply hσ
          apply Fin.ext
          exact_mod_cast hc
      · intro hi
        rcases hi with hi | hi
        · exact h2 (Finset.mem_insert_of_mem hi)
        · exact h2 (hi ▸ Finset.mem_insert_self _ _)

theorem outer_spec (mark : ℤ → ℤ) (skip : ℤ → Bool) (σ : Equiv.Perm (Fin n)) (a0 : Fin n → T) (fuel : ℕ)
    (hskN : ∀ k : Fin n, skip ((k : ℕ) : ℤ) = false) (hskS : ∀ k : Fin n, skip (mark ((k : ℕ) : ℤ)) = true)
    (hf : n ≤ fuel + 1) (is : List (Fin n)) (S : Finset (Fin n)) (a : Fin n → T) (perm : Fin n → ℤ)
    (h : OuterInv mark σ a0 S a perm) :
    ∃ S' a' perm', outer mark skip fuel is a perm = some (a', perm') ∧ S ⊆ S' ∧ (∀ i ∈ is, i ∈ S') ∧
      OuterInv mark σ a0 S' a' perm' := by
  induction is generalizing S a perm with
  | nil => exact ⟨S, a, perm, rfl, Finset.Subset.refl _, by simp, h⟩
  | cons i is ih =>
    by_cases hi : i ∈ S
    · obtain ⟨S', a', perm', h1, h2, h3, h4⟩ := ih S a perm h
      refine ⟨S', a', perm', ?_, h2, ?_, h4⟩
      · rw [outer, if_pos, h1]
        rw [h.permS i hi]; exact hskS _
      · intro j hj
        rcases List.mem_cons.1 hj with rfl | hj
        · exact h2 hi
        · exact h3 j hj
    · have hinv : WalkInv mark σ a0 i S a perm i := by
        refine ⟨hi, ?_, h.permS, h.permN, h.aS, h.aN i hi, fun k hk _ => h.aN k hk⟩
        intro k hk hki
        rcases hk with hk | hk
        · exact h.pre k hk
        · exact absurd hk hki
      obtain ⟨S1, a1, perm1, w1, w2, w3, w4, -⟩ := walk_spec mark σ a0 i fuel S a perm i hinv
        (by rw [Fintype.card_fin]; omega)
      obtain ⟨S', a', perm', h1, h2, h3, h4⟩ := ih S1 a1 perm1 w4
      refine ⟨S', a', perm', ?_, w2.trans h2, ?_, h4⟩
      · rw [outer, if_neg]
        · simp only [w1]; exact h1
        · rw [h.permN i hi]; simp [asInts, hskN]
      · intro j hj
        rcases List.mem_cons.1 hj with rfl | hj
        · exact h2 w3
        · exact h3 j hj

theorem outer_all (mark : ℤ → ℤ) (skip : ℤ → Bool) (σ : Equiv.Perm (Fin n)) (a0 : Fin n → T) (fuel : ℕ)
    (hskN : ∀ k : Fin n, skip ((k : ℕ) : ℤ) = false) (hskS : ∀ k : Fin n, skip (mark ((k : ℕ) : ℤ)) = true)
    (hf : n ≤ fuel + 1) :
    outer mark skip fuel (List.finRange n) a0 (asInts σ) =
      some (fun k => a0 (σ k), fun k => mark (asInts σ k)) := by
  obtain ⟨S', a', perm', h1, -, h3, h4⟩ := outer_spec mark skip σ a0 fuel hskN hskS hf (List.finRange n) ∅ a0
    (asInts σ) ⟨by simp, by simp, by simp, by simp, by simp⟩
  rw [h1]
  congr 2
  · funext k; exact h4.aS k (h3 k (List.mem_finRange k))
  · funext k; exact h4.permS k (h3 k (List.mem_finRange k))

/-- **C06 (in place).** For each permutation the in-place variant terminates without undefined behaviour and yields
`new[k] = old[perm[k]]`; the permutation array is destroyed (all entries `-1`). -/
theorem applyInPlace_correct (σ : Equiv.Perm (Fin n)) (a : Fin n → T) (fuel : ℕ) (hf : n ≤ fuel + 1) :
    applyInPlace fuel a (asInts σ) = some (fun k => a (σ k), fun _ => -1) := by
  unfold applyInPlace
  exact outer_all _ _ σ a fuel (by intro k; simp) (by simp) hf

/-- **C06 (in place, keeping).** Additionally the permutation array is the same as before. -/
theorem applyAndKeep_correct (σ : Equiv.Perm (Fin n)) (a : Fin n → T) (fuel : ℕ) (hf : n ≤ fuel + 1) :
    applyAndKeep fuel a (asInts σ) = some (fun k => a (σ k), asInts σ) := by
  unfold applyAndKeep
  rw [outer_all _ _ σ a fuel (by intro k; simp) (by intro k; simp; omega) hf]
  simp only [Option.map_some]
  congr 2
  funext k; omega

/-- **C06 (buffered).** -/
theorem applyBuffered_correct (σ : Equiv.Perm (Fin n)) (a buffer : Fin n → T) :
    applyBuffered a (asInts σ) buffer = some (fun k => a (σ k)) := by
  unfold applyBuffered
  have h : ∀ k, idx n (asInts σ k) = some (σ k) := fun k => idx_ofFin (σ k)
  rw [dif_pos (by intro k; rw [h k]; rfl)]
  congr 1
  funext k
  simp [h k]

theorem invert_spec (σ : Equiv.Perm (Fin n)) (ls : List (Fin n)) (inv : Fin n → ℤ) (hnd : ls.Nodup) :
    ∃ r, invert ls (asInts σ) inv = some r ∧ (∀ l ∈ ls, r (σ l) = (l : ℕ)) ∧ (∀ l, l ∉ ls → r (σ l) = inv (σ l)) := by
  induction ls generalizing inv with
  | nil => exact ⟨inv, rfl, by simp, by simp⟩
  | cons l ls ih =>
    rw [List.nodup_cons] at hnd
    obtain ⟨r, h1, h2, h3⟩ := ih (Function.update inv (σ l) (l : ℕ)) hnd.2
    refine ⟨r, ?_, ?_, ?_⟩
    · rw [invert]
      have : idx n (asInts σ l) = some (σ l) := idx_ofFin _
      simp only [this, h1]
    · intro k hk
      rcases List.mem_cons.1 hk with rfl | hk
      · rw [h3 k hnd.1, Function.update_self]
      · exact h2 k hk
    · intro k hk
      rw [List.mem_cons, not_or] at hk
      rw [h3 k hk.2, Function.update_of_ne]
      intro he; exact hk.1 (σ.injective he)

/-- **C06 (inversion).** Whatever the output array held before, afterwards `inv[perm[k]] = k`, i.e. it is the
array of the inverse permutation. -/
theorem invertPermutation_correct (σ : Equiv.Perm (Fin n)) (inv : Fin n → ℤ) :
    invertPermutation (asInts σ) inv = some (asInts σ.symm) := by
  obtain ⟨r, h1, h2, -⟩ := invert_spec σ (List.finRange n) inv (List.nodup_finRange n)
  unfold invertPermutation
  rw [h1]
  congr 1
  funext k
  have := h2 (σ.symm k) (List.mem_finRange _)
  rw [Equiv.apply_symm_apply] at this
  rw [this]; rfl

/-- non-trivial instance: a 3-cycle together with a fixed point -/
example : applyInPlace 4 (![10, 11, 12, 13] : Fin 4 → ℕ) ![2, 1, 3, 0] =
    some (![12, 11, 13, 10], fun _ => -1) := by decide +kernel

/-- a non-permutation (a repeated entry) is not covered: the walk does not come back to its start -/
theorem applyInPlace_needs_perm : applyInPlace 10 (![10, 11] : Fin 2 → ℕ) ![1, 1] = none := by decide +kernel

end NgsAMG.Permutation
