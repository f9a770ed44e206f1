import Mathlib.Data.Set.Card

/-!
# Specification: consecutive numbers for the elements of a subset

`IsNumbering n P m a2r r2a`: the indices below `n` with `P` have the numbers `0, …, m-1` in increasing order; `r2a` gives the index of a number, `a2r`
the number of an index, and `-1` if the index is not in the subset.
-/

namespace NgsAMG.FAux

structure IsNumbering (n : ℕ) (P : ℕ → Prop) (m : ℕ) (a2r : ℕ → ℤ) (r2a : ℕ → ℕ) : Prop where
  sub : ∀ k < m, r2a k < n ∧ P (r2a k)
  mono : ∀ i j, i < j → j < m → r2a i < r2a j
  onto : ∀ j < n, P j → ∃ k < m, r2a k = j ∧ a2r j = k
  none : ∀ j < n, ¬P j → a2r j = -1

end NgsAMG.FAux
