import Mathlib.Data.Nat.Notation
import Mathlib.Data.Int.Notation
import Mathlib.Data.Fin.Basic
import Mathlib.Logic.Function.Basic

/-!
Model of the permutation helpers, `/repo/src/base/utils/utils_arrays_tables.hpp:159-226`.
Arrays of size `n` are functions `Fin n → T`; `perm` holds `int`s, an entry used as index must lie in `[0,n)`,
otherwise the behaviour is undefined (`none`).  Both in-place variants run the same cycle walk and
differ only in how a finished position is marked (`mark`) and recognised (`skip`).
-/

namespace NgsAMG.Permutation

variable {T : Type*} {n : ℕ}

/-- use of an `int` as index -/
def idx (n : ℕ) (p : ℤ) : Option (Fin n) :=
  if h : 0 ≤ p ∧ p.toNat < n then some ⟨p.toNat, h.2⟩ else none

/-- `swap(array[i], array[j])` -/
def swap (a : Fin n → T) (i j : Fin n) : Fin n → T :=
  Function.update (Function.update a i (a j)) j (a i)

/-- inner `while`, lines 169-174 resp. 187-192; `none`: undefined, or not finished after `fuel` rounds -/
def walk (mark : ℤ → ℤ) (i : Fin n) (fuel : ℕ) (a : Fin n → T) (perm : Fin n → ℤ) (check : Fin n) :
    Option ((Fin n → T) × (Fin n → ℤ)) :=
  if perm check = (i : ℕ) then some (a, Function.update perm check (mark (perm check)))
  else match fuel with
    | 0 => none
    | fuel + 1 =>
      match idx n (perm check) with
      | none => none
      | some from_here =>
        walk mark i fuel (swap a check from_here) (Function.update perm check (mark (perm check))) from_here

/-- outer loop `for (auto i : Range(array))` over the listed positions -/
def outer (mark : ℤ → ℤ) (skip : ℤ → Bool) (fuel : ℕ) :
    List (Fin n) → (Fin n → T) → (Fin n → ℤ) → Option ((Fin n → T) × (Fin n → ℤ))
  | [], a, perm => some (a, perm)
  | i :: is, a, perm =>
    if skip (perm i) then outer mark skip fuel is a perm
    else match walk mark i fuel a perm i with
      | none => none
      | some (a', perm') => outer mark skip fuel is a' perm'

/-- `ApplyPermutation (array, perm)` in place, lines 163-177: marks with `-1` -/
def applyInPlace (fuel : ℕ) (a : Fin n → T) (perm : Fin n → ℤ) : Option ((Fin n → T) × (Fin n → ℤ)) :=
  outer (fun _ => -1) (fun p => p = -1) fuel (List.finRange n) a perm

/-- `ApplyAndKeepPermutation (array, perm)`, lines 179-199: marks with `-1 - p`, then restores -/
def applyAndKeep (fuel : ℕ) (a : Fin n → T) (perm : Fin n → ℤ) : Option ((Fin n → T) × (Fin n → ℤ)) :=
  (outer (fun p => -1 - p) (fun p => p < 0) fuel (List.finRange n) a perm).map
    fun r => (r.1, fun k => -r.2 k - 1)

/-- `ApplyPermutation (array, perm, buffer)`, lines 220-226; the old buffer content is overwritten -/
def applyBuffered (a : Fin n → T) (perm : Fin n → ℤ) (_buffer : Fin n → T) : Option (Fin n → T) :=
  let buffer := a
  if h : ∀ k, (idx n (perm k)).isSome then some fun k => buffer ((idx n (perm k)).get (h k)) else none

/-- `InvertPermutation (perm, invPerm)`, lines 206-212: `invPerm[perm[l]] = l` for ascending `l` -/
def invert : List (Fin n) → (Fin n → ℤ) → (Fin n → ℤ) → Option (Fin n → ℤ)
  | [], _, inv => some inv
  | l :: ls, perm, inv =>
    match idx n (perm l) with
    | none => none
    | some p => invert ls perm (Function.update inv p (l : ℕ))

/-- `InvertPermutation (perm, invPerm)`, lines 206-212 -/
def invertPermutation (perm inv : Fin n → ℤ) : Option (Fin n → ℤ) := invert (List.finRange n) perm inv

end NgsAMG.Permutation
