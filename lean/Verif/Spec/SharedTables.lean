import Mathlib.Data.List.Basic
import Mathlib.Data.List.Range

/-!
# Specification: tables whose rows are shared between processes

`names p` is the list of the global identities of the rows of process `p`, in the order of its rows. What the table of process `p` has to
say about who shares row `n` is `others np names p n`.
-/

namespace NgsAMG.Spec
variable {N : Type} [DecidableEq N]

/-- the processes that have a row with identity `n`, in increasing order -/
def owners (np : ℕ) (names : ℕ → List N) (n : N) : List ℕ := (List.range np).filter fun q => decide (n ∈ names q)

/-- the processes other than `p` that have it -/
def others (np : ℕ) (names : ℕ → List N) (p : ℕ) (n : N) : List ℕ := (owners np names n).filter fun q => decide (q ≠ p)

/-- the tables `dps p` of all processes describe which rows are shared, and any two processes have the rows they share in the same order -/
structure Shared (np : ℕ) (names : ℕ → List N) (dps : ℕ → List (List ℕ)) : Prop where
  nodup : ∀ p < np, (names p).Nodup
  dps : ∀ p < np, dps p = (names p).map (others np names p)
  order : ∀ p < np, ∀ q < np, (names p).filter (fun n => decide (n ∈ names q)) = (names q).filter (fun n => decide (n ∈ names p))

end NgsAMG.Spec
