import Mathlib.Data.List.Perm.Basic
import Mathlib.Data.List.Forall2
import Mathlib.Algebra.BigOperators.Group.List.Basic
import Mathlib.Data.Int.Basic

/-!
# Specification: walks of edges, boundaries, degrees

Written without the model. The edges are of any type, `src` and `tgt` are the ends of an edge.
-/

namespace NgsAMG.LSort

variable {T V : Type}

/-- the edges are passed one after the other from their source to their target, the way begins in `a` and ends in `b` -/
def Walk (src tgt : T → V) : V → List T → V → Prop
  | a, [], b => a = b
  | a, t :: l, b => src t = a ∧ Walk src tgt (tgt t) l b

/-- how often `v` is entered minus how often it is left: the boundary of the loop, which is the divergence of its flow -/
def boundary [DecidableEq V] (src tgt : T → V) (l : List T) (v : V) : ℤ :=
  (l.map fun t => (if tgt t = v then 1 else 0) - (if src t = v then 1 else 0)).sum

/-- the number of ends of edges in `v` -/
def degree [DecidableEq V] (src tgt : T → V) (l : List T) (v : V) : ℕ :=
  (l.map fun t => (if src t = v then 1 else 0) + (if tgt t = v then 1 else 0)).sum

/-- the edges cannot be separated in two parts without common vertices -/
def Connected (src tgt : T → V) (l : List T) : Prop :=
  ∀ A : V → Prop, (∀ t ∈ l, A (src t) ↔ A (tgt t)) → (∀ t ∈ l, A (src t)) ∨ ∀ t ∈ l, ¬ A (src t)

/-- a simple closed loop in any order and with any orientation of its edges: connected, and every vertex has two edges or none -/
structure Cycle [DecidableEq V] (src tgt : T → V) (l : List T) : Prop where
  conn : Connected src tgt l
  deg : ∀ v, degree src tgt l v = 0 ∨ degree src tgt l v = 2

/-- the same edges in another order, some are turned -/
def Turned (flip : T → T) (l out : List T) : Prop := ∃ l', List.Forall₂ (fun x y => y = x ∨ y = flip x) l l' ∧ out.Perm l'

/-- the source of an edge that is coded with its sign: `c` is the edge `c - 1` from its first to its second vertex, `-c` the same edge in the
other direction -/
def codeSrc (edge : ℕ → ℕ × ℕ) (c : ℤ) : ℕ := if 0 < c then (edge (c.natAbs - 1)).1 else (edge (c.natAbs - 1)).2

/-- the target of a coded edge -/
def codeTgt (edge : ℕ → ℕ × ℕ) (c : ℤ) : ℕ := if 0 < c then (edge (c.natAbs - 1)).2 else (edge (c.natAbs - 1)).1

end NgsAMG.LSort
