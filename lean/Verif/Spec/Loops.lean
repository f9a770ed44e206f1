import Mathlib.Order.Basic
import Mathlib.Data.List.Count
import Mathlib.Data.Int.Basic
import Mathlib.Data.List.Rotate
import Mathlib.Algebra.BigOperators.Group.List.Basic

/-!
# Specification: loops of vertices

A loop is given by the vertices it runs through, `[a, b, c, a]`. Nothing of the model is used.
-/

namespace NgsAMG.Spec
variable {V : Type*} [DecidableEq V]

/-- the oriented steps of a walk -/
def steps {V : Type*} : List V → List (V × V)
  | a :: b :: t => (a, b) :: steps (b :: t)
  | _ => []

/-- a walk that ends where it began -/
def Closed {V : Type*} (l : List V) : Prop := 2 ≤ l.length ∧ l.head? = l.getLast?

/-- a closed walk that goes through no vertex twice -/
def SimpleLoop {V : Type*} (l : List V) : Prop := Closed l ∧ l.tail.Nodup

/-- as many of the oriented edges begin in a vertex as end in it -/
def Balanced (es : List (V × V)) : Prop := ∀ v, (es.map Prod.fst).count v = (es.map Prod.snd).count v

/-- how often `a → b` occurs more than `b → a` -/
def net (es : List (V × V)) (a b : V) : ℤ := (es.count (a, b) : ℤ) - es.count (b, a)

/-- the same loop, begun at any of its vertices, in either direction (the last vertex repeats the first one) -/
def SameLoop {V : Type*} (l l' : List V) : Prop := l.dropLast ~r l'.dropLast ∨ l.dropLast ~r l'.reverse.dropLast

/-- the steps of a walk after its vertices are mapped; steps within one vertex vanish -/
def pushSteps {F : Type*} (vm : F → V) (w : List F) : List (V × V) := ((steps w).map (Prod.map vm vm)).filter fun x => decide (x.1 ≠ x.2)

/-- a sum of oriented edges is a combination, with whole numbers, of loops -/
def Combination (R : List (List V)) (f : V → V → ℤ) : Prop := ∃ c : List V → ℤ, ∀ a b, f a b = (R.map fun l => c l * net (steps l) a b).sum

end NgsAMG.Spec
