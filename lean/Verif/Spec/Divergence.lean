import Verif.Model.SparseMM

/-!
# Specification: net flow out of elements, and applying rows of a block matrix

Independent of the model of the prolongation.
-/

namespace NgsAMG.Spec
open NgsAMG.SparseMM
variable {K : Type} [Field K] {b : ℕ}

/-- Net flow out of element `v` of the field with coefficients `u e` on the edges `e`: `con v` lists the neighbours of `v` with the connecting
edge; `flow e` are the flows of the basis functions of `e` in the direction from the smaller to the larger element. -/
def netFlow (con : ℕ → List (ℕ × ℕ)) (flow : ℕ → Fin b → K) (u : ℕ → Fin b → K) (v : ℕ) : K :=
  ((con v).map fun x => (if v < x.1 then 1 else -1) * ∑ l, flow x.2 l * u x.2 l).sum

/-- a row of a block matrix times a vector -/
def mulRow (r : List (ℕ × Mt b b K)) (c : ℕ → Fin b → K) (l : Fin b) : K := (r.map fun x => ∑ m, x.2 l m * c x.1 m).sum

/-- the coefficients on edge `e` of matrix times vector; rows of the matrix `P` are numbered by `e2d` -/
def edgeVal (P : List (List (ℕ × Mt b b K))) (e2d : ℕ → Option ℕ) (c : ℕ → Fin b → K) (e : ℕ) (l : Fin b) : K :=
  match e2d e with
  | some d => mulRow (P.getD d []) c l
  | none => 0

end NgsAMG.Spec
