import Mathlib.Algebra.BigOperators.Group.List.Basic
import Mathlib.Algebra.Field.Basic

/-!
# Specification: flows of fields with several coefficients per edge

Independent of the model of the prolongation. A field has coefficients `u (e, l)` for the basis functions `l < nd e` of the edges `e` between elements.
Only the first basis function of an edge has flow, `flow e`, in the direction from the first to the second element of the edge.
-/

namespace NgsAMG.Spec
variable {K : Type} [Field K]

/-- flow of the field over edge `e` -/
def edgeFlow (flow : ℕ → K) (nd : ℕ → ℕ) (u : ℕ × ℕ → K) (e : ℕ) : K :=
  ((List.range (nd e)).map fun l => (if l = 0 then flow e else 0) * u (e, l)).sum

/-- flow out of element `v`: `con v` lists its neighbours with the connecting edges, `φ` are the flows over the edges -/
def outOf (con : ℕ → List (ℕ × ℕ)) (edge : ℕ → ℕ × ℕ) (φ : ℕ → K) (v : ℕ) : K :=
  ((con v).map fun x => if (edge x.2).1 = v then φ x.2 else -φ x.2).sum

/-- a row of a sparse matrix times a vector -/
def rowVal (r : List ((ℕ × ℕ) × K)) (c : ℕ × ℕ → K) : K := (r.map fun y => y.2 * c y.1).sum

end NgsAMG.Spec
