import Verif.Model.CSR
import Verif.Spec.DofNumbering
import Mathlib.Algebra.BigOperators.Group.List.Basic

/-!
# Specification: what an embedding of the finest mesh does

A vector on the mesh has a block of `b` values for every vertex, a vector of the space has a block of `a` values for every degree of freedom. The embedding puts
values of the vertices to the degrees of freedom that belong to them, and zero to all others.
-/

namespace NgsAMG.Spec
open Matrix

variable {K : Type*} [CommRing K] {a b : ℕ}

/-- the block `d` of the product of a sparse matrix and a vector -/
def act (A : CSR (Matrix (Fin a) (Fin b) K)) (x : ℕ → Fin b → K) (d : ℕ) : Fin a → K := ((A.row d).map fun e => e.2 *ᵥ x e.1).sum

/-- `E` embeds: the degree of freedom that is component `c` of the vertex `v` (which has the number `num v` in the mesh) gets the values of the components `c`, `c + 1`, .. of the vertex;
degrees of freedom that are not chosen get zero -/
structure Embeds (nd nv : ℕ) (bs D : List ℕ) (num : ℕ → ℕ) (E : CSR (Matrix (Fin a) (Fin b) K)) : Prop where
  wf : E.WF
  height : E.height = nd
  width : E.width = nv
  on : ∀ (k d v c : ℕ), D[k]? = some d → slot nv bs k = some (v, c) → c + a ≤ b ∧ ∀ (x : ℕ → Fin b → K) (i : Fin a) (h : c + i < b), act E x d i = x (num v) ⟨c + i, h⟩
  off : ∀ d < nd, d ∉ D → ∀ x, act E x d = 0

end NgsAMG.Spec
