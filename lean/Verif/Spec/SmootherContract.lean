import Mathlib.LinearAlgebra.BilinearForm.Basic
import Mathlib.Data.Real.Basic

/-! Specification of the smoother interface (documented in smoothers/base_smoother.hpp:68-72). -/

namespace NgsAMG.Spec

variable {V : Type*} [AddCommGroup V]

/-- truthful flags: "res_updated: is residuum up to date", "x_zero: assumes x is zero on input" -/
def FlagsTruthful (A : V → V) (x b res : V) (resUpdated xZero : Bool) : Prop :=
  (resUpdated = true → res = b - A x) ∧ (xZero = true → x = 0)

/-- A smoother routine `S x b res res_updated update_res x_zero = (x', res')` meets the contract with iteration `f`:
for all truthful flags the new iterate is `f x b`, and with `update_res` the residual is `b - A x'` on return. -/
def Contract (A : V → V) (S : V → V → V → Bool → Bool → Bool → V × V) (f : V → V → V) : Prop :=
  ∀ x b res ru ur xz, FlagsTruthful A x b res ru xz →
    (S x b res ru ur xz).1 = f x b ∧ (ur = true → (S x b res ru ur xz).2 = b - A (f x b))

end NgsAMG.Spec
