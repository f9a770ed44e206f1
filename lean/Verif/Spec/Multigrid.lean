import Mathlib.LinearAlgebra.BilinearForm.Basic
import Mathlib.Data.Real.Basic

/-! Specification: recursive multigrid cycles. `f l x b`, `g l x b` are the forward/backward smoothing iterations on level
`l`, `A l` the level matrix, `R l`, `P l` restriction and prolongation between levels `l` and `l+1`, `C l` the coarse
solver. The first argument `k` is the number of levels below level `l`. -/

namespace NgsAMG.Spec

variable {V : ℕ → Type*} [∀ l, AddCommGroup (V l)]

/-- data of a multigrid hierarchy -/
structure Hier (V : ℕ → Type*) where
  A : ∀ l, V l → V l
  f : ∀ l, V l → V l → V l
  g : ∀ l, V l → V l → V l
  R : ∀ l, V l → V (l + 1)
  P : ∀ l, V (l + 1) → V l
  C : ∀ l, V l → V l

/-- V-cycle from zero: smooth, restrict the residual, recurse, prolongate and add, smooth backwards -/
def vcycle (h : Hier V) : (k l : ℕ) → V l → V l
  | 0, l, b => h.C l b
  | k + 1, l, b =>
    let x := h.f l 0 b
    let c := vcycle h k (l + 1) (h.R l (b - h.A l x))
    h.g l (x + h.P l c) b

/-- V-cycle from a given start vector (there is at least one level below) -/
def vcycleFrom (h : Hier V) (k l : ℕ) (x b : V l) : V l :=
  let y := h.f l x b
  h.g l (y + h.P l (vcycle h k (l + 1) (h.R l (b - h.A l y)))) b

/-- W-cycle from zero: two coarse grid corrections per level -/
def wcycle (h : Hier V) : (k l : ℕ) → V l → V l
  | 0, l, b => h.C l b
  | k + 1, l, b =>
    let corr : V l → V l := fun x =>
      let y := h.f l x b
      h.g l (y + h.P l (wcycle h k (l + 1) (h.R l (b - h.A l y)))) b
    corr (corr 0)

/-- "BS" cycle: like a V-cycle, but a V-cycle is used as smoother on each level -/
def bscycle (h : Hier V) : (k l : ℕ) → V l → V l
  | 0, l, b => h.C l b
  | k + 1, l, b =>
    let x := vcycleFrom h k l 0 b
    let c := bscycle h k (l + 1) (h.R l (b - h.A l x))
    vcycleFrom h k l (x + h.P l c) b

end NgsAMG.Spec
