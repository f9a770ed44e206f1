import Verif.Model.CSR
import Mathlib.LinearAlgebra.BilinearForm.Basic

/-! Model of the generic smoothers in smoothers/base_smoother.{hpp,cpp}. Vectors are elements of a real vector space,
matrices linear maps. The parallel status calls (`Distribute`, `Cumulate`) are covered in Model/Parallel. -/

namespace NgsAMG.Sm

variable {V W : Type*} [AddCommGroup V] [Module ℝ V] [AddCommGroup W] [Module ℝ W]

/-- signature of `Smooth`/`SmoothBack`, base_smoother.hpp:73-78: `(x, b, res, res_updated, update_res, x_zero)` to the
new `(x, res)` -/
abbrev Step (V : Type*) := V → V → V → Bool → Bool → Bool → V × V

/-- `CalcResiduum`, base_smoother.hpp:132-142 -/
def calcResiduum (A : V →ₗ[ℝ] V) (x b : V) (xZero : Bool) : V := if xZero then b else b - A x

/-- `SmoothSymm`, base_smoother.hpp:79-85 -/
def smoothSymm (F B : Step V) : Step V := fun x b res ru ur xz =>
  let s := F x b res ru ur xz
  B s.1 b s.2 ur ur false

/-- the loop `for (auto j : Range(k-1)) Smooth(x, b, res, update_res, update_res, false)`, base_smoother.hpp:92-93 -/
def repeatStep (F : Step V) (b : V) (ur : Bool) : ℕ → V × V → V × V
  | 0, s => s
  | n + 1, s => repeatStep F b ur n (F s.1 b s.2 ur ur false)

/-- `SmoothK`, base_smoother.hpp:87-94; with `F` the backward step it is `SmoothBackK` (96-103), with `F` the
symmetrized step it is `SmoothSymmK` (105-112). `Range(k-1)` is empty for `k ≤ 1` (`int` argument). -/
def smoothK (F : Step V) (k : ℤ) : Step V := fun x b res ru ur xz =>
  repeatStep F b ur (k - 1).toNat (F x b res ru ur xz)

/-- `ProxySmoother::Smooth`, base_smoother.hpp:180-188 -/
def proxySmooth (F B : Step V) (nsteps : ℤ) (symm : Bool) : Step V :=
  if symm then smoothK (smoothSymm F B) nsteps else smoothK F nsteps

/-- `ProxySmoother::SmoothBack`, base_smoother.hpp:189-197 -/
def proxySmoothBack (F B : Step V) (nsteps : ℤ) (symm : Bool) : Step V :=
  if symm then smoothK (smoothSymm F B) nsteps else smoothK B nsteps

/-- `RichardsonSmoother::Smooth` (base_smoother.cpp:61-74); `SmoothBack` (77-82) is the same function -/
def richardson (A prec : V →ₗ[ℝ] V) (omega : ℝ) : Step V := fun x b res ru ur xz =>
  let p := if !ru && xz then (x + omega • prec b, res)
           else
             let res1 := if !ru then b - A x else res
             (x + omega • prec res1, res1)
  (p.1, if ur then b - A p.1 else p.2)

/-- the matrices stored in a `HiptMairSmoother` (base_smoother.hpp:296-300); `ARD`/`DTAR` are optional -/
structure HM (V W : Type*) [AddCommGroup V] [Module ℝ V] [AddCommGroup W] [Module ℝ W] where
  potFirst : Bool
  A : V →ₗ[ℝ] V
  D : W →ₗ[ℝ] V
  DT : V →ₗ[ℝ] W
  ARD : Option (W →ₗ[ℝ] V)
  DTAR : Option (V →ₗ[ℝ] W)

/-- `CalcPotRhs`, base_smoother.cpp:159-193: returns (new res, cRhs, return value) -/
def calcPotRhs (h : HM V W) (x b res : V) (ru xz ur : Bool) : V × W × Bool :=
  if !ru then
    if ur || h.DTAR.isNone then
      let res1 := calcResiduum h.A x b xz
      (res1, h.DT res1, true)
    else
      (res, (h.DTAR.elim (h.DT b) (fun m => h.DT b - m x)), false)
  else (res, h.DT res, true)

/-- `ApplyPotUpdate`, base_smoother.cpp:196-224: returns (new x, new res); the return value is `ur` -/
def applyPotUpdate (h : HM V W) (x : V) (upd : W) (b res : V) (ru ur : Bool) : V × V :=
  let x1 := x + h.D upd
  (x1, if ur then (match h.ARD with
        | some m => if !ru then b - h.A x1 else res - m upd
        | none => b - h.A x1) else res)

/-- `HiptMairSmoother::Smooth`, base_smoother.cpp:227-273. `pot`, `rng` are the forward steps of the two smoothers,
`respot` the arbitrary content of the work vector. -/
def hmSmooth (h : HM V W) (pot : Step W) (rng : Step V) (respot : W) : Step V := fun x b res ru ur xz =>
  let s0 : V × V × Bool := if !h.potFirst then
      (let s := rng x b res ru ru xz; (s.1, s.2, false)) else (x, res, xz)
  let c := calcPotRhs h s0.1 b s0.2.1 ru s0.2.2 ru
  let sol := (pot 0 c.2.1 respot false false true).1
  let resUp := c.2.2
  let ur1 := if h.potFirst then resUp else ur
  let a := applyPotUpdate h s0.1 sol b c.1 resUp ur1
  if h.potFirst then rng a.1 b a.2 ur1 ur false else a

/-- `HiptMairSmoother::SmoothBack`, base_smoother.cpp:276-313. Note that `xZero` stays as given after the range
smoother has been called. -/
def hmSmoothBack (h : HM V W) (pot : Step W) (rng : Step V) (respot : W) : Step V := fun x b res ru ur xz =>
  let s0 : V × V := if h.potFirst then rng x b res ru ru xz else (x, res)
  let c := calcPotRhs h s0.1 b s0.2 ru xz ru
  let sol := (pot 0 c.2.1 respot false false true).1
  let resUp := c.2.2
  let ur1 := if h.potFirst then ur else resUp
  let a := applyPotUpdate h s0.1 sol b c.1 resUp ur1
  if !h.potFirst then rng a.1 b a.2 ur1 ur false else a

end NgsAMG.Sm
