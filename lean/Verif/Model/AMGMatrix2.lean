import Verif.Model.AMGMatrix

/-! Model of `AMGMatrix::CINV`, `EmbeddedAMGMatrix`, `AMGSmoother` (solve/amg_matrix.cpp). -/

namespace NgsAMG.AMG
open Sm

variable {V : ℕ → Type*} [∀ l, AddCommGroup (V l)] [∀ l, Module ℝ (V l)]

/-- `CINV(x, b)`, amg_matrix.cpp:406-434: restrict to the coarsest level, solve there, prolongate. The pointers
`x_level[0]`, `rhs_level[0]` are replaced by the arguments for the duration of the call. Result: the new `x` (`none`:
null pointer access if there is no coarse inverse). -/
def cinv (m : Mat V) (w : Mem V) (b x : V 0) : Option (V 0 × Mem V) :=
  m.crsInv.map fun ci =>
    let w1 : Mem V := { w with xl := Function.update w.xl 0 x, rhs := Function.update w.rhs 0 b }
    let w2 := (List.range (m.n - 1)).foldl
      (fun (w : Mem V) l => { w with rhs := Function.update w.rhs (l + 1) (m.R l (w.rhs l)) }) w1
    let w3 : Mem V := { w2 with xl := Function.update w2.xl (m.n - 1) (ci _ (w2.rhs (m.n - 1))) }
    let w4 := (List.range (m.n - 1)).reverse.foldl
      (fun (w : Mem V) l => { w with xl := Function.update w.xl l (m.P l (w.xl (l + 1))) }) w3
    (w4.xl 0, { w4 with xl := Function.update w4.xl 0 (w.xl 0), rhs := Function.update w4.rhs 0 (w.rhs 0) })

/-- `clm->Smooth(*x_level[0], *rhs_level[0])` as called by `EmbeddedAMGMatrix::Mult`: the caller's vectors are the work
vectors of level 0 -/
def smoothOwn (m : Mat V) (vwb : ℤ) (w : Mem V) : Option (Mem V) :=
  (smooth m vwb (w.rhs 0) ⟨w.xl 0, w⟩).map fun t =>
    { t.mem with xl := Function.update t.mem.xl 0 (if m.n ≤ 1 then t.mem.xl 0 else t.xu) }

variable {U : Type*} [AddCommGroup U] [Module ℝ U]

/-- `EmbeddedAMGMatrix`, amg_matrix.hpp:96-107; `fls = none` is the null pointer -/
structure Emb (U : Type*) [AddCommGroup U] [Module ℝ U] (V : ℕ → Type*) [∀ l, AddCommGroup (V l)]
    [∀ l, Module ℝ (V l)] where
  fls : Option (Step U × Step U)
  clm : Mat V
  vwb : ℤ
  R : U →ₗ[ℝ] V 0
  P : V 0 →ₗ[ℝ] U

/-- `EmbeddedAMGMatrix::Mult` = `MultTrans`, amg_matrix.cpp:590-633; the incoming content of `x` is not read. Returns the new
`x` and work vectors (the vector `res` is overwritten before use). -/
def Emb.mult (e : Emb U V) (w : Mem V) (b : U) : Option (U × Mem V) :=
  match e.fls with
  | some (F, B) =>
    let t := F 0 b b true true true
    (smoothOwn e.clm e.vwb { w with rhs := Function.update w.rhs 0 (e.R t.2) }).map fun w =>
      let x1 := t.1 + e.P (w.xl 0)
      ((B x1 b t.2 false false false).1, w)
  | none =>
    (smoothOwn e.clm 0 { w with rhs := Function.update w.rhs 0 (e.R b) }).map fun w => (e.P (w.xl 0), w)

/-- `EmbeddedAMGMatrix::MultAdd` = `MultTransAdd`, amg_matrix.cpp:636-646 -/
def Emb.multAdd (e : Emb U V) (w : Mem V) (s : ℝ) (b x : U) : Option (U × Mem V) :=
  (e.mult w b).map fun t => (x + s • t.1, t.2)

/-- `AMGSmoother::Smooth`, amg_matrix.cpp:693-740. `sysA` is the matrix of the start level. `none`: access to a level that
does not exist (the code tests `GetNLevels() > start_level`, which does not exclude it). -/
def amgSmooth (m : Mat V) (w : Mem V) (single : Bool) (sl : ℕ) (sysA : V sl →ₗ[ℝ] V sl)
    (x b res : V sl) (ru ur xz : Bool) : Option (Mem V × V sl × V sl) :=
  if single then
    let res1 := if !ru then calcResiduum sysA x b xz else res
    if m.n > sl then
      if sl + 1 < m.n then
        (smoothVFrom m { w with rhs := Function.update w.rhs (sl + 1) (m.R sl res1) } (sl + 1) 0 (m.R sl res1)
            (w.res (sl + 1)) false false true).map fun t =>
          let w' : Mem V := { t.1 with xl := Function.update t.1.xl (sl + 1) t.2.1,
                                        res := Function.update t.1.res (sl + 1) t.2.2 }
          let s := m.F sl (x + m.P sl t.2.1) b res1 false ur false
          (w', s.1, s.2)
      else none
    else none
  else smoothVFrom m w sl x b res ru ur xz

/-- `AMGSmoother::SmoothBack`, amg_matrix.cpp:742-789. The roles of `rhs_level` and `res_level` are swapped for the coarse
call, as in the code. -/
def amgSmoothBack (m : Mat V) (w : Mem V) (single : Bool) (sl : ℕ) (sysA : V sl →ₗ[ℝ] V sl)
    (x b res : V sl) (ru ur xz : Bool) : Option (Mem V × V sl × V sl) :=
  if single then
    let t0 := m.B sl x b res ru true xz
    if m.n > sl then
      if sl + 1 < m.n then
        (smoothVFrom m { w with res := Function.update w.res (sl + 1) (m.R sl t0.2) } (sl + 1) 0 (m.R sl t0.2)
            (w.rhs (sl + 1)) false false true).map fun t =>
          let w' : Mem V := { t.1 with xl := Function.update t.1.xl (sl + 1) t.2.1,
                                        rhs := Function.update t.1.rhs (sl + 1) t.2.2 }
          let x1 := t0.1 + m.P sl t.2.1
          (w', x1, if ur then calcResiduum sysA x1 b false else t0.2)
      else none
    else none
  else smoothVFrom m w sl x b res ru ur xz

end NgsAMG.AMG
