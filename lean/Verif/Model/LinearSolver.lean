import Verif.Model.AMGMatrix2

/-! Model of `LinearSolver`, `AMGAsLinearSolver` (solve/LinearSolver.{hpp,cpp}). `double` is `ℝ`; output is not modelled; parallel
status is not modelled. -/

namespace NgsAMG.LS
open AMG

variable {σ V : Type*} [AddCommGroup V] [Module ℝ V]

/-- what a derived class provides: `A`, `DoIteration` (may use and change private state `σ`; `none`: illegal access),
`ComputeError` (LinearSolver.hpp:37-41) -/
structure Impl (σ V : Type*) [AddCommGroup V] [Module ℝ V] where
  A : V →ₗ[ℝ] V
  iter : σ → V → V → V → Option (σ × V × V)
  err : V → V → V → ℝ

/-- settings, LinearSolver.hpp:46-50; `none`: not initialised -/
structure Cfg where
  maxSteps : ℤ
  checkError : Option Bool
  rtol : ℝ
  print : Bool
  saveErrs : Option Bool

/-- constructor, LinearSolver.cpp:9-18: `check_error` and `save_errs` are not initialised -/
def Cfg.new (maxSteps : ℤ) (rtol : ℝ) (print : Bool) : Cfg := ⟨maxSteps, none, rtol, print, none⟩

/-- public setters, LinearSolver.hpp:23-25 -/
inductive Setter
  | saveErrors (b : Bool)
  | maxIterations (n : ℤ)
  | relTolerance (r : ℝ)

def Setter.run (c : Cfg) : Setter → Cfg
  | .saveErrors b => { c with saveErrs := some b }
  | .maxIterations n => { c with maxSteps := n }
  | .relTolerance r => { c with rtol := r }

/-- state of a solve: LinearSolver.hpp:53-62; `errs` holds the errors stored so far -/
structure Run (σ V : Type*) where
  st : σ
  x : V
  res : V
  initErr : ℝ
  currErr : ℝ
  currIter : ℤ
  converged : Bool
  errs : List ℝ

open Classical in
/-- the loop, LinearSolver.cpp:85-100; the first argument is `max_steps - curr_iter` (or 0) -/
noncomputable def loop (p : Impl σ V) (checkError computeErr saveErrs : Bool) (rtol : ℝ) (b : V) :
    ℕ → Run σ V → Option (Run σ V)
  | 0, s => some s
  | n + 1, s =>
    if s.converged then some s else
      (p.iter s.st s.x b s.res).bind fun t =>
        let curr := if computeErr then p.err t.2.1 b t.2.2 else s.currErr
        loop p checkError computeErr saveErrs rtol b n
          { st := t.1, x := t.2.1, res := t.2.2, initErr := s.initErr, currErr := curr, currIter := s.currIter + 1,
            converged := if checkError then decide (curr < rtol * s.initErr) else s.converged,
            errs := if saveErrs then s.errs ++ [curr] else s.errs }

open Classical in
/-- `Solve(x, b, res, initialize, is_x_zero, is_res_updated)`, LinearSolver.cpp:30-105, for initialised flags. Returns the
state and `needed_steps`. `InitializeSolve` is empty. -/
noncomputable def solveB (p : Impl σ V) (maxSteps : ℤ) (checkError print saveErrs : Bool) (rtol : ℝ) (st : σ)
    (x b res : V) (initX isXZero isResUpdated : Bool) : Option (Run σ V × ℤ) :=
  let checkErr := checkError && decide (rtol > 0)
  let computeErr := print || checkErr || saveErrs
  let x := if initX then 0 else x
  let res := if !isResUpdated then (if !isXZero then b - p.A x else b) else res
  let initErr := if computeErr then p.err x b res else -1
  (loop p checkError computeErr saveErrs rtol b maxSteps.toNat
    ⟨st, x, res, initErr, initErr, 0, false, if saveErrs then [initErr] else []⟩).map fun s =>
      (s, if s.converged then s.currIter + 1 else -1)

/-- `Solve` of an object: reading a flag that was never set is undefined -/
noncomputable def solve (p : Impl σ V) (c : Cfg) (st : σ) (x b res : V) (initX isXZero isResUpdated : Bool) :
    Option (Run σ V × ℤ) :=
  c.checkError.bind fun ce => c.saveErrs.bind fun se =>
    solveB p c.maxSteps ce c.print se c.rtol st x b res initX isXZero isResUpdated

/-- `Mult` = `MultTrans`, LinearSolver.cpp:121-130 (with `work_res` as residual), resulting `x` and private state -/
noncomputable def multB (p : Impl σ V) (maxSteps : ℤ) (checkError print saveErrs : Bool) (rtol : ℝ) (st : σ)
    (workRes b x : V) : Option (V × σ) :=
  (solveB p maxSteps checkError print saveErrs rtol st x b workRes true false false).map fun t => (t.1.x, t.1.st)

/-- `MultAdd`, LinearSolver.cpp:133-139 -/
noncomputable def multAddB (p : Impl σ V) (maxSteps : ℤ) (checkError print saveErrs : Bool) (rtol : ℝ) (st : σ)
    (workRes workX : V) (s : ℝ) (b x : V) : Option (V × σ) :=
  (multB p maxSteps checkError print saveErrs rtol st workRes b workX).map fun t => (x + s • t.1, t.2)

/-- `AMGAsLinearSolver`, LinearSolver.cpp:166-181; the private state are the work vectors; `norm` is `L2Norm`
(LinearSolver.cpp:108-112) -/
def amgImpl {V : ℕ → Type*} [∀ l, AddCommGroup (V l)] [∀ l, Module ℝ (V l)] (m : Mat V) (A : V 0 →ₗ[ℝ] V 0)
    (norm : V 0 → ℝ) : Impl (Mem V) (V 0) where
  A := A
  iter w x b res := smoothVFrom m w 0 x b res true true false
  err _ _ res := norm res

end NgsAMG.LS
