import Verif.Model.LinearSolver
import Verif.Props.AMGTheory

/-! C36, C37: the stand-alone solver. -/

namespace NgsAMG.LS
open AMG Spec Sm

variable {σ V : Type*} [AddCommGroup V] [Module ℝ V]

/-- specification: state, iterate and residual after `k` iterations -/
def traj (p : Impl σ V) (b : V) (st : σ) (x res : V) : ℕ → Option (σ × V × V)
  | 0 => some (st, x, res)
  | k + 1 => (traj p b st x res k).bind fun t => p.iter t.1 t.2.1 b t.2.2

/-- specification: error after `k` iterations -/
noncomputable def errAt (p : Impl σ V) (b : V) (st : σ) (x res : V) (k : ℕ) : ℝ :=
  ((traj p b st x res k).map fun t => p.err t.2.1 b t.2.2).getD 0

theorem traj_shift (p : Impl σ V) (b : V) (st st' : σ) (x res x' res' : V) (h : p.iter st x b res = some (st', x', res'))
    (k : ℕ) : traj p b st x res (k + 1) = traj p b st' x' res' k := by
  induction k with
  | zero => simp [traj, h]
  | succ k ih => rw [traj, ih]; rfl

open Classical in
/-- what the loop does, for every combination of settings -/
theorem loop_spec (p : Impl σ V) (ce comp se : Bool) (rtol : ℝ) (b : V) (n : ℕ) (s s' : Run σ V)
    (hs : s.converged = false) (h : loop p ce comp se rtol b n s = some s') :
    ∃ k : ℕ, k ≤ n ∧ s'.currIter = s.currIter + k ∧ traj p b s.st s.x s.res k = some (s'.st, s'.x, s'.res) ∧
      s'.initErr = s.initErr ∧
      (k < n → s'.converged = true) ∧
      (s'.currErr = if comp ∧ 0 < k then errAt p b s.st s.x s.res k else s.currErr) ∧
      (s'.converged = true ↔ 0 < k ∧ ce = true ∧ s'.currErr < rtol * s.initErr) ∧
      (ce = true → ∀ j, 0 < j → j < k →
        ¬ ((if comp then errAt p b s.st s.x s.res j else s.currErr) < rtol * s.initErr)) ∧
      (s'.errs = if se then s.errs ++ (List.range k).map (fun j =>
        if comp then errAt p b s.st s.x s.res (j + 1) else s.currErr) else s.errs) := by
  induction n generalizing s with
  | zero =>
    simp only [loop, Option.some.injEq] at h
    subst h
    exact ⟨0, le_rfl, by simp, rfl, rfl, by simp, by simp, by simp [hs], fun _ j h1 h2 => by omega, by simp⟩
  | succ n ih =>
    rw [loop, if_neg (by simp [hs])] at h
    obtain ⟨t, ht, hl⟩ := Option.bind_eq_some_iff.1 h
    obtain ⟨st1, x1, r1⟩ := t
    simp only [hs] at hl
    set curr := if comp then p.err x1 b r1 else s.currErr with hcurr
    have e1 : errAt p b s.st s.x s.res 1 = p.err x1 b r1 := by
      simp [errAt, traj, ht]
    by_cases hc : ce = true ∧ curr < rtol * s.initErr
    · -- converged in this step
      have hfin : s' = ⟨st1, x1, r1, s.initErr, curr, s.currIter + 1, true,
          if se then s.errs ++ [curr] else s.errs⟩ := by
        have : (if ce = true then decide (curr < rtol * s.initErr) else false) = true := by simp [hc.1, hc.2]
        rw [this] at hl
        cases n with
        | zero => simp only [loop, Option.some.injEq] at hl; exact hl.symm
        | succ n => simp only [loop, if_true, Option.some.injEq] at hl; exact hl.symm
      subst hfin
      refine ⟨1, by omega, by simp, by simp [traj, ht], rfl, by simp, ?_, ?_, fun _ j h1 h2 => by omega, ?_⟩
      · rw [e1]; simp [hcurr]
      · simp [hc.1, hc.2]
      · simp [e1, hcurr]
    · have hcv : (if ce = true then decide (curr < rtol * s.initErr) else false) = false := by
        rcases ce with _ | _
        · rfl
        · simpa using hc
      rw [hcv] at hl
      obtain ⟨k, hk1, hk2, hk3, hk4, hk5, hk6, hk7, hk8, hk9⟩ := ih _ rfl hl
      simp only at hk2 hk3 hk4 hk6 hk7 hk8 hk9
      have sh := traj_shift p b s.st st1 s.x s.res x1 r1 ht
      have she : ∀ j, errAt p b s.st s.x s.res (j + 1) = errAt p b st1 x1 r1 j := by
        intro j; simp only [errAt, sh]
      have e10 : errAt p b st1 x1 r1 0 = p.err x1 b r1 := by simp [errAt, traj]
      have hcE : s'.currErr = if comp = true then errAt p b st1 x1 r1 k else s.currErr := by
        rw [hk6]
        rcases comp with _ | _
        · simp [hcurr]
        · rcases k with _ | k
          · simp [hcurr, e10]
          · simp
      refine ⟨k + 1, by omega, by push_cast; omega, by rw [sh]; exact hk3, hk4, fun h => hk5 (by omega), ?_, ?_, ?_, ?_⟩
      · rw [hcE, she]; simp
      · constructor
        · intro h
          have := hk7.1 h
          exact ⟨by omega, this.2⟩
        · rintro ⟨-, hce, hlt⟩
          refine hk7.2 ⟨?_, hce, hlt⟩
          by_contra h0
          have : k = 0 := by omega
          subst this
          apply hc
          refine ⟨hce, ?_⟩
          rw [hk6] at hlt
          simpa using hlt
      · intro hce j hj1 hj2
        rcases j with _ | j
        · omega
        rw [she]
        rcases j with _ | j
        · rw [e10]
          intro hlt
          exact hc ⟨hce, by simpa [hcurr] using hlt⟩
        · have := hk8 hce (j + 1) (by omega) (by omega)
          rcases comp with _ | _
          · simpa [hcurr] using this
          · simpa using this
      · rw [hk9]
        rcases se with _ | _
        · simp
        · simp only [if_true]
          rw [List.range_succ_eq_map, List.map_cons, List.map_map, List.append_assoc]
          congr 1
          simp only [List.singleton_append]
          congr 1
          · simp [e1, hcurr]
          · apply List.map_congr_left
            intro j _
            simp only [Function.comp, she]
            rcases comp with _ | _ <;> simp [hcurr]

/-- start values of a solve -/
def startX (x : V) (initX : Bool) : V := if initX then 0 else x

/-- **C36, partial.** With flags that are initialised, error checking on and a positive tolerance (or printing/saving of errors):
if the solver returns after `k` iterations, then `k ≤ max_steps`, it stopped early only because the criterion was met,
the criterion was not met earlier, it reports convergence exactly if the last error is below `rtol` times the first
one, and the stored errors are the errors of all iterates. Missing for the full property: the reported number of steps
is `k + 1` and not `k`, see `neededSteps_wrong`. -/
theorem solve_correct_partial (p : Impl σ V) (maxSteps : ℤ) (print se : Bool) (rtol : ℝ) (st : σ) (x b res : V)
    (ini xz : Bool) (hxz : xz = true → startX x ini = 0)
    (hcomp : print = true ∨ 0 < rtol ∨ se = true) (s : Run σ V) (needed : ℤ)
    (h : solveB p maxSteps true print se rtol st x b res ini xz false = some (s, needed)) :
    let x0 := startX x ini
    let r0 := b - p.A x0
    let e := errAt p b st x0 r0
    ∃ k : ℕ, k ≤ maxSteps.toNat ∧ s.currIter = k ∧ traj p b st x0 r0 k = some (s.st, s.x, s.res) ∧
      (k < maxSteps.toNat → s.converged = true) ∧
      s.initErr = e 0 ∧ s.currErr = e k ∧
      (s.converged = true ↔ 0 < k ∧ e k < rtol * e 0) ∧
      (∀ j, 0 < j → j < k → ¬ e j < rtol * e 0) ∧
      (needed = if s.converged then (k : ℤ) + 1 else -1) ∧
      (se = true → s.errs = (List.range (k + 1)).map e) := by
  intro x0 r0 e
  have hce : (print || (true && decide (rtol > 0)) || se) = true := by
    rcases hcomp with h | h | h <;> simp [h]
  have hr : (if (!xz) = true then b - p.A x0 else b) = r0 := by
    rcases xz with _ | _
    · rfl
    · have : x0 = 0 := hxz rfl
      simp [r0, this]
  simp only [solveB, hce, Bool.not_false, if_true] at h
  have hx0 : (if ini = true then 0 else x) = x0 := rfl
  rw [hx0, hr] at h
  obtain ⟨s1, hs1, hs2⟩ := Option.map_eq_some_iff.1 h
  simp only [Prod.mk.injEq] at hs2
  obtain ⟨rfl, hn⟩ := hs2
  obtain ⟨k, h1, h2, h3, h4, h5, h6, h7, h8, h9⟩ := loop_spec p true true se rtol b _ _ s1 rfl hs1
  simp only at h2 h3 h4 h6 h7 h8 h9
  have e0 : p.err x0 b r0 = e 0 := by simp [e, errAt, traj]
  have hcE : s1.currErr = e k := by
    rw [h6]
    rcases k with _ | k
    · simp [e0]
    · simp [e]
  refine ⟨k, h1, by simpa using h2, h3, h5, by rw [h4, e0], hcE, ?_, ?_, ?_, ?_⟩
  · rw [h7, hcE, e0]; simp
  · intro j hj1 hj2
    have := h8 (by trivial) j hj1 hj2
    rw [e0] at this
    simpa using this
  · rw [← hn, h2]; simp
  · intro hse
    rw [h9, if_pos hse, if_pos hse, List.range_succ_eq_map, List.map_cons, List.map_map, e0]
    simp only [List.singleton_append, if_true]
    rfl

/-- a solver that never fails: with an iteration that never fails a solve returns -/
theorem solve_total (p : Impl σ V) (hp : ∀ st x b r, (p.iter st x b r).isSome = true) (maxSteps : ℤ) (ce print se : Bool)
    (rtol : ℝ) (st : σ) (x b res : V) (ini xz ru : Bool) :
    (solveB p maxSteps ce print se rtol st x b res ini xz ru).isSome = true := by
  have key : ∀ (comp : Bool) (n : ℕ) (s : Run σ V), (loop p ce comp se rtol b n s).isSome = true := by
    intro comp n
    induction n with
    | zero => intro s; rfl
    | succ n ih =>
      intro s
      rw [loop]
      by_cases hc : s.converged = true
      · rw [if_pos hc]; rfl
      · rw [if_neg hc]
        have := hp s.st s.x b s.res
        rcases hi : p.iter s.st s.x b s.res with _ | t
        · simp [hi] at this
        · simp only [Option.bind_some]; exact ih _
  simp only [solveB, Option.isSome_map]
  exact key _ _ _

/-- **C36 fails (number of steps).** A converged solve always reports one step more than it performed. -/
theorem neededSteps_wrong (p : Impl σ V) (maxSteps : ℤ) (print se : Bool) (rtol : ℝ) (st : σ) (x b res : V)
    (ini xz : Bool) (hxz : xz = true → startX x ini = 0) (hr : 0 < rtol) (s : Run σ V) (needed : ℤ)
    (h : solveB p maxSteps true print se rtol st x b res ini xz false = some (s, needed)) (hc : s.converged = true) :
    ∃ k : ℕ, traj p b st (startX x ini) (b - p.A (startX x ini)) k = some (s.st, s.x, s.res) ∧ s.currIter = k ∧
      needed = k + 1 ∧ needed ≠ k := by
  obtain ⟨k, -, h2, h3, -, -, -, -, -, h9, -⟩ :=
    solve_correct_partial p maxSteps print se rtol st x b res ini xz hxz (Or.inr (Or.inl hr)) s needed h
  rw [hc] at h9
  simp only [if_true] at h9
  exact ⟨k, h3, h2, h9, by omega⟩

/-- **C36 fails (convergence).** With a tolerance that is not positive, no printing and no saving of errors, the solver reports
convergence after one step, whatever the error is: no error was ever computed. -/
theorem false_convergence (p : Impl σ V) (maxSteps : ℤ) (hm : 1 ≤ maxSteps) (rtol : ℝ) (hr : rtol ≤ 0) (st : σ)
    (x b res : V) (ini xz ru : Bool) (s : Run σ V) (needed : ℤ)
    (h : solveB p maxSteps true false false rtol st x b res ini xz ru = some (s, needed)) :
    s.converged = true ∧ s.currIter = 1 ∧ needed = 2 := by
  have hd : decide (rtol > 0) = false := by simpa using hr
  simp only [solveB, hd] at h
  simp only [Bool.and_false, Bool.or_self, Bool.false_eq_true, if_false] at h
  obtain ⟨s1, hs1, hs2⟩ := Option.map_eq_some_iff.1 h
  simp only [Prod.mk.injEq] at hs2
  obtain ⟨rfl, hn⟩ := hs2
  obtain ⟨k, h1, h2, h3, h4, h5, h6, h7, h8, h9⟩ := loop_spec p true false false rtol b _ _ s1 rfl hs1
  simp only [Bool.false_eq_true, false_and, if_false] at h6 h7 h8
  have hlt : (-1 : ℝ) < rtol * -1 := by linarith
  have hk : k = 1 := by
    rcases k with _ | _ | k
    · have := h5 (by omega)
      have := (h7.1 this).1
      omega
    · rfl
    · exact absurd hlt (h8 (by trivial) 1 (by omega) (by omega))
  subst hk
  have hc : s1.converged = true := h7.2 ⟨by omega, by trivial, by rw [h6]; exact hlt⟩
  refine ⟨hc, by simpa using h2, ?_⟩
  rw [← hn, hc, h2]; simp

/-- **C36 fails (undefined flag).** No sequence of calls of the public setters initialises the flag that switches error checking
on: every solve of every object reads an uninitialised variable. -/
theorem solve_ub (p : Impl σ V) (maxSteps : ℤ) (rtol : ℝ) (print : Bool) (calls : List Setter) (st : σ) (x b res : V)
    (ini xz ru : Bool) :
    solve p (calls.foldl Setter.run (Cfg.new maxSteps rtol print)) st x b res ini xz ru = none := by
  have key : ∀ c : Cfg, c.checkError = none → (calls.foldl Setter.run c).checkError = none := by
    induction calls with
    | nil => intro c hc; exact hc
    | cons a l ih => intro c hc; exact ih _ (by cases a <;> exact hc)
  simp [solve, key (Cfg.new maxSteps rtol print) rfl]

/-- a zero initial error is never reported as converged -/
theorem zero_error_not_converged (p : Impl σ V) (maxSteps : ℤ) (print se : Bool) (rtol : ℝ) (hr : 0 < rtol) (st : σ)
    (x b res : V) (ini : Bool) (s : Run σ V) (needed : ℤ)
    (h : solveB p maxSteps true print se rtol st x b res ini false false = some (s, needed))
    (hp : ∀ x b r, 0 ≤ p.err x b r)
    (h0 : p.err (startX x ini) b (b - p.A (startX x ini)) = 0) : s.converged = false ∧ needed = -1 := by
  obtain ⟨k, -, h2, h3, -, h5, h6, h7, -, h9, -⟩ :=
    solve_correct_partial p maxSteps print se rtol st x b res ini false (by simp) (Or.inr (Or.inl hr)) s needed h
  have e0 : errAt p b st (startX x ini) (b - p.A (startX x ini)) 0 = 0 := by simpa [errAt, traj] using h0
  have : ¬ s.converged = true := by
    intro hc
    have := (h7.1 hc).2
    rw [e0, mul_zero] at this
    have hk : errAt p b st (startX x ini) (b - p.A (startX x ini)) k ≥ 0 := by
      simp only [errAt, h3, Option.map_some, Option.getD_some]; exact hp _ _ _
    linarith
  have hc : s.converged = false := by simpa using this
  exact ⟨hc, by rw [h9, hc]; simp⟩

/-- **C37.** As an operator, the solver does not read the output vector or the work residual. (The private state, e.g. the work
vectors of a multigrid object, is treated in `amgSolver_pure`.) -/
theorem mult_pure (p : Impl σ V) (maxSteps : ℤ) (ce print se : Bool) (rtol : ℝ) (st : σ) (w w' b x x' : V) :
    multB p maxSteps ce print se rtol st w b x = multB p maxSteps ce print se rtol st w' b x' := by
  simp [multB, solveB]

theorem multAdd_correct (p : Impl σ V) (maxSteps : ℤ) (ce print se : Bool) (rtol : ℝ) (st : σ) (w w' wx b x x' : V)
    (s : ℝ) : (multAddB p maxSteps ce print se rtol st w wx s b x).map Prod.fst =
      ((multB p maxSteps ce print se rtol st w' b x').map Prod.fst).map fun y => x + s • y := by
  unfold multAddB
  rw [mult_pure p maxSteps ce print se rtol st w w' b wx x']
  simp [Option.map_map, Function.comp_def]

/-! ### multigrid as solver -/

section amg
variable {V : ℕ → Type*} [∀ l, AddCommGroup (V l)] [∀ l, Module ℝ (V l)]
variable {m : Mat V} {A : ∀ l, V l →ₗ[ℝ] V l} {f g : ∀ l, V l → V l → V l}

/-- iterates are V-cycles, and the residual is always that of the iterate -/
theorem amg_traj (h : SmOK m A f g) (hn : 2 ≤ m.n) (norm : V 0 → ℝ) (b : V 0) (w : Mem V) (x : V 0) (k : ℕ) :
    ∃ w', traj (amgImpl m (A 0) norm) b w x (b - A 0 x) k =
      some (w', (fun y => vcycleFrom (hier m A f g) (m.n - 2) 0 y b)^[k] x,
        b - A 0 ((fun y => vcycleFrom (hier m A f g) (m.n - 2) 0 y b)^[k] x)) := by
  induction k with
  | zero => exact ⟨w, rfl⟩
  | succ k ih =>
    obtain ⟨w', hw⟩ := ih
    set y := (fun y => vcycleFrom (hier m A f g) (m.n - 2) 0 y b)^[k] x with hy
    obtain ⟨w2, r2, e1, e2, -⟩ := smoothVFrom_correct h w' 0 (by omega) y b (b - A 0 y) true true false
      ⟨fun _ => rfl, by simp⟩
    refine ⟨w2, ?_⟩
    rw [traj, hw, Option.bind_some, Function.iterate_succ_apply', ← hy]
    simp only [amgImpl]
    rw [e1, e2 rfl]; rfl

/-- **C37 (multigrid solver).** The result of applying the multigrid solver depends on the right hand side only: not on the output
vector, the work residual, or the work vectors (earlier applications). It never fails on two or more levels. -/
theorem amgSolver_pure (h : SmOK m A f g) (hn : 2 ≤ m.n) (norm : V 0 → ℝ) (maxSteps : ℤ) (ce print se : Bool) (rtol : ℝ)
    (w w' : Mem V) (r r' b x x' : V 0) :
    ∃ y, (multB (amgImpl m (A 0) norm) maxSteps ce print se rtol w r b x).map Prod.fst = some y ∧
      (multB (amgImpl m (A 0) norm) maxSteps ce print se rtol w' r' b x').map Prod.fst = some y ∧
      ∃ k ≤ maxSteps.toNat, y = (fun y => vcycleFrom (hier m A f g) (m.n - 2) 0 y b)^[k] 0 := by
  set p := amgImpl m (A 0) norm with hp
  have step : ∀ (comp : Bool) (n : ℕ) (s s' : Run (Mem V) (V 0)),
      s.x = s'.x → s.res = b - A 0 s.x → s'.res = b - A 0 s'.x →
      s.initErr = s'.initErr → s.currErr = s'.currErr → s.converged = s'.converged →
      ∃ t t' : Run (Mem V) (V 0), loop p ce comp se rtol b n s = some t ∧ loop p ce comp se rtol b n s' = some t' ∧
        t.x = t'.x ∧ ∃ k ≤ n, t.x = (fun y => vcycleFrom (hier m A f g) (m.n - 2) 0 y b)^[k] s.x := by
    intro comp n
    induction n with
    | zero => intro s s' h1 h2 h3 h4 h5 h6; exact ⟨s, s', rfl, rfl, h1, 0, le_rfl, rfl⟩
    | succ n ih =>
      intro s s' h1 h2 h3 h4 h5 h6
      by_cases hc : s.converged = true
      · refine ⟨s, s', by simp [loop, hc], by simp [loop, ← h6, hc], h1, 0, by omega, rfl⟩
      · obtain ⟨w2, r2, e1, e2, -⟩ := smoothVFrom_correct h s.st 0 (by omega) s.x b s.res true true false
          ⟨fun _ => h2, by simp⟩
        obtain ⟨w3, r3, e3, e4, -⟩ := smoothVFrom_correct h s'.st 0 (by omega) s'.x b s'.res true true false
          ⟨fun _ => h3, by simp⟩
        have i1 : p.iter s.st s.x b s.res = _ := e1
        have i2 : p.iter s'.st s'.x b s'.res = _ := e3
        rw [loop, loop, if_neg hc, if_neg (by rw [← h6]; exact hc), i1, i2]
        simp only [Option.bind_some]
        obtain ⟨t, t', a1, a2, a3, k, hk, a4⟩ := ih
          { st := w2, x := vcycleFrom (hier m A f g) (m.n - 2 - 0) 0 s.x b, res := r2, initErr := s.initErr,
            currErr := if comp then p.err (vcycleFrom (hier m A f g) (m.n - 2 - 0) 0 s.x b) b r2 else s.currErr,
            currIter := s.currIter + 1,
            converged := if ce then
              decide ((if comp then p.err (vcycleFrom (hier m A f g) (m.n - 2 - 0) 0 s.x b) b r2 else s.currErr)
                < rtol * s.initErr) else s.converged,
            errs := if se then s.errs ++ [if comp then p.err (vcycleFrom (hier m A f g) (m.n - 2 - 0) 0 s.x b) b r2
              else s.currErr] else s.errs }
          { st := w3, x := vcycleFrom (hier m A f g) (m.n - 2 - 0) 0 s'.x b, res := r3, initErr := s'.initErr,
            currErr := if comp then p.err (vcycleFrom (hier m A f g) (m.n - 2 - 0) 0 s'.x b) b r3 else s'.currErr,
            currIter := s'.currIter + 1,
            converged := if ce then
              decide ((if comp then p.err (vcycleFrom (hier m A f g) (m.n - 2 - 0) 0 s'.x b) b r3 else s'.currErr)
                < rtol * s'.initErr) else s'.converged,
            errs := if se then s'.errs ++ [if comp then p.err (vcycleFrom (hier m A f g) (m.n - 2 - 0) 0 s'.x b) b r3
              else s'.currErr] else s'.errs }
          (by simp only [h1]) (e2 rfl) (e4 rfl) h4 (by rw [e2 rfl, e4 rfl, h1, h5]) (by rw [e2 rfl, e4 rfl, h1, h5, h4, h6])
        exact ⟨t, t', a1, a2, a3, k + 1, by omega, by rw [a4]; rfl⟩
  unfold multB solveB
  simp only [Bool.not_false, if_true]
  obtain ⟨t, t', a1, a2, a3, k, hk, a4⟩ := step (print || (ce && decide (rtol > 0)) || se) maxSteps.toNat
    ⟨w, 0, b - p.A 0, if (print || (ce && decide (rtol > 0)) || se) = true then p.err 0 b (b - p.A 0) else -1,
      if (print || (ce && decide (rtol > 0)) || se) = true then p.err 0 b (b - p.A 0) else -1, 0, false,
      if se = true then [if (print || (ce && decide (rtol > 0)) || se) = true then p.err 0 b (b - p.A 0) else -1] else []⟩
    ⟨w', 0, b - p.A 0, if (print || (ce && decide (rtol > 0)) || se) = true then p.err 0 b (b - p.A 0) else -1,
      if (print || (ce && decide (rtol > 0)) || se) = true then p.err 0 b (b - p.A 0) else -1, 0, false,
      if se = true then [if (print || (ce && decide (rtol > 0)) || se) = true then p.err 0 b (b - p.A 0) else -1] else []⟩
    rfl rfl rfl rfl rfl rfl
  rw [a1, a2]
  exact ⟨t.x, rfl, by simp [a3], k, hk, a4⟩

end amg

/-- concrete instance of the hypotheses: the three level hierarchy -/
example := amgSolver_pure (A := exData.A) (fun l hl => ⟨exMat_realizes.F l hl, exMat_realizes.B l hl⟩) (by simp [exMat])
  (fun r => |r|) 10 true false false (1 / 2)

/-- and a converging solve exists: halving the error in each step, tolerance 0.6 -/
noncomputable def exImpl : Impl Unit ℝ := ⟨LinearMap.id, fun _ x b _ => some ((), x + (b - x) / 2, (b - x) / 2), fun _ _ r => |r|⟩

example : ∃ s, solveB exImpl 5 true false false (6 / 10) () 3 1 0 true false false = some (s, 2) ∧ s.converged = true := by
  have h1 : decide ((6 / 10 : ℝ) > 0) = true := by norm_num
  simp [solveB, h1, exImpl, loop]
  norm_num [loop, abs_of_pos]
  exact ⟨_, ⟨rfl, by norm_num⟩, rfl⟩

end NgsAMG.LS
