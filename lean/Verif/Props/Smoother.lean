import Verif.Model.Smoother
import Verif.Spec.SmootherContract
import Verif.Lib.Sweep
import Mathlib.Algebra.Algebra.Bilinear

/-! C28-C30: the smoother contract. -/

namespace NgsAMG.Sm
open Spec

variable {V W : Type*} [AddCommGroup V] [Module ℝ V] [AddCommGroup W] [Module ℝ W]

theorem calcResiduum_eq (A : V →ₗ[ℝ] V) (x b : V) (xz : Bool) (h : xz = true → x = 0) :
    calcResiduum A x b xz = b - A x := by
  unfold calcResiduum
  split_ifs with hx
  · simp [h hx]
  · rfl

/-- **C28 (Richardson, Jacobi).** -/
theorem richardson_contract (A prec : V →ₗ[ℝ] V) (omega : ℝ) :
    Contract A (richardson A prec omega) (fun x b => x + omega • prec (b - A x)) := by
  intro x b res ru ur xz ht
  have key : (richardson A prec omega x b res ru ur xz).1 = x + omega • prec (b - A x) := by
    unfold richardson
    rcases ru with _ | _
    · rcases xz with _ | _
      · rfl
      · have := ht.2 rfl; subst this; simp
    · simp [ht.1 rfl]
  refine ⟨key, fun hu => ?_⟩
  subst hu
  change b - A (richardson A prec omega x b res ru true xz).1 = _
  rw [key]

/-- the iteration of `SmoothK`: at least one step -/
def iterK (f : V → V → V) (k : ℤ) (x b : V) : V := (fun y => f y b)^[max 1 k.toNat] x

theorem repeatStep_contract (A : V →ₗ[ℝ] V) (F : Step V) (f : V → V → V) (hF : Contract A F f) (b : V) (ur : Bool)
    (n : ℕ) (s : V × V) (hs : ur = true → s.2 = b - A s.1) :
    (repeatStep F b ur n s).1 = (fun y => f y b)^[n] s.1 ∧
    (ur = true → (repeatStep F b ur n s).2 = b - A (repeatStep F b ur n s).1) := by
  induction n generalizing s with
  | zero => exact ⟨rfl, hs⟩
  | succ n ih =>
    have h := hF s.1 b s.2 ur ur false ⟨hs, by simp⟩
    have := ih (F s.1 b s.2 ur ur false) (fun hu => by rw [h.2 hu, h.1])
    rw [repeatStep]
    refine ⟨?_, this.2⟩
    rw [this.1, h.1, Function.iterate_succ_apply]

/-- **C29 (k steps).** `SmoothK`/`SmoothBackK` make exactly `max 1 k` sweeps and keep the contract. -/
theorem smoothK_contract (A : V →ₗ[ℝ] V) (F : Step V) (f : V → V → V) (hF : Contract A F f) (k : ℤ) :
    Contract A (smoothK F k) (iterK f k) := by
  intro x b res ru ur xz ht
  have h := hF x b res ru ur xz ht
  have := repeatStep_contract A F f hF b ur (k - 1).toNat (F x b res ru ur xz) (fun hu => by rw [h.2 hu, h.1])
  have hk : max 1 k.toNat = (k - 1).toNat + 1 := by omega
  have key : (smoothK F k x b res ru ur xz).1 = iterK f k x b := by
    unfold smoothK iterK
    rw [this.1, h.1, hk, Function.iterate_succ_apply]
  refine ⟨key, fun hu => ?_⟩
  rw [← key]; exact this.2 hu

/-- **C29 (symmetrized).** `SmoothSymm` is a forward then a backward sweep and keeps the contract. -/
theorem smoothSymm_contract (A : V →ₗ[ℝ] V) (F B : Step V) (f g : V → V → V) (hF : Contract A F f)
    (hB : Contract A B g) : Contract A (smoothSymm F B) (fun x b => g (f x b) b) := by
  intro x b res ru ur xz ht
  have h := hF x b res ru ur xz ht
  have h2 := hB (F x b res ru ur xz).1 b (F x b res ru ur xz).2 ur ur false ⟨fun hu => by rw [h.2 hu, h.1], by simp⟩
  rw [h.1] at h2
  unfold smoothSymm
  simp only [h.1]
  exact h2

/-- **C29 (proxy).** The proxy smoother performs `nsteps` (symmetrized) sweeps in both directions. -/
theorem proxy_contract (A : V →ₗ[ℝ] V) (F B : Step V) (f g : V → V → V) (hF : Contract A F f)
    (hB : Contract A B g) (n : ℤ) (symm : Bool) :
    Contract A (proxySmooth F B n symm) (if symm then iterK (fun x b => g (f x b) b) n else iterK f n) ∧
    Contract A (proxySmoothBack F B n symm) (if symm then iterK (fun x b => g (f x b) b) n else iterK g n) := by
  rcases symm with _ | _
  · exact ⟨smoothK_contract A F f hF n, smoothK_contract A B g hB n⟩
  · have := smoothK_contract A _ _ (smoothSymm_contract A F B f g hF hB) n
    exact ⟨this, this⟩

/-! ### Hiptmair smoother -/

/-- the stored products are what their names say -/
def HM.OK (h : HM V W) : Prop :=
  (∀ m, h.ARD = some m → ∀ w, m w = h.A (h.D w)) ∧ (∀ m, h.DTAR = some m → ∀ x, m x = h.DT (h.A x))

/-- correction in the potential space: `x + D p(0, D^T (b - A x))` -/
def potStep (h : HM V W) (p : W → W → W) (x b : V) : V := x + h.D (p 0 (h.DT (b - h.A x)))

/-- forward iteration of the Hiptmair smoother: potential and range correction in the announced order -/
def hmIter (h : HM V W) (p : W → W → W) (r : V → V → V) (x b : V) : V :=
  if h.potFirst then r (potStep h p x b) b else potStep h p (r x b) b

/-- backward iteration: the reverse order -/
def hmIterBack (h : HM V W) (p : W → W → W) (r : V → V → V) (x b : V) : V :=
  if h.potFirst then potStep h p (r x b) b else r (potStep h p x b) b

/-- the part common to both directions: with a residual that is valid if claimed, and a truthful zero flag -/
theorem pot_part (h : HM V W) (hok : h.OK) (Ap : W →ₗ[ℝ] W) (pot : Step W) (p : W → W → W) (hp : Contract Ap pot p)
    (respot : W) (x b res : V) (ru xz ur : Bool) (hr : ru = true → res = b - h.A x) (hx : xz = true → x = 0) :
    let c := calcPotRhs h x b res ru xz ru
    let a := applyPotUpdate h x (pot 0 c.2.1 respot false false true).1 b c.1 c.2.2 ur
    a.1 = potStep h p x b ∧ (ur = true → a.2 = b - h.A a.1) := by
  have hrhs : (calcPotRhs h x b res ru xz ru).2.1 = h.DT (b - h.A x) ∧
      ((calcPotRhs h x b res ru xz ru).2.2 = true → (calcPotRhs h x b res ru xz ru).1 = b - h.A x) := by
    unfold calcPotRhs
    rcases ru with _ | _
    · rcases hD : h.DTAR with _ | m
      · simp [calcResiduum_eq h.A x b xz hx]
      · simp [hok.2 m hD x, map_sub]
    · simp [hr rfl]
  intro c a
  have hsol : (pot 0 c.2.1 respot false false true).1 = p 0 (h.DT (b - h.A x)) := by
    rw [(hp 0 c.2.1 respot false false true ⟨by simp, by simp⟩).1, hrhs.1]
  have ha1 : a.1 = potStep h p x b := by
    change x + h.D _ = _
    rw [hsol]; rfl
  refine ⟨ha1, fun hu => ?_⟩
  subst hu
  have ha1' : a.1 = x + h.D (pot 0 c.2.1 respot false false true).1 := rfl
  simp only [a, applyPotUpdate, if_true]
  rcases hA : h.ARD with _ | m
  · rfl
  · simp only
    by_cases hc : c.2.2 = true
    · simp only [hc, Bool.not_true, Bool.false_eq_true, if_false]
      rw [hok.1 m hA, hrhs.2 hc, map_add]; abel
    · simp [hc]

/-- **C30 (forward).** -/
theorem hmSmooth_contract (h : HM V W) (hok : h.OK) (Ap : W →ₗ[ℝ] W) (pot : Step W) (p : W → W → W)
    (hp : Contract Ap pot p) (rng : Step V) (r : V → V → V) (hr : Contract h.A rng r) (respot : W) :
    Contract h.A (hmSmooth h pot rng respot) (hmIter h p r) := by
  intro x b res ru ur xz ht
  unfold hmSmooth hmIter
  rcases hpf : h.potFirst with _ | _
  · -- range first
    have h1 := hr x b res ru ru xz ht
    have h2 := pot_part h hok Ap pot p hp respot (rng x b res ru ru xz).1 b (rng x b res ru ru xz).2 ru false ur
      (fun hu => by rw [h1.2 hu, h1.1]) (by simp)
    simp only [Bool.not_false, if_true, Bool.false_eq_true, if_false]
    refine ⟨?_, fun hu => ?_⟩
    · rw [h2.1, h1.1]
    · rw [h2.2 hu, h2.1, h1.1]
  · -- potential first
    simp only [Bool.not_true, Bool.false_eq_true, if_false, if_true]
    have h2 := pot_part h hok Ap pot p hp respot x b res ru xz (calcPotRhs h x b res ru xz ru).2.2 ht.1 ht.2
    have h3 := hr _ b _ (calcPotRhs h x b res ru xz ru).2.2 ur false ⟨h2.2, by simp⟩
    rw [h2.1] at h3
    rw [h2.1]
    exact h3

/-- **C30 (backward), partial.** The backward sweep meets the contract (with the reversed order of corrections) except
if range smoothing comes first (`potFirst`), the caller sets `x_zero` but not `res_updated`, and no `D^T A` is stored.
The excluded case is wrong in the code: see `hmSmoothBack_wrong`. -/
theorem hmSmoothBack_contract_partial (h : HM V W) (hok : h.OK) (Ap : W →ₗ[ℝ] W) (pot : Step W) (p : W → W → W)
    (hp : Contract Ap pot p) (rng : Step V) (r : V → V → V) (hr : Contract h.A rng r) (respot : W)
    (x b res : V) (ru ur xz : Bool) (ht : FlagsTruthful h.A x b res ru xz)
    (hex : h.potFirst = true → xz = true → ru = true ∨ h.DTAR.isSome = true) :
    (hmSmoothBack h pot rng respot x b res ru ur xz).1 = hmIterBack h p r x b ∧
    (ur = true → (hmSmoothBack h pot rng respot x b res ru ur xz).2 = b - h.A (hmIterBack h p r x b)) := by
  unfold hmSmoothBack hmIterBack
  rcases hpf : h.potFirst with _ | _
  · simp only [Bool.not_false, Bool.false_eq_true, if_false, if_true]
    have h2 := pot_part h hok Ap pot p hp respot x b res ru xz (calcPotRhs h x b res ru xz ru).2.2 ht.1 ht.2
    have h3 := hr _ b _ (calcPotRhs h x b res ru xz ru).2.2 ur false ⟨h2.2, by simp⟩
    rw [h2.1] at h3
    rw [h2.1]
    exact h3
  · have h1 := hr x b res ru ru xz ht
    simp only [Bool.not_true, Bool.false_eq_true, if_false, if_true]
    -- the flag x_zero has no influence in the cases that are not excluded
    have hirr : calcPotRhs h (rng x b res ru ru xz).1 b (rng x b res ru ru xz).2 ru xz ru =
        calcPotRhs h (rng x b res ru ru xz).1 b (rng x b res ru ru xz).2 ru false ru := by
      rcases xz with _ | _
      · rfl
      · rcases hex hpf rfl with hh | hh
        · subst hh; rfl
        · have : h.DTAR.isNone = false := by simpa [← Option.not_isSome] using hh
          unfold calcPotRhs
          rcases ru with _ | _ <;> simp [this]
    rw [hirr]
    have h2 := pot_part h hok Ap pot p hp respot (rng x b res ru ru xz).1 b (rng x b res ru ru xz).2 ru false ur
      (fun hu => by rw [h1.2 hu, h1.1]) (by simp)
    refine ⟨?_, fun hu => ?_⟩
    · rw [h2.1, h1.1]
    · rw [h2.2 hu, h2.1, h1.1]

/-- exact solver as a smoother on `ℝ` with matrix `1` (meets the contract with `f x b = b`) -/
noncomputable def exStep : Step ℝ := richardson (LinearMap.id) (LinearMap.id) 1

theorem exStep_contract : Contract (LinearMap.id : ℝ →ₗ[ℝ] ℝ) exStep (fun _ b => b) := by
  have := richardson_contract (LinearMap.id : ℝ →ₗ[ℝ] ℝ) LinearMap.id 1
  simpa [exStep] using this

/-- one-dimensional instance: `A = D = D^T = 1`, no stored products -/
def exHM (pf : Bool) : HM ℝ ℝ := ⟨pf, LinearMap.id, LinearMap.id, LinearMap.id, none, none⟩

theorem exHM_ok (pf : Bool) : (exHM pf).OK := by simp [HM.OK, exHM]

/-- **C30 (backward) fails.** With exact smoothers on `A = 1`, and truthful flags `x = 0`, `x_zero`, the backward sweep
for right hand side `1` returns `2` (and not the exact solution `1`, which it returns without the `x_zero` hint). -/
theorem hmSmoothBack_wrong :
    (hmSmoothBack (exHM true) exStep exStep 0 0 1 0 false false true).1 = 2 ∧
    (hmSmoothBack (exHM true) exStep exStep 0 0 1 0 false false false).1 = 1 ∧
    hmIterBack (exHM true) (fun _ b => b) (fun _ b => b) 0 1 = (1 : ℝ) := by
  refine ⟨?_, ?_, ?_⟩
  · norm_num [hmSmoothBack, exHM, exStep, richardson, calcPotRhs, calcResiduum, applyPotUpdate]
  · norm_num [hmSmoothBack, exHM, exStep, richardson, calcPotRhs, calcResiduum, applyPotUpdate]
  · norm_num [hmIterBack, exHM, potStep]

/-- hence it violates the contract for every iteration function -/
theorem hmSmoothBack_not_contract :
    ¬ ∃ f, Contract (exHM true).A (hmSmoothBack (exHM true) exStep exStep 0) f := by
  rintro ⟨f, hf⟩
  have h1 := (hf 0 1 0 false false true ⟨by simp, by simp⟩).1
  have h2 := (hf 0 1 0 false false false ⟨by simp, by simp⟩).1
  rw [hmSmoothBack_wrong.1] at h1
  rw [hmSmoothBack_wrong.2.1] at h2
  rw [← h1] at h2; norm_num at h2

/-- hypotheses of the forward theorem are satisfiable -/
example := hmSmooth_contract (exHM false) (exHM_ok false) LinearMap.id exStep (fun _ b => b) exStep_contract exStep
  (fun _ b => b) exStep_contract 5

/-! ### adjointness -/

/-- `f` is the linear iteration `x + M (b - A x)` -/
def LinIter (A M : V →ₗ[ℝ] V) (f : V → V → V) : Prop := ∀ x b, f x b = x + M (b - A x)

/-- `f`, `g` are adjoint as maps from right hand side to update from zero -/
def AdjIter (B : LinearMap.BilinForm ℝ V) (f g : V → V → V) : Prop := ∀ b c, B (f 0 b) c = B b (g 0 c)

theorem iterK_sweep (A M : V →ₗ[ℝ] V) (f : V → V → V) (hf : LinIter A M f) (k : ℤ) (x b : V) :
    iterK f k x b = Sweep.sweep A (fun _ : Unit => M) (List.replicate (max 1 k.toNat) ()) x b := by
  unfold iterK
  induction max 1 k.toNat generalizing x with
  | zero => rfl
  | succ n ih =>
    rw [Function.iterate_succ_apply, ih, List.replicate_succ, Sweep.sweep_cons, hf]; rfl

/-- **C29 (adjoint).** `k` backward sweeps are the adjoint of `k` forward sweeps. -/
theorem iterK_adjoint (B : LinearMap.BilinForm ℝ V) (A M M' : V →ₗ[ℝ] V) (hA : ∀ u v, B (A u) v = B u (A v))
    (hM : ∀ u v, B (M u) v = B u (M' v)) (f g : V → V → V) (hf : LinIter A M f) (hg : LinIter A M' g) (k : ℤ) :
    AdjIter B (iterK f k) (iterK g k) := by
  intro b c
  rw [iterK_sweep A M f hf, iterK_sweep A M' g hg]
  have := Sweep.sweep_adjoint2 (A := A) (P := fun _ : Unit => M) (P' := fun _ : Unit => M') B hA (fun _ => hM)
    (List.replicate (max 1 k.toNat) ()) b c
  rwa [List.reverse_replicate] at this

/-- **C29 (symmetry).** `k` symmetrized sweeps are a symmetric operator. -/
theorem iterK_symm_selfadjoint (B : LinearMap.BilinForm ℝ V) (A M M' : V →ₗ[ℝ] V)
    (hA : ∀ u v, B (A u) v = B u (A v)) (hsym : ∀ u v, B u v = B v u)
    (hM : ∀ u v, B (M u) v = B u (M' v)) (f g : V → V → V) (hf : LinIter A M f) (hg : LinIter A M' g) (k : ℤ) :
    AdjIter B (iterK (fun x b => g (f x b) b) k) (iterK (fun x b => g (f x b) b) k) := by
  have hM' : ∀ u v, B (M' u) v = B u (M v) := fun u v => by rw [hsym, ← hM, hsym]
  have hlin : LinIter A (M + M' - M' ∘ₗ A ∘ₗ M) (fun x b => g (f x b) b) := by
    intro x b
    have e : b - A (x + M (b - A x)) = (b - A x) - A (M (b - A x)) := by rw [map_add]; abel
    change g (f x b) b = _
    rw [hg (f x b) b, hf x b, e, map_sub M', LinearMap.sub_apply, LinearMap.add_apply, LinearMap.comp_apply,
      LinearMap.comp_apply]
    abel
  refine iterK_adjoint B A _ _ hA (fun u v => ?_) _ _ hlin hlin k
  simp only [LinearMap.sub_apply, LinearMap.add_apply, LinearMap.comp_apply, map_add, map_sub, hM, hM', hA]
  ring

/-- **C30 (adjoint).** If the potential and range space smoothers have adjoint backward sweeps and `D^T` is the adjoint
of `D`, the backward Hiptmair sweep (reverse order) is the adjoint of the forward one. -/
theorem hm_adjoint (h : HM V W) (B : LinearMap.BilinForm ℝ V) (C : LinearMap.BilinForm ℝ W)
    (hA : ∀ u v, B (h.A u) v = B u (h.A v)) (hD : ∀ w v, B (h.D w) v = C w (h.DT v))
    (hDT : ∀ v w, C (h.DT v) w = B v (h.D w))
    (Mr Mr' : V →ₗ[ℝ] V) (hM : ∀ u v, B (Mr u) v = B u (Mr' v)) (r r' : V → V → V)
    (hr : LinIter h.A Mr r) (hr' : LinIter h.A Mr' r')
    (Mp Mp' : W →ₗ[ℝ] W) (hMp : ∀ u v, C (Mp u) v = C u (Mp' v)) (p p' : W → W → W)
    (hp : ∀ w, p 0 w = Mp w) (hp' : ∀ w, p' 0 w = Mp' w) :
    AdjIter B (hmIter h p r) (hmIterBack h p' r') := by
  intro b c
  let P : Bool → V →ₗ[ℝ] V := fun i => if i then h.D ∘ₗ Mp ∘ₗ h.DT else Mr
  let P' : Bool → V →ₗ[ℝ] V := fun i => if i then h.D ∘ₗ Mp' ∘ₗ h.DT else Mr'
  have hP : ∀ i u v, B (P i u) v = B u (P' i v) := by
    intro i u v
    rcases i with _ | _
    · exact hM u v
    · simp only [P, P', if_true, LinearMap.comp_apply, hD, hMp, hDT]
  have pf : ∀ x b, potStep h p x b = Sweep.corr h.A (P true) x b := by
    intro x b; simp [potStep, Sweep.corr, P, hp]
  have pf' : ∀ x b, potStep h p' x b = Sweep.corr h.A (P' true) x b := by
    intro x b; simp [potStep, Sweep.corr, P', hp']
  have rf : ∀ x b, r x b = Sweep.corr h.A (P false) x b := by
    intro x b; simp [Sweep.corr, P, hr x b]
  have rf' : ∀ x b, r' x b = Sweep.corr h.A (P' false) x b := by
    intro x b; simp [Sweep.corr, P', hr' x b]
  unfold hmIter hmIterBack
  rcases h.potFirst with _ | _
  · have := Sweep.sweep_adjoint2 (A := h.A) B hA hP [false, true] b c
    simpa [pf, rf, pf', rf'] using this
  · have := Sweep.sweep_adjoint2 (A := h.A) B hA hP [true, false] b c
    simpa [pf, rf, pf', rf'] using this

/-- instance: a step count of 3 on `ℝ` with matrix 2 and damping -/
example : AdjIter ((LinearMap.mul ℝ ℝ)) (iterK (fun x b => x + (0.25 : ℝ) * (b - 2 * x)) 3)
    (iterK (fun x b => x + (0.25 : ℝ) * (b - 2 * x)) 3) :=
  iterK_adjoint ((LinearMap.mul ℝ ℝ)) (LinearMap.mulLeft ℝ 2) (LinearMap.mulLeft ℝ 0.25) (LinearMap.mulLeft ℝ 0.25)
    (fun u v => by simp; ring) (fun u v => by simp; ring) _ _ (fun x b => by simp) (fun x b => by simp) 3

end NgsAMG.Sm
