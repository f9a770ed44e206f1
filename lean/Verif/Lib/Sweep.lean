import Mathlib.LinearAlgebra.BilinearForm.Basic
import Mathlib.Data.Real.Basic
import Mathlib.Tactic.Module
import Mathlib.Tactic.Linarith
import Mathlib.Tactic.Abel

/-! Library (no code modelled here): successive subspace correction `x ← x + P i (b - A x)`, the mathematical
description all sweeping smoothers refine to. -/

namespace NgsAMG.Sweep

variable {V ι : Type*} [AddCommGroup V] [Module ℝ V]

/-- one correction `x + P (b - A x)` -/
def corr (A P : V →ₗ[ℝ] V) (x b : V) : V := x + P (b - A x)

/-- a sequence of corrections -/
def sweep (A : V →ₗ[ℝ] V) (P : ι → V →ₗ[ℝ] V) (L : List ι) (x b : V) : V :=
  L.foldl (fun x i => corr A (P i) x b) x

variable {A : V →ₗ[ℝ] V} {P : ι → V →ₗ[ℝ] V}

@[simp] theorem sweep_nil (x b : V) : sweep A P [] x b = x := rfl
@[simp] theorem sweep_cons (i : ι) (L : List ι) (x b : V) :
    sweep A P (i :: L) x b = sweep A P L (corr A (P i) x b) b := rfl
theorem sweep_append (L M : List ι) (x b : V) :
    sweep A P (L ++ M) x b = sweep A P M (sweep A P L x b) b := by simp [sweep, List.foldl_append]
theorem sweep_snoc (L : List ι) (i : ι) (x b : V) :
    sweep A P (L ++ [i]) x b = corr A (P i) (sweep A P L x b) b := by simp [sweep_append]

/-- a solution is a fixed point -/
theorem sweep_fixed (L : List ι) (x : V) : sweep A P L x (A x) = x := by
  induction L with
  | nil => rfl
  | cons i L ih => simp [corr, ih]

/-- the sweep is jointly linear in start vector and right hand side -/
theorem sweep_add (L : List ι) (x y b c : V) :
    sweep A P L (x + y) (b + c) = sweep A P L x b + sweep A P L y c := by
  induction L generalizing x y with
  | nil => rfl
  | cons i L ih =>
    simp only [sweep_cons]
    rw [← ih]; congr 1
    simp only [corr, map_add, map_sub]; abel

theorem sweep_smul (L : List ι) (s : ℝ) (x b : V) :
    sweep A P L (s • x) (s • b) = s • sweep A P L x b := by
  induction L generalizing x with
  | nil => rfl
  | cons i L ih =>
    simp only [sweep_cons]
    rw [← ih]; congr 1
    simp only [corr, map_smul, map_sub]; module

theorem sweep_zero (L : List ι) : sweep A P L 0 0 = 0 := by
  simpa using sweep_smul (A := A) (P := P) L 0 0 0

theorem sweep_sub (L : List ι) (x y b c : V) :
    sweep A P L (x - y) (b - c) = sweep A P L x b - sweep A P L y c := by
  have h := sweep_add (A := A) (P := P) L (x - y) y (b - c) c
  simp only [sub_add_cancel] at h
  rw [h]; abel

/-- starting from `x` is the same as adding the correction for the residual -/
theorem sweep_shift (L : List ι) (x b : V) :
    sweep A P L x b = x + sweep A P L 0 (b - A x) := by
  have h := sweep_sub (A := A) (P := P) L x x b (A x)
  rw [sweep_fixed, sub_self] at h
  rw [h]; abel

theorem sweep_cons_zero (i : ι) (L : List ι) (b : V) :
    sweep A P (i :: L) 0 b = P i b + sweep A P L 0 (b - A (P i b)) := by
  rw [sweep_cons, sweep_shift]; simp [corr]

/-- the reversed sweep is the adjoint of the sweep -/
theorem sweep_adjoint (B : LinearMap.BilinForm ℝ V)
    (hA : ∀ u v, B (A u) v = B u (A v)) (hP : ∀ i u v, B (P i u) v = B u (P i v)) (L : List ι) (b c : V) :
    B (sweep A P L 0 b) c = B b (sweep A P L.reverse 0 c) := by
  induction L generalizing b c with
  | nil => simp
  | cons i L ih =>
    rw [sweep_cons_zero, List.reverse_cons, sweep_snoc, corr]
    simp only [map_add, LinearMap.add_apply, map_sub]
    rw [ih]
    simp only [map_sub, LinearMap.sub_apply, hA, hP]
    ring

/-- the reversed sweep with adjoint corrections is the adjoint of the sweep -/
theorem sweep_adjoint2 (B : LinearMap.BilinForm ℝ V) {P' : ι → V →ₗ[ℝ] V}
    (hA : ∀ u v, B (A u) v = B u (A v)) (hP : ∀ i u v, B (P i u) v = B u (P' i v)) (L : List ι) (b c : V) :
    B (sweep A P L 0 b) c = B b (sweep A P' L.reverse 0 c) := by
  induction L generalizing b c with
  | nil => simp
  | cons i L ih =>
    rw [sweep_cons_zero, List.reverse_cons, sweep_snoc, corr]
    simp only [map_add, LinearMap.add_apply, map_sub]
    rw [ih]
    simp only [map_sub, LinearMap.sub_apply, hA, hP]
    ring

/-- energy of one correction of the error -/
theorem corr_energy (B : LinearMap.BilinForm ℝ V) (Q : V →ₗ[ℝ] V)
    (hA : ∀ u v, B (A u) v = B u (A v)) (hsym : ∀ u v, B u v = B v u)
    (hQ : ∀ r, B (A (Q r)) (Q r) ≤ 2 * B r (Q r)) (x xs : V) :
    B (A (xs - corr A Q x (A xs))) (xs - corr A Q x (A xs)) ≤ B (A (xs - x)) (xs - x) := by
  set e := xs - x with he
  have h1 : xs - corr A Q x (A xs) = e - Q (A e) := by
    simp only [corr, he, map_sub]; abel
  rw [h1]
  have := hQ (A e)
  simp only [map_sub, LinearMap.sub_apply]
  have h2 : B (A (Q (A e))) e = B (A e) (Q (A e)) := by
    rw [hA, hsym]
  linarith

theorem sweep_energy (B : LinearMap.BilinForm ℝ V)
    (hA : ∀ u v, B (A u) v = B u (A v)) (hsym : ∀ u v, B u v = B v u) (L : List ι)
    (hP : ∀ i ∈ L, ∀ r, B (A (P i r)) (P i r) ≤ 2 * B r (P i r)) (x xs : V) :
    B (A (xs - sweep A P L x (A xs))) (xs - sweep A P L x (A xs)) ≤ B (A (xs - x)) (xs - x) := by
  induction L generalizing x with
  | nil => simp
  | cons i L ih =>
    rw [sweep_cons]
    refine (ih (fun j hj => hP j (List.mem_cons_of_mem _ hj)) _).trans ?_
    exact corr_energy B (P i) hA hsym (hP i List.mem_cons_self) x xs

end NgsAMG.Sweep
