import Mathlib.Algebra.BigOperators.Group.Finset.Sigma
import Mathlib.Algebra.BigOperators.Ring.Finset
import Mathlib.Tactic.Ring

/-! Specification: dense matrices with run-time dimensions, and what a chain of grid transfer steps is supposed to do. -/

namespace NgsAMG.Spec

open Finset

/-- a vector; entries at indices beyond its size are never read -/
abbrev Vec (K : Type*) := ℕ → K

/-- a dense matrix with run-time height and width -/
structure DMat (K : Type*) where
  h : ℕ
  w : ℕ
  e : ℕ → ℕ → K

namespace DMat
variable {K : Type*} [CommRing K]

/-- matrix times vector -/
def mulVec (M : DMat K) (x : Vec K) : Vec K := fun i => ∑ j ∈ range M.w, M.e i j * x j

/-- matrix times matrix -/
def mul (M N : DMat K) : DMat K := ⟨M.h, N.w, fun i j => ∑ k ∈ range M.w, M.e i k * N.e k j⟩

/-- transposed matrix -/
def tr (M : DMat K) : DMat K := ⟨M.w, M.h, fun i j => M.e j i⟩

/-- Galerkin product `P^T A P` -/
def galerkin (P A : DMat K) : DMat K := mul (mul (tr P) A) P

theorem mulVec_mul (M N : DMat K) (x : Vec K) : (M.mul N).mulVec x = M.mulVec (N.mulVec x) := by
  funext i
  simp only [mulVec, mul, sum_mul, mul_sum]
  rw [sum_comm]
  exact sum_congr rfl fun k _ => sum_congr rfl fun j _ => by ring

theorem tr_mul (M N : DMat K) (hc : M.w = N.h) : (M.mul N).tr = N.tr.mul M.tr := by
  simp only [mul, tr, DMat.mk.injEq, true_and]
  refine funext fun i => funext fun j => ?_
  rw [hc]
  exact sum_congr rfl fun k _ => by ring

theorem mul_assoc' (L M N : DMat K) : (L.mul M).mul N = L.mul (M.mul N) := by
  simp only [mul, DMat.mk.injEq, true_and]
  refine funext fun i => funext fun j => ?_
  simp only [sum_mul, mul_sum]
  rw [sum_comm]
  exact sum_congr rfl fun k _ => sum_congr rfl fun l _ => by ring

theorem galerkin_mul (P Q A : DMat K) (hc : P.w = Q.h) :
    galerkin (P.mul Q) A = galerkin Q (galerkin P A) := by
  simp only [galerkin, tr_mul P Q hc, mul_assoc']

end DMat

/-- what one grid transfer step does: restriction `R`, prolongation `P`, and the coarse matrix it assembles
(`none`: the step cannot assemble matrices) -/
structure Act (K : Type*) where
  R : Vec K → Vec K
  P : Vec K → Vec K
  A : DMat K → Option (DMat K)

/-- the action of a prolongation matrix: `R x = P^T x`, `P x`, `P^T A P` -/
def Act.ofProl {K : Type*} [CommRing K] (M : DMat K) : Act K :=
  ⟨M.tr.mulVec, M.mulVec, fun A => some (M.galerkin A)⟩

/-- doing nothing -/
def Act.id (K : Type*) : Act K := ⟨fun x => x, fun x => x, some⟩

/-- first `a` (finer), then `b` (coarser) -/
def Act.comp {K : Type*} (a b : Act K) : Act K :=
  ⟨fun x => b.R (a.R x), fun x => a.P (b.P x), fun A => (a.A A).bind b.A⟩

/-- a chain of steps, finest first -/
def Act.chain {K : Type*} : List (Act K) → Act K
  | [] => Act.id K
  | a :: as => a.comp (Act.chain as)

end NgsAMG.Spec
