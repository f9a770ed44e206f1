import Verif.Model.AMGMatrix2
import Verif.Props.AMGMatrix

/-! C20, C21, C25, C28 for `CINV`, the embedded multigrid operator, and multigrid as a smoother. -/

namespace NgsAMG.AMG
open Sm Spec

variable {V : ℕ → Type*} [∀ l, AddCommGroup (V l)] [∀ l, Module ℝ (V l)]
variable {m : Mat V} {A : ∀ l, V l →ₗ[ℝ] V l} {f g : ∀ l, V l → V l → V l}
variable {U : Type*} [AddCommGroup U] [Module ℝ U]

/-! ### coarse projection -/

/-- specification: restrict `k` times, solve, prolongate `k` times -/
def coarseProj (m : Mat V) (ci : ∀ l, V l → V l) : (k l : ℕ) → V l → V l
  | 0, l, b => ci l b
  | k + 1, l, b => m.P l (coarseProj m ci k (l + 1) (m.R l b))

/-- restriction loop, solve, prolongation loop for levels `l, …, l+k` -/
def cinvRun (m : Mat V) (ci : ∀ l, V l → V l) (k l : ℕ) (w : Mem V) : Mem V :=
  let w2 := (List.range' l k).foldl
      (fun (w : Mem V) l => { w with rhs := Function.update w.rhs (l + 1) (m.R l (w.rhs l)) }) w
  let w3 : Mem V := { w2 with xl := Function.update w2.xl (m.n - 1) (ci _ (w2.rhs (m.n - 1))) }
  (List.range' l k).reverse.foldl
      (fun (w : Mem V) l => { w with xl := Function.update w.xl l (m.P l (w.xl (l + 1))) }) w3

theorem cinvRun_succ (ci : ∀ l, V l → V l) (k l : ℕ) (w : Mem V) :
    cinvRun m ci (k + 1) l w =
      (let w' := cinvRun m ci k (l + 1) { w with rhs := Function.update w.rhs (l + 1) (m.R l (w.rhs l)) }
       { w' with xl := Function.update w'.xl l (m.P l (w'.xl (l + 1))) }) := by
  simp [cinvRun, List.range'_succ, List.foldl_append]

theorem cinvRun_spec (ci : ∀ l, V l → V l) (k l : ℕ) (w : Mem V) (hk : l + k + 1 = m.n) :
    (cinvRun m ci k l w).xl l = coarseProj m ci k l (w.rhs l) := by
  induction k generalizing l w with
  | zero =>
    have hl : m.n - 1 = l := by omega
    subst hl
    simp [cinvRun, coarseProj]
  | succ k ih =>
    rw [cinvRun_succ]
    simp only [Function.update_self]
    rw [ih (l + 1) _ (by omega)]
    simp [coarseProj]

/-- **C20 (coarse inverse).** `CINV` computes the coarse projection, for any number of levels and any content of the work
vectors; afterwards the level-0 work vectors are what they were before. -/
theorem cinv_correct (ci : ∀ l, V l → V l) (hci : m.crsInv = some ci) (hn : 1 ≤ m.n) (w : Mem V) (b x : V 0) :
    ∃ w', cinv m w b x = some (coarseProj m ci (m.n - 1) 0 b, w') ∧ w'.xl 0 = w.xl 0 ∧ w'.rhs 0 = w.rhs 0 := by
  have h := cinvRun_spec (m := m) ci (m.n - 1) 0
    { w with xl := Function.update w.xl 0 x, rhs := Function.update w.rhs 0 b } (by omega)
  simp only [Function.update_self] at h
  rw [← h]
  unfold cinv cinvRun
  rw [hci, List.range_eq_range']
  exact ⟨_, rfl, by simp, by simp⟩

/-! ### embedded operator -/

/-- what the inner cycle computes, with one level: the coarse solve -/
def innerCycle (hh : Hier V) (m : Mat V) (vwb : ℤ) (b : V 0) : V 0 :=
  if m.n ≤ 1 then crsFun m 0 b else cycleOf hh m.n vwb b

theorem smoothOwn_correct (h : SmOK m A f g) (hn : 1 ≤ m.n) (vwb : ℤ)
    (hv : vwb = 0 ∨ (2 ≤ m.n ∧ (vwb = 1 ∨ vwb = 2))) (w : Mem V) :
    ∃ w', smoothOwn m vwb w = some w' ∧ w'.xl 0 = innerCycle (hier m A f g) m vwb (w.rhs 0) := by
  unfold smoothOwn innerCycle
  by_cases h1 : m.n ≤ 1
  · have hv0 : vwb = 0 := by omega
    have hn1 : m.n = 1 := by omega
    subst hv0
    refine ⟨_, by simp [smooth]; rfl, ?_⟩
    have h0 : ∀ w : Mem V, (coarse m w).xl 0 = crsFun m 0 (w.rhs 0) := by
      intro w
      have : m.n - 1 = 0 := by omega
      unfold coarse; rw [this]; simp [crsFun]
    simp [hn1, smoothV, h0]
  · have := smooth_xu h (by omega) vwb (by tauto) (w.rhs 0) ⟨w.xl 0, w⟩
    rcases hs : smooth m vwb (w.rhs 0) ⟨w.xl 0, w⟩ with _ | t
    · simp [hs] at this
    · simp only [hs, Option.map_some, Option.some.injEq] at this
      exact ⟨_, rfl, by simp [h1, this]⟩

/-- **C20/C21/C25 (embedded operator).** With a finest-level smoother: smooth from zero, restrict the residual, inner cycle,
prolongate, smooth backwards. Without: pure subspace correction with the inner V-cycle. In both cases a pure function
of `b`. One inner level is allowed. -/
theorem emb_mult_correct (e : Emb U V) (h : SmOK e.clm A f g) (hn : 1 ≤ e.clm.n)
    (hv : e.vwb = 0 ∨ (2 ≤ e.clm.n ∧ (e.vwb = 1 ∨ e.vwb = 2))) (w : Mem V) (b : U) :
    (∀ F B, e.fls = some (F, B) → ∀ (AU : U →ₗ[ℝ] U) (p q : U → U → U), Contract AU F p → Contract AU B q →
      (e.mult w b).map Prod.fst =
        some (q (p 0 b + e.P (innerCycle (hier e.clm A f g) e.clm e.vwb (e.R (b - AU (p 0 b))))) b)) ∧
    (e.fls = none → (e.mult w b).map Prod.fst =
        some (e.P (innerCycle (hier e.clm A f g) e.clm 0 (e.R b)))) := by
  constructor
  · intro F B hf AU p q hF hB
    have hF' := hF 0 b b true true true ⟨by simp, by simp⟩
    obtain ⟨w', e1, e2⟩ := smoothOwn_correct h hn e.vwb hv
      { w with rhs := Function.update w.rhs 0 (e.R (F 0 b b true true true).2) }
    simp only [Emb.mult, hf, e1, Option.map_some]
    rw [e2]
    simp only [Function.update_self]
    rw [(hB _ b _ false false false ⟨by simp, by simp⟩).1, hF'.2 rfl, hF'.1]
  · intro hf
    obtain ⟨w', e1, e2⟩ := smoothOwn_correct h hn 0 (Or.inl rfl)
      { w with rhs := Function.update w.rhs 0 (e.R b) }
    simp only [Emb.mult, hf, e1, Option.map_some]
    rw [e2]
    simp only [Function.update_self]

/-- **C25 (embedded MultAdd).** -/
theorem emb_multAdd_correct (e : Emb U V) (w : Mem V) (s : ℝ) (b x y : U)
    (hm : (e.mult w b).map Prod.fst = some y) : (e.multAdd w s b x).map Prod.fst = some (x + s • y) := by
  unfold Emb.multAdd
  rcases ht : e.mult w b with _ | t
  · simp [ht] at hm
  · simp [ht] at hm ⊢; rw [hm]

/-! ### multigrid as a smoother -/

/-- iteration of the multigrid smoother: V-cycle; or (single fine level smoothing) coarse correction then forward
smoothing -/
def amgIter (hh : Hier V) (n : ℕ) (single : Bool) (sl : ℕ) (x b : V sl) : V sl :=
  if single then hh.f sl (x + hh.P sl (vcycleFrom hh (n - 2 - (sl + 1)) (sl + 1) 0 (hh.R sl (b - hh.A sl x)))) b
  else vcycleFrom hh (n - 2 - sl) sl x b

/-- backward: V-cycle; or backward smoothing then coarse correction -/
def amgIterBack (hh : Hier V) (n : ℕ) (single : Bool) (sl : ℕ) (x b : V sl) : V sl :=
  if single then
    let y := hh.g sl x b
    y + hh.P sl (vcycleFrom hh (n - 2 - (sl + 1)) (sl + 1) 0 (hh.R sl (b - hh.A sl y)))
  else vcycleFrom hh (n - 2 - sl) sl x b

/-- **C28 (multigrid as smoother).** If the start level has the coarser levels the variant needs, the smoother contract holds in
both directions, for every content of the work vectors. -/
theorem amgSmooth_contract (h : SmOK m A f g) (w : Mem V) (single : Bool) (sl : ℕ)
    (hsl : sl + (if single then 2 else 1) < m.n) (x b res : V sl) (ru ur xz : Bool)
    (ht : FlagsTruthful (A sl) x b res ru xz) :
    (∃ w' r', amgSmooth m w single sl (A sl) x b res ru ur xz =
        some (w', amgIter (hier m A f g) m.n single sl x b, r') ∧
      (ur = true → r' = b - A sl (amgIter (hier m A f g) m.n single sl x b))) ∧
    (∃ w' r', amgSmoothBack m w single sl (A sl) x b res ru ur xz =
        some (w', amgIterBack (hier m A f g) m.n single sl x b, r') ∧
      (ur = true → r' = b - A sl (amgIterBack (hier m A f g) m.n single sl x b))) := by
  rcases single with _ | _
  · simp only [Bool.false_eq_true, if_false] at hsl
    obtain ⟨w', r', e1, e2, -⟩ := smoothVFrom_correct h w sl hsl x b res ru ur xz ht
    simp only [amgSmooth, amgSmoothBack, amgIter, amgIterBack, Bool.false_eq_true, if_false]
    exact ⟨⟨w', r', e1, e2⟩, ⟨w', r', e1, e2⟩⟩
  · simp only [if_true] at hsl
    constructor
    · have hres : (if !ru then calcResiduum (A sl) x b xz else res) = b - A sl x := by
        rcases ru with _ | _
        · simpa using calcResiduum_eq (A sl) x b xz ht.2
        · simpa using ht.1 rfl
      simp only [amgSmooth, if_true, hres]
      rw [if_pos (by omega), if_pos (by omega)]
      obtain ⟨w', r', e1, -, -⟩ := smoothVFrom_correct h
        { w with rhs := Function.update w.rhs (sl + 1) (m.R sl (b - A sl x)) } (sl + 1) (by omega) 0
        (m.R sl (b - A sl x)) (w.res (sl + 1)) false false true ⟨by simp, by simp⟩
      rw [e1, Option.map_some]
      set c := vcycleFrom (hier m A f g) (m.n - 2 - (sl + 1)) (sl + 1) 0 (m.R sl (b - A sl x)) with hc
      have hF := (h sl (by omega)).1 (x + m.P sl c) b (b - A sl x) false ur false ⟨by simp, by simp⟩
      refine ⟨{ w' with xl := Function.update w'.xl (sl + 1) c, res := Function.update w'.res (sl + 1) r' },
        (m.F sl (x + m.P sl c) b (b - A sl x) false ur false).2, ?_, hF.2⟩
      simp only [Option.some.injEq, Prod.mk.injEq]
      exact ⟨trivial, hF.1, trivial⟩
    · have hB := (h sl (by omega)).2 x b res ru true xz ht
      simp only [amgSmoothBack, if_true]
      rw [if_pos (by omega), if_pos (by omega), hB.1, hB.2 rfl]
      obtain ⟨w', r', e1, -, -⟩ := smoothVFrom_correct h
        { w with res := Function.update w.res (sl + 1) (m.R sl (b - A sl (g sl x b))) } (sl + 1) (by omega) 0
        (m.R sl (b - A sl (g sl x b))) (w.rhs (sl + 1)) false false true ⟨by simp, by simp⟩
      rw [e1, Option.map_some]
      refine ⟨_, _, rfl, ?_⟩
      intro hu
      rw [if_pos hu]; rfl

/-- **C28 fails for the single-smoothing variant on the second-coarsest level.** The availability test in the code does not
exclude it: levels that do not exist are accessed. -/
theorem amgSmooth_single_ub (w : Mem V) (sl : ℕ) (hsl : sl + 2 = m.n) (sysA : V sl →ₗ[ℝ] V sl)
    (x b res : V sl) (ru ur xz : Bool) :
    amgSmooth m w true sl sysA x b res ru ur xz = none := by
  have h1 : ¬ (sl + 1 + 1 < m.n) := by omega
  simp only [amgSmooth, if_true]
  rw [if_pos (by omega), if_pos (by omega)]
  simp [smoothVFrom, h1]

end NgsAMG.AMG
