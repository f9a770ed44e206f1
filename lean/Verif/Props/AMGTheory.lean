import Verif.Props.AMGMatrix2

/-! C22, C23, C24, C41: the cycles are linear, symmetric, do not increase the energy error, and are positive definite. Stated
for the output of the modelled `Mult` at the end of the file. -/

namespace NgsAMG.Sweep
variable {V ι : Type*} [AddCommGroup V] [Module ℝ V] {A : V →ₗ[ℝ] V} {P : ι → V →ₗ[ℝ] V}

/-- a sweep from zero as linear map of the right hand side -/
def sweepLin (A : V →ₗ[ℝ] V) (P : ι → V →ₗ[ℝ] V) (L : List ι) : V →ₗ[ℝ] V where
  toFun b := sweep A P L 0 b
  map_add' b c := by simpa using sweep_add (A := A) (P := P) L 0 0 b c
  map_smul' s b := by simpa using sweep_smul (A := A) (P := P) L s 0 b

@[simp] theorem sweepLin_apply (L : List ι) (b : V) : sweepLin A P L b = sweep A P L 0 b := rfl

/-- `⟨A Q r, Q r⟩ ≤ 2 ⟨r, Q r⟩`: the correction `Q` never increases the energy -/
def Good (B : LinearMap.BilinForm ℝ V) (A Q : V →ₗ[ℝ] V) : Prop := ∀ r, B (A (Q r)) (Q r) ≤ 2 * B r (Q r)

/-- twice the energy functional of the system with right hand side `b` -/
def J (B : LinearMap.BilinForm ℝ V) (A : V →ₗ[ℝ] V) (b x : V) : ℝ := B (A x) x - 2 * B b x

theorem J_corr (B : LinearMap.BilinForm ℝ V) (hA : ∀ u v, B (A u) v = B u (A v)) (hsym : ∀ u v, B u v = B v u)
    (Q : V →ₗ[ℝ] V) (b x : V) :
    J B A b (corr A Q x b) = J B A b x + (B (A (Q (b - A x))) (Q (b - A x)) - 2 * B (b - A x) (Q (b - A x))) := by
  set r := b - A x with hr
  have hb : b = r + A x := by rw [hr]; abel
  unfold J corr
  rw [← hr]
  have h1 : B (A (Q r)) x = B (A x) (Q r) := by rw [hA, hsym]
  rw [hb]
  simp only [map_add, LinearMap.add_apply, h1]
  ring

theorem J_sweep (B : LinearMap.BilinForm ℝ V) (hA : ∀ u v, B (A u) v = B u (A v)) (hsym : ∀ u v, B u v = B v u)
    (L : List ι) (hP : ∀ i ∈ L, Good B A (P i)) (b x : V) : J B A b (sweep A P L x b) ≤ J B A b x := by
  induction L generalizing x with
  | nil => simp
  | cons i L ih =>
    rw [sweep_cons]
    refine (ih (fun j hj => hP j (List.mem_cons_of_mem _ hj)) _).trans ?_
    rw [J_corr B hA hsym]
    have := hP i List.mem_cons_self (b - A x)
    linarith

theorem Good.sweepLin (B : LinearMap.BilinForm ℝ V) (hA : ∀ u v, B (A u) v = B u (A v)) (hsym : ∀ u v, B u v = B v u)
    (L : List ι) (hP : ∀ i ∈ L, Good B A (P i)) : Good B A (sweepLin A P L) := by
  intro r
  have := J_sweep B hA hsym L hP r 0
  simp only [J, map_zero] at this
  rw [sweepLin_apply]
  simp at this ⊢
  linarith

end NgsAMG.Sweep

namespace NgsAMG.AMG
open Sm Spec Sweep

variable {V : ℕ → Type*} [∀ l, AddCommGroup (V l)] [∀ l, Module ℝ (V l)]

/-- linear data of a hierarchy: matrices, forward and backward smoothers `x + F (b - A x)`, transfers, coarse solver -/
structure LinData (V : ℕ → Type*) [∀ l, AddCommGroup (V l)] [∀ l, Module ℝ (V l)] where
  A : ∀ l, V l →ₗ[ℝ] V l
  F : ∀ l, V l →ₗ[ℝ] V l
  G : ∀ l, V l →ₗ[ℝ] V l
  R : ∀ l, V l →ₗ[ℝ] V (l + 1)
  P : ∀ l, V (l + 1) →ₗ[ℝ] V l
  C : ∀ l, V l →ₗ[ℝ] V l

/-- the hierarchy (in the sense of the specification) with these linear components -/
def LinData.hier (d : LinData V) : Hier V where
  A l := d.A l
  f l x b := x + d.F l (b - d.A l x)
  g l x b := x + d.G l (b - d.A l x)
  R l := d.R l
  P l := d.P l
  C l := d.C l

variable (d : LinData V)

/-- the corrections that make up a cycle on one level: pre-smoothing, coarse correction, post-smoothing, and the coarse
correction of the BS-cycle -/
inductive Ph | pre | crs | post | bs

/-- operators of the corrections on level `l`, `M`, `N` being the operators on the next level -/
def ops (l : ℕ) (M N : V (l + 1) →ₗ[ℝ] V (l + 1)) : Ph → V l →ₗ[ℝ] V l
  | .pre => d.F l
  | .crs => d.P l ∘ₗ M ∘ₗ d.R l
  | .post => d.G l
  | .bs => d.P l ∘ₗ N ∘ₗ d.R l

def vLin : (k l : ℕ) → V l →ₗ[ℝ] V l
  | 0, l => d.C l
  | k + 1, l => sweepLin (d.A l) (ops d l (vLin k (l + 1)) 0) [.pre, .crs, .post]

def wLin : (k l : ℕ) → V l →ₗ[ℝ] V l
  | 0, l => d.C l
  | k + 1, l => sweepLin (d.A l) (ops d l (wLin k (l + 1)) 0) [.pre, .crs, .post, .pre, .crs, .post]

def bsLin : (k l : ℕ) → V l →ₗ[ℝ] V l
  | 0, l => d.C l
  | k + 1, l => sweepLin (d.A l) (ops d l (vLin d k (l + 1)) (bsLin k (l + 1)))
      [.pre, .crs, .post, .bs, .pre, .crs, .post]

theorem vcycle_eq (k l : ℕ) (b : V l) : vcycle d.hier k l b = vLin d k l b := by
  induction k generalizing l with
  | zero => rfl
  | succ k ih =>
    simp only [vcycle, vLin, ih, sweepLin_apply]
    simp [LinData.hier, corr, ops]

theorem vcycleFrom_eq (k l : ℕ) (x b : V l) :
    vcycleFrom d.hier k l x b = sweep (d.A l) (ops d l (vLin d k (l + 1)) 0) [.pre, .crs, .post] x b := by
  simp [vcycleFrom, vcycle_eq]
  simp [LinData.hier, corr, ops]

theorem wcycle_eq (k l : ℕ) (b : V l) : wcycle d.hier k l b = wLin d k l b := by
  induction k generalizing l with
  | zero => rfl
  | succ k ih =>
    simp only [wcycle, wLin, ih, sweepLin_apply]
    simp [LinData.hier, corr, ops]

theorem bscycle_eq (k l : ℕ) (b : V l) : bscycle d.hier k l b = bsLin d k l b := by
  induction k generalizing l with
  | zero => rfl
  | succ k ih =>
    simp only [bscycle, vcycleFrom_eq, ih, bsLin, sweepLin_apply]
    simp [LinData.hier, corr, ops]

/-- **C22.** With linear components all cycles are linear maps of the right hand side. -/
theorem cycles_linear (n : ℕ) (vwb : ℤ) : ∃ M : V 0 →ₗ[ℝ] V 0, ∀ b, cycleOf d.hier n vwb b = M b := by
  unfold cycleOf
  by_cases h0 : vwb = 0
  · exact ⟨vLin d (n - 1) 0, fun b => by simp [h0, vcycle_eq]⟩
  by_cases h1 : vwb = 1
  · exact ⟨wLin d (n - 1) 0, fun b => by simp [h1, wcycle_eq]⟩
  · exact ⟨bsLin d (n - 1) 0, fun b => by simp [h0, h1, bscycle_eq]⟩

/-! ### symmetry -/

/-- symmetric level matrices and coarse solver, adjoint smoothers and transfers -/
structure SymData (B : ∀ l, LinearMap.BilinForm ℝ (V l)) : Prop where
  sym : ∀ l u v, B l u v = B l v u
  A : ∀ l u v, B l (d.A l u) v = B l u (d.A l v)
  FG : ∀ l u v, B l (d.F l u) v = B l u (d.G l v)
  RP : ∀ l u v, B (l + 1) (d.R l u) v = B l u (d.P l v)
  C : ∀ l u v, B l (d.C l u) v = B l u (d.C l v)

variable {d} {B : ∀ l, LinearMap.BilinForm ℝ (V l)}

/-- operators of the adjoint corrections -/
def opsAdj (d : LinData V) (l : ℕ) (M N : V (l + 1) →ₗ[ℝ] V (l + 1)) : Ph → V l →ₗ[ℝ] V l
  | .pre => d.G l
  | .post => d.F l
  | .crs => d.P l ∘ₗ M ∘ₗ d.R l
  | .bs => d.P l ∘ₗ N ∘ₗ d.R l

theorem ops_adj (h : SymData d B) (l : ℕ) {M N : V (l + 1) →ₗ[ℝ] V (l + 1)}
    (hM : ∀ u v, B (l + 1) (M u) v = B (l + 1) u (M v)) (hN : ∀ u v, B (l + 1) (N u) v = B (l + 1) u (N v))
    (i : Ph) (u v : V l) : B l (ops d l M N i u) v = B l u (opsAdj d l M N i v) := by
  have pr : ∀ w u, B l (d.P l w) u = B (l + 1) w (d.R l u) := fun w u => by rw [h.sym, ← h.RP, h.sym]
  cases i with
  | pre => exact h.FG l u v
  | post => change B l (d.G l u) v = B l u (d.F l v); rw [h.sym, ← h.FG, h.sym]
  | crs => simp only [ops, opsAdj, LinearMap.comp_apply]; rw [pr, hM, h.RP]
  | bs => simp only [ops, opsAdj, LinearMap.comp_apply]; rw [pr, hN, h.RP]

theorem vLin_symm (h : SymData d B) (k l : ℕ) (u v : V l) : B l (vLin d k l u) v = B l u (vLin d k l v) := by
  induction k generalizing l with
  | zero => exact h.C l u v
  | succ k ih =>
    have := sweep_adjoint2 (A := d.A l) (B l) (h.A l)
      (ops_adj h l (M := vLin d k (l + 1)) (N := 0) (ih (l + 1)) (by simp)) [.pre, .crs, .post] u v
    simpa [vLin, ops, opsAdj] using this

theorem wLin_symm (h : SymData d B) (k l : ℕ) (u v : V l) : B l (wLin d k l u) v = B l u (wLin d k l v) := by
  induction k generalizing l with
  | zero => exact h.C l u v
  | succ k ih =>
    have := sweep_adjoint2 (A := d.A l) (B l) (h.A l)
      (ops_adj h l (M := wLin d k (l + 1)) (N := 0) (ih (l + 1)) (by simp))
      [.pre, .crs, .post, .pre, .crs, .post] u v
    simpa [wLin, ops, opsAdj] using this

theorem bsLin_symm (h : SymData d B) (k l : ℕ) (u v : V l) : B l (bsLin d k l u) v = B l u (bsLin d k l v) := by
  induction k generalizing l with
  | zero => exact h.C l u v
  | succ k ih =>
    have := sweep_adjoint2 (A := d.A l) (B l) (h.A l)
      (ops_adj h l (M := vLin d k (l + 1)) (N := bsLin d k (l + 1)) (vLin_symm h k (l + 1)) (ih (l + 1)))
      [.pre, .crs, .post, .bs, .pre, .crs, .post] u v
    simpa [bsLin, ops, opsAdj] using this

/-- **C23.** With symmetric matrices and coarse solver, adjoint smoothers and adjoint transfers all cycles are symmetric. -/
theorem cycles_symmetric (h : SymData d B) (n : ℕ) (vwb : ℤ) (b c : V 0) :
    B 0 (cycleOf d.hier n vwb b) c = B 0 b (cycleOf d.hier n vwb c) := by
  unfold cycleOf
  split_ifs
  · rw [vcycle_eq, vcycle_eq, vLin_symm h]
  · rw [wcycle_eq, wcycle_eq, wLin_symm h]
  · rw [bscycle_eq, bscycle_eq, bsLin_symm h]

/-! ### energy -/

/-- Galerkin hierarchy with symmetric positive semidefinite matrices, smoothers that do not increase the energy of the error
(in the form of the usual condition `⟨A F r, F r⟩ ≤ 2 ⟨r, F r⟩`), and a coarse solver with this property -/
structure EnergyData (d : LinData V) (B : ∀ l, LinearMap.BilinForm ℝ (V l)) : Prop where
  sym : ∀ l u v, B l u v = B l v u
  A : ∀ l u v, B l (d.A l u) v = B l u (d.A l v)
  RP : ∀ l u v, B (l + 1) (d.R l u) v = B l u (d.P l v)
  galerkin : ∀ l u, d.A (l + 1) u = d.R l (d.A l (d.P l u))
  F : ∀ l, Good (B l) (d.A l) (d.F l)
  G : ∀ l, Good (B l) (d.A l) (d.G l)
  C : ∀ l, Good (B l) (d.A l) (d.C l)

/-- an exact coarse solver for a positive semidefinite matrix qualifies -/
theorem good_of_exact {W : Type*} [AddCommGroup W] [Module ℝ W] (B : LinearMap.BilinForm ℝ W) (A C : W →ₗ[ℝ] W)
    (hpos : ∀ u, 0 ≤ B (A u) u) (hC : ∀ r, A (C r) = r) : Good B A C := by
  intro r
  have := hpos (C r)
  rw [hC] at this ⊢
  linarith

/-- so does a symmetric pseudo inverse, `C A C = C` -/
theorem good_of_pinv {W : Type*} [AddCommGroup W] [Module ℝ W] (B : LinearMap.BilinForm ℝ W) (A C : W →ₗ[ℝ] W)
    (hpos : ∀ u, 0 ≤ B (A u) u) (hCs : ∀ u v, B (C u) v = B u (C v)) (hC : ∀ r, C (A (C r)) = C r) : Good B A C := by
  intro r
  have h1 : B (A (C r)) (C r) = B r (C r) := by
    rw [← hCs, hC, hCs]
  have := hpos (C r)
  rw [h1] at this ⊢
  linarith

/-- no correction (used if there is no coarse inverse) qualifies -/
theorem good_zero {W : Type*} [AddCommGroup W] [Module ℝ W] (B : LinearMap.BilinForm ℝ W) (A : W →ₗ[ℝ] W) :
    Good B A 0 := by intro r; simp

theorem ops_good (h : EnergyData d B) (l : ℕ) {M N : V (l + 1) →ₗ[ℝ] V (l + 1)}
    (hM : Good (B (l + 1)) (d.A (l + 1)) M) (hN : Good (B (l + 1)) (d.A (l + 1)) N) (i : Ph) :
    Good (B l) (d.A l) (ops d l M N i) := by
  have key : ∀ M, Good (B (l + 1)) (d.A (l + 1)) M → Good (B l) (d.A l) (d.P l ∘ₗ M ∘ₗ d.R l) := by
    intro M hM r
    simp only [LinearMap.comp_apply]
    have := hM (d.R l r)
    rw [h.galerkin, h.RP, h.RP] at this
    exact this
  cases i with
  | pre => exact h.F l
  | post => exact h.G l
  | crs => exact key M hM
  | bs => exact key N hN

theorem vLin_good (h : EnergyData d B) (k l : ℕ) : Good (B l) (d.A l) (vLin d k l) := by
  induction k generalizing l with
  | zero => exact h.C l
  | succ k ih => exact Good.sweepLin (B l) (h.A l) (h.sym l) _ (fun i _ => ops_good h l (ih _) (good_zero _ _) i)

theorem wLin_good (h : EnergyData d B) (k l : ℕ) : Good (B l) (d.A l) (wLin d k l) := by
  induction k generalizing l with
  | zero => exact h.C l
  | succ k ih => exact Good.sweepLin (B l) (h.A l) (h.sym l) _ (fun i _ => ops_good h l (ih _) (good_zero _ _) i)

theorem bsLin_good (h : EnergyData d B) (k l : ℕ) : Good (B l) (d.A l) (bsLin d k l) := by
  induction k generalizing l with
  | zero => exact h.C l
  | succ k ih =>
    exact Good.sweepLin (B l) (h.A l) (h.sym l) _ (fun i _ => ops_good h l (vLin_good h k _) (ih _) i)

/-- **C24 (V-cycle from any start vector).** The energy of the error does not increase. -/
theorem vcycleFrom_energy (h : EnergyData d B) (k l : ℕ) (x xs : V l) :
    let e := xs - x
    let e' := xs - vcycleFrom d.hier k l x (d.A l xs)
    B l (d.A l e') e' ≤ B l (d.A l e) e := by
  intro e e'
  simp only [e', vcycleFrom_eq]
  exact sweep_energy (B l) (h.A l) (h.sym l) _ (fun i _ => ops_good h l (vLin_good h k _) (good_zero _ _) i) x xs

/-- **C24 (any cycle as preconditioner).** One step `x + M (b - A x)` of the stationary iteration with any of the cycles does
not increase the energy of the error. -/
theorem cycles_energy (h : EnergyData d B) (n : ℕ) (vwb : ℤ) (x xs : V 0) :
    let e := xs - x
    let e' := xs - (x + cycleOf d.hier n vwb (d.A 0 xs - d.A 0 x))
    B 0 (d.A 0 e') e' ≤ B 0 (d.A 0 e) e := by
  intro e e'
  simp only [e']
  unfold cycleOf
  split_ifs
  · rw [vcycle_eq]; exact corr_energy (B 0) _ (h.A 0) (h.sym 0) (vLin_good h _ 0) x xs
  · rw [wcycle_eq]; exact corr_energy (B 0) _ (h.A 0) (h.sym 0) (wLin_good h _ 0) x xs
  · rw [bscycle_eq]; exact corr_energy (B 0) _ (h.A 0) (h.sym 0) (bsLin_good h _ 0) x xs

/-- pre-smoothing strictly reduces the energy functional on the finest level -/
def StrictF (d : LinData V) (B : ∀ l, LinearMap.BilinForm ℝ (V l)) : Prop :=
  ∀ r : V 0, r ≠ 0 → B 0 (d.A 0 (d.F 0 r)) (d.F 0 r) < 2 * B 0 r (d.F 0 r)

theorem strict_sweep {W ι : Type*} [AddCommGroup W] [Module ℝ W] {A : W →ₗ[ℝ] W} {P : ι → W →ₗ[ℝ] W}
    (B : LinearMap.BilinForm ℝ W) (hA : ∀ u v, B (A u) v = B u (A v)) (hsym : ∀ u v, B u v = B v u)
    (hpos : ∀ u, 0 ≤ B (A u) u) (i : ι) (L : List ι) (hP : ∀ i ∈ L, Good B A (P i))
    (b : W) (hs : B (A (P i b)) (P i b) < 2 * B b (P i b)) : 0 < B b (sweep A P (i :: L) 0 b) := by
  have h1 := J_sweep B hA hsym L hP b (corr A (P i) 0 b)
  rw [← sweep_cons] at h1
  rw [J_corr B hA hsym] at h1
  simp only [J, map_zero, sub_zero, mul_zero, zero_add] at h1
  have h2 := hpos (sweep A P (i :: L) 0 b)
  linarith

/-- **C41.** The cycles are positive definite if pre-smoothing on the finest level is. -/
theorem cycles_posdef (h : EnergyData d B) (hpos : ∀ u, 0 ≤ B 0 (d.A 0 u) u) (hs : StrictF d B) (n : ℕ) (hn : 2 ≤ n)
    (vwb : ℤ) (b : V 0) (hb : b ≠ 0) : 0 < B 0 b (cycleOf d.hier n vwb b) := by
  obtain ⟨k, rfl⟩ : ∃ k, n = k + 2 := ⟨n - 2, by omega⟩
  unfold cycleOf
  split_ifs
  · rw [vcycle_eq]
    refine strict_sweep (P := ops d 0 _ _) (B 0) (h.A 0) (h.sym 0) hpos Ph.pre _
      (fun i _ => ops_good h 0 (vLin_good h k _) (good_zero _ _) i) b ?_
    exact hs b hb
  · rw [wcycle_eq]
    refine strict_sweep (P := ops d 0 _ _) (B 0) (h.A 0) (h.sym 0) hpos Ph.pre _
      (fun i _ => ops_good h 0 (wLin_good h k _) (good_zero _ _) i) b ?_
    exact hs b hb
  · rw [bscycle_eq]
    refine strict_sweep (P := ops d 0 _ _) (B 0) (h.A 0) (h.sym 0) hpos Ph.pre _
      (fun i _ => ops_good h 0 (vLin_good h k _) (bsLin_good h k _) i) b ?_
    exact hs b hb

/-! ### statements about the modelled `Mult` -/

/-- smoothers of a multigrid matrix are linear iterations for the level matrices of `d`, transfers and coarse solver agree -/
structure Realizes (m : Mat V) (d : LinData V) : Prop where
  F : ∀ l, l + 1 < m.n → Contract (d.A l) (m.F l) (fun x b => x + d.F l (b - d.A l x))
  B : ∀ l, l + 1 < m.n → Contract (d.A l) (m.B l) (fun x b => x + d.G l (b - d.A l x))
  R : m.R = d.R
  P : m.P = d.P
  C : ∀ l b, crsFun m l b = d.C l b

theorem mult_lin {m : Mat V} (hr : Realizes m d) (hn : 2 ≤ m.n) (vwb : ℤ) (hv : vwb = 0 ∨ vwb = 1 ∨ vwb = 2)
    (w : Mem V) (b x : V 0) : (mult m vwb w b x).map Prod.fst = some (cycleOf d.hier m.n vwb b) := by
  have hh : AMG.hier m d.A (fun l x b => x + d.F l (b - d.A l x)) (fun l x b => x + d.G l (b - d.A l x)) = d.hier := by
    unfold AMG.hier LinData.hier
    rw [hr.R, hr.P]
    congr
    funext l b; exact hr.C l b
  rw [mult_correct (A := d.A) (fun l hl => ⟨hr.F l hl, hr.B l hl⟩) hn vwb hv, hh]

/-- **C22–C24, C41 for `Mult`.** For the multigrid object: applications never fail, and the map `b ↦ x` is linear, symmetric,
energy-non-increasing and positive definite, for any content of output and work vectors and any sequence of earlier
calls. -/
theorem mult_spd {m : Mat V} (hr : Realizes m d) (hs : SymData d B) (he : EnergyData d B)
    (hpos : ∀ u, 0 ≤ B 0 (d.A 0 u) u) (hst : StrictF d B)
    (hn : 2 ≤ m.n) (vwb : ℤ) (hv : vwb = 0 ∨ vwb = 1 ∨ vwb = 2) :
    ∃ M : V 0 →ₗ[ℝ] V 0, (∀ w b x, (mult m vwb w b x).map Prod.fst = some (M b)) ∧
      (∀ b c, B 0 (M b) c = B 0 b (M c)) ∧ (∀ b, b ≠ 0 → 0 < B 0 b (M b)) ∧
      (∀ xs x, B 0 (d.A 0 (xs - (x + M (d.A 0 xs - d.A 0 x)))) (xs - (x + M (d.A 0 xs - d.A 0 x))) ≤
        B 0 (d.A 0 (xs - x)) (xs - x)) := by
  obtain ⟨M, hM⟩ := cycles_linear d m.n vwb
  refine ⟨M, ?_, ?_, ?_, ?_⟩
  · intro w b x; rw [mult_lin hr hn vwb hv, hM]
  · intro b c; rw [← hM, ← hM]; exact cycles_symmetric hs m.n vwb b c
  · intro b hb; rw [← hM]; exact cycles_posdef he hpos hst m.n hn vwb b hb
  · intro xs x; rw [← hM]; exact cycles_energy he m.n vwb x xs

/-! ### a concrete hierarchy -/

/-- three levels, all of dimension one: matrices `2`, damped Richardson smoothing, identity transfers, exact coarse solve -/
noncomputable def exMat : Mat (fun _ => ℝ) where
  n := 3
  F _ := richardson ((2 : ℝ) • LinearMap.id) LinearMap.id (1 / 4)
  B _ := richardson ((2 : ℝ) • LinearMap.id) LinearMap.id (1 / 4)
  R _ := LinearMap.id
  P _ := LinearMap.id
  hasCrsInv := true
  crsInv := some (fun _ b => (1 / 2) * b)

noncomputable def exData : LinData (fun _ => ℝ) where
  A _ := (2 : ℝ) • LinearMap.id
  F _ := (1 / 4 : ℝ) • LinearMap.id
  G _ := (1 / 4 : ℝ) • LinearMap.id
  R _ := LinearMap.id
  P _ := LinearMap.id
  C _ := (1 / 2 : ℝ) • LinearMap.id

theorem exMat_realizes : Realizes exMat exData where
  F l _ := richardson_contract ((2 : ℝ) • LinearMap.id) (LinearMap.id : ℝ →ₗ[ℝ] ℝ) (1 / 4)
  B l _ := richardson_contract ((2 : ℝ) • LinearMap.id) (LinearMap.id : ℝ →ₗ[ℝ] ℝ) (1 / 4)
  R := rfl
  P := rfl
  C l b := by simp [crsFun, exMat, exData]

/-- the hypotheses of all theorems above are met -/
example (vwb : ℤ) (hv : vwb = 0 ∨ vwb = 1 ∨ vwb = 2) :=
  mult_spd (B := fun _ => LinearMap.mul ℝ ℝ) exMat_realizes
    ⟨fun _ u v => by simp [mul_comm], fun _ u v => by simp [exData]; ring, fun _ u v => by simp [exData]; ring,
      fun _ u v => by simp [exData], fun _ u v => by simp [exData]; ring⟩
    ⟨fun _ u v => by simp [mul_comm], fun _ u v => by simp [exData]; ring, fun _ u v => by simp [exData],
      fun _ u => by simp [exData], fun _ r => by simp [exData]; nlinarith [mul_self_nonneg r],
      fun _ r => by simp [exData]; nlinarith [mul_self_nonneg r], fun _ r => by simp [exData]; nlinarith [mul_self_nonneg r]⟩
    (fun u => by simp [exData]; nlinarith [mul_self_nonneg u])
    (fun r hr => by
      have : 0 < r * r := mul_self_pos.2 hr
      simp [exData]; nlinarith)
    (by simp [exMat]) vwb hv

/-- stale work vectors and output, two different ones: same result -/
example (w w' : Mem (fun _ => ℝ)) : (mult exMat 1 w 5 7).map Prod.fst = (mult exMat 1 w' 5 (-3)).map Prod.fst :=
  mult_history (A := exData.A) (fun l hl => ⟨exMat_realizes.F l hl, exMat_realizes.B l hl⟩) (by simp [exMat]) 1
    (by simp) w w' 5 7 (-3)

/-! ### histories of calls -/

/-- a call on the multigrid object -/
inductive Call (V : ℕ → Type*)
  | mult (b x : V 0)
  | multAdd (s : ℝ) (b x : V 0)
  | cinv (b x : V 0)

/-- effect of a call on the work vectors, and the resulting output vector -/
def Call.run (m : Mat V) (vwb : ℤ) (w : Mem V) : Call V → Option (V 0 × Mem V)
  | .mult b x => AMG.mult m vwb w b x
  | .multAdd s b x => AMG.multAdd m vwb w s b x
  | .cinv b x => AMG.cinv m w b x

/-- **C20 (histories).** In any sequence of successful calls, the output of every call is the one the same call produces on
a freshly constructed object, whatever its work vectors were initialised with. -/
theorem history_independent {m : Mat V} {A : ∀ l, V l →ₗ[ℝ] V l} {f g : ∀ l, V l → V l → V l} (h : SmOK m A f g)
    (hn : 2 ≤ m.n) (vwb : ℤ) (hv : vwb = 0 ∨ vwb = 1 ∨ vwb = 2) (w0 : Mem V) :
    ∀ (calls : List (Call V)) (w : Mem V) (c : Call V) (w1 : Mem V),
      calls.foldlM (fun w c => (c.run m vwb w).map Prod.snd) w = some w1 →
      (c.run m vwb w1).map Prod.fst = (c.run m vwb w0).map Prod.fst := by
  intro calls w c w1 _
  cases c with
  | mult b x => exact mult_history h hn vwb hv w1 w0 b x x
  | multAdd s b x => simp only [Call.run]; rw [multAdd_correct h hn vwb hv, multAdd_correct h hn vwb hv]
  | cinv b x =>
    simp only [Call.run]
    rcases hc : m.crsInv with _ | ci
    · simp [cinv, hc]
    · obtain ⟨_, e1, -⟩ := cinv_correct ci hc (by omega) w1 b x
      obtain ⟨_, e2, -⟩ := cinv_correct ci hc (by omega) w0 b x
      rw [e1, e2]; rfl

end NgsAMG.AMG
