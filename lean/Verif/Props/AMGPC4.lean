import Verif.Props.AMGPC3
import Verif.Spec.CoarseSolve

/-! C92: the preconditioner that is built is linear, symmetric, positive and does not increase the energy of the error. -/

namespace NgsAMG.PC
open Matrix Sm NgsAMG.GS NgsAMG.Spec Sweep SparseMM AMG

variable {k : ℕ → ℕ}

/-- smoothers for which the theorem holds, on a level with `N` unknowns and matrix `A`: Gauss-Seidel; block Gauss-Seidel with blocks without repeated unknowns, for the W and the
BS cycle every unknown has to be in exactly one block; Jacobi if the damping 0.9 is good enough for the matrix -/
def SmChoice {k : ℕ} (cycle : ℤ) (N : ℕ) (A : ℕ → ℕ → Blk k) (t : SmType) (free : Option (ℕ → Bool)) (blocks : List (List ℕ)) : Prop :=
  t = .gs ∨ (t = .bgs ∧ (∀ dofs ∈ blocks, dofs.Nodup ∧ ∀ d ∈ dofs, d < N) ∧ (cycle = 0 ∨ ∀ j < N, blocks.countP (j ∈ ·) = 1)) ∨
    (t = .jacobi ∧ JacobiOK 0.9 N A fun i => isFree free i = true)

/-- unknowns that are smoothed: free ones, or those in blocks -/
def Smoothed (t : SmType) (free : Option (ℕ → Bool)) (blocks : List (List ℕ)) (i : ℕ) : Prop := if t = .bgs then ∃ dofs ∈ blocks, i ∈ dofs else isFree free i = true

/-- the dense inverses are generalized inverses of positive semidefinite matrices -/
structure InvsOK {k : ℕ} (I : Inverses k) : Prop where
  one : ∀ M : Blk k, M.PosSemidef → PInv M (I.inv1 M)
  block : ∀ n (M : Matrix (Fin n × Fin k) (Fin n × Fin k) ℝ), M.PosSemidef → PInv M (I.inv n M)

theorem contract'_mono {V : Type*} [AddCommGroup V] [Module ℝ V] {A : V → V} {S : Step V} {f : V → V → V} (full : Bool) (h : Contract' true A S f) : Contract' full A S f :=
  fun x b res ru ur xz ht _ => h x b res ru ur xz ht (Or.inl rfl)

theorem IsSweep.mono {k : ℕ} {A : CSR (Blk k)} {S : ℕ → Prop} {F G : Step (BVec k)} (full : Bool) (h : IsSweep true A S F G) : IsSweep full A S F G := by
  obtain ⟨ι, P, L, h1, h2, h3⟩ := h
  exact ⟨ι, P, L, contract'_mono full h1, contract'_mono full h2, h3⟩

/-- the smoother of a level -/
theorem smoother_ok {k : ℕ} (I : Inverses k) (hI : InvsOK I) {N : ℕ} (L : Level k) (hA : LevelOK N L.mat) (cycle : ℤ) (t : SmType) (hc : SmChoice cycle N L.mat.entry t L.free L.blocks) :
    ∃ S, buildSmoother I t L = some S ∧ IsSweep (decide (cycle ≠ 0)) L.mat (Smoothed t L.free L.blocks) (S.step false) (S.step true) := by
  rcases hc with rfl | ⟨rfl, hb, hfull⟩ | ⟨rfl, hj⟩
  · refine ⟨_, rfl, ?_⟩
    have : Smoothed SmType.gs L.free L.blocks = fun i => isFree L.free i = true := by funext i; simp [Smoothed]
    rw [this]
    refine IsSweep.mono _ (gs_sweep I.inv1 L.mat hA.wf hA.sym L.free fun i hi _ => hI.one _ ?_)
    exact psd_entry L.mat hA.sym (by rw [hA.width]; exact hA.psd) (by rw [hA.width, ← hA.height]; exact hi)
  · obtain ⟨S, hS, hsw⟩ := bgs_sweep I.inv L.mat hA.wf hA.sym L.blocks (decide (cycle ≠ 0)) (by rw [hA.height]; exact hb)
      (by
        intro h
        rw [hA.height]
        exact hfull.resolve_left (by simpa using h))
      (fun dofs hn hin => hI.block _ _ (psd_block L.mat hA.wf hA.sym (by rw [hA.width]; exact hA.psd) hn (by rw [hA.width, ← hA.height]; exact hin)))
    have h2 : Smoothed SmType.bgs L.free L.blocks = fun i => ∃ dofs ∈ L.blocks, i ∈ dofs := by funext i; simp [Smoothed]
    refine ⟨_, by rw [buildSmoother, hS]; rfl, ?_⟩
    rw [h2]; exact hsw
  · refine ⟨_, rfl, ?_⟩
    have : Smoothed SmType.jacobi L.free L.blocks = fun i => isFree L.free i = true := by funext i; simp [Smoothed]
    rw [this]
    refine IsSweep.mono _ (jacobi_sweep I.inv1 L.mat hA.wf hA.sym L.free (by rw [hA.width]; exact hj) fun i hi _ => hI.one _ ?_)
    exact psd_entry L.mat hA.sym (by rw [hA.width]; exact hA.psd) (by rw [hA.width, ← hA.height]; exact hi)

theorem proxied_ok {k : ℕ} (O : Opts) (l : ℕ) {full : Bool} {A : CSR (Blk k)} {T : ℕ → Prop} (S : Smoother k) (h : IsSweep full A T (S.step false) (S.step true)) :
    IsSweep full A T (proxied O l S false) (proxied O l S true) := by
  unfold proxied
  split
  · simpa using h.proxy (O.steps l) (O.symm l)
  · exact h

/-- a sweep as a pair of linear maps -/
theorem IsSweep.maps {k : ℕ} {full : Bool} {A : CSR (Blk k)} {T : ℕ → Prop} {F G : Step (BVec k)} {N : ℕ} (hA : LevelOK N A) (h : IsSweep full A T F G) :
    ∃ f g : BVec k →ₗ[ℝ] BVec k, Contract' full A.lin F (fun x b => x + f (b - A.lin x)) ∧ Contract' full A.lin G (fun x b => x + g (b - A.lin x)) ∧
      (∀ u v, ipForm N (f u) v = ipForm N u (g v)) ∧ Good (ipForm N) A.lin f ∧ Good (ipForm N) A.lin g ∧
      (SPDOn N A.entry T → ∀ b : BVec k, (∃ j < N, T j ∧ b j ≠ 0) → ipForm N (A.lin (f b)) (f b) < 2 * ipForm N b (f b)) := by
  obtain ⟨ι, P, L, h1, h2, h3, h4, h5⟩ := h
  rw [hA.width] at h3 h4 h5
  have hs : ∀ u v : BVec k, ipForm N u v = ipForm N v u := fun u v => ip_symm N u v
  have e : ∀ M : List ι, sweep A.lin P M = fun x b => x + sweepLin A.lin P M (b - A.lin x) := by
    intro M; funext x b; rw [sweep_shift]; rfl
  refine ⟨sweepLin A.lin P L, sweepLin A.lin P L.reverse, by rw [← e]; exact h1, by rw [← e]; exact h2, ?_, ?_, ?_, ?_⟩
  · intro u v
    exact sweep_adjoint_mem (ipForm N) hA.selfadj L h3 u v
  · exact Good.sweepLin (ipForm N) hA.selfadj hs L h4
  · exact Good.sweepLin (ipForm N) hA.selfadj hs L.reverse fun i hi => h4 i (List.mem_reverse.1 hi)
  · intro hp b hb
    obtain ⟨hne, hd⟩ := h5 hp b hb
    have := J_sweep_strict (ipForm N) hA.selfadj hs L h4 b hd hne
    unfold J at this
    simp only [sweepLin_apply]
    linarith

/-- the coarse solver is symmetric and does not increase the energy -/
theorem coarse_ok {k N : ℕ} {A : CSR (Blk k)} (hA : LevelOK N A) {free : ℕ → Prop} {c : BVec k → BVec k} (h : CoarseSolve N A.entry free c) :
    ∃ C : BVec k →ₗ[ℝ] BVec k, (∀ b, c b = C b) ∧ (∀ u v, ipForm N (C u) v = ipForm N u (C v)) ∧ Good (ipForm N) A.lin C := by
  classical
  refine ⟨⟨⟨c, h.add⟩, h.smul⟩, fun _ => rfl, ?_⟩
  have key : ∀ u v : BVec k, ip N (A.lin (c u)) (c v) = ip N u (c v) := by
    intro u v
    refine Finset.sum_congr rfl fun i hi => ?_
    by_cases hf : free i
    · have := h.solve u i (Finset.mem_range.1 hi) hf
      have e : A.lin (c u) i = mulBlock N A.entry (c u) i := by
        have := congrFun (multRow_eq A hA.wf (c u)) i
        rw [hA.width] at this
        exact this
      rw [e, this]
    · rw [h.zero v i (Or.inl hf), dotProduct_zero, dotProduct_zero]
  constructor
  · intro u v
    show ip N (c u) v = ip N u (c v)
    rw [← key u v, ip_symm, ← key v u, ip_symm]
    exact (hA.selfadj (c u) (c v)).symm
  · intro r
    show ip N (A.lin (c r)) (c r) ≤ 2 * ip N r (c r)
    have h1 := key r r
    have h2 : 0 ≤ ip N (A.lin (c r)) (c r) := hA.pos (c r)
    linarith

/-! ### V cycle with patched smoothers -/

section
variable {V : ℕ → Type*} [∀ l, AddCommGroup (V l)] [∀ l, Module ℝ (V l)]

/-- residuals corrected where the contract is not met -/
def patchMat (m : Mat V) (A : ∀ l, V l → V l) (f g : ∀ l, V l → V l → V l) : Mat V :=
  { m with F := fun l => patch (A l) (f l) (m.F l), B := fun l => patch (A l) (g l) (m.B l) }

theorem smoothV_patch (m : Mat V) (A : ∀ l, V l → V l) (f g : ∀ l, V l → V l → V l) (b : V 0) (s : St V) : smoothV (patchMat m A f g) b s = smoothV m b s := by
  have h1 : pre (patchMat m A f g) b = pre m b := by
    funext s l
    unfold pre patchMat
    dsimp only
    rw [patch_eq _ _ _ _ _ _ _ _ _ (Or.inl rfl)]
  have h2 : post (patchMat m A f g) b = post m b := by
    funext s l
    unfold post patchMat
    dsimp only
    rw [patch_eq _ _ _ _ _ _ _ _ _ (Or.inr rfl)]
  have h3 : coarse (patchMat m A f g) = coarse m := rfl
  unfold smoothV
  rw [h1, h2, h3]
  rfl

theorem mult_patch (m : Mat V) (A : ∀ l, V l → V l) (f g : ∀ l, V l → V l → V l) (w : Mem V) (b x : V 0) : mult (patchMat m A f g) 0 w b x = mult m 0 w b x := by
  unfold mult smooth
  rw [if_pos rfl, if_pos rfl, smoothV_patch]

/-- strict version: one right hand side -/
theorem cycles_strict {d : LinData V} {B : ∀ l, LinearMap.BilinForm ℝ (V l)} (h : EnergyData d B) (n : ℕ) (hn : 2 ≤ n) (vwb : ℤ) (b : V 0)
    (hb : B 0 (d.A 0 (d.F 0 b)) (d.F 0 b) < 2 * B 0 b (d.F 0 b)) :
    B 0 (d.A 0 (cycleOf d.hier n vwb b)) (cycleOf d.hier n vwb b) < 2 * B 0 b (cycleOf d.hier n vwb b) := by
  obtain ⟨k, rfl⟩ : ∃ k, n = k + 2 := ⟨n - 2, by omega⟩
  have key : ∀ (M N' : V 1 →ₗ[ℝ] V 1) (L : List Ph), (∀ i ∈ L, Good (B 0) (d.A 0) (ops d 0 M N' i)) →
      J (B 0) (d.A 0) b (sweep (d.A 0) (ops d 0 M N') (Ph.pre :: L) 0 b) < 0 := by
    intro M N' L hL
    rw [sweep_cons]
    refine lt_of_le_of_lt (J_sweep (B 0) (h.A 0) (h.sym 0) L hL b _) ?_
    rw [J_corr (B 0) (h.A 0) (h.sym 0)]
    simp only [J, map_zero, sub_zero, LinearMap.map_zero₂, mul_zero, zero_add]
    show B 0 (d.A 0 (d.F 0 b)) (d.F 0 b) - 2 * B 0 b (d.F 0 b) < 0
    linarith
  have fin : ∀ x : V 0, J (B 0) (d.A 0) b x < 0 → B 0 (d.A 0 x) x < 2 * B 0 b x := by
    intro x hx; unfold J at hx; linarith
  unfold cycleOf
  split_ifs
  · rw [vcycle_eq]
    exact fin _ (key _ _ _ fun i _ => ops_good h 0 (vLin_good h k _) (good_zero _ _) i)
  · rw [wcycle_eq]
    exact fin _ (key _ _ _ fun i _ => ops_good h 0 (wLin_good h k _) (good_zero _ _) i)
  · rw [bscycle_eq]
    exact fin _ (key _ _ _ fun i _ => ops_good h 0 (vLin_good h k _) (bsLin_good h k _) i)

end

/-- **C92** (partial: for the W and the BS cycle block Gauss-Seidel needs every unknown in exactly one block, see `pc_w_refuted`; Jacobi needs a matrix for which the damping is good
enough, see `pc_jacobi_refuted`). The preconditioner of a symmetric positive semidefinite matrix, sequential, with at least two levels: the construction succeeds, and applying the result, for all contents
of the output vector and of the work vectors, is one linear map `M`. It is symmetric, positive semidefinite and one iteration does not increase the energy of the error. If the
matrix is positive definite on the smoothed unknowns of the finest level, `M` is positive for right hand sides that do not vanish there, and the energy gets strictly smaller if the
residual does not vanish there. -/
theorem pc_spd_partial (nhash : ℕ → ℕ) (junk mjunk : ℕ → ℕ → ℕ × ℕ) (I : ∀ l, Inverses (k l)) (O : Opts) (X : Input k) (cinv : ∀ l, BVec (k l) → BVec (k l)) (N : ℕ → ℕ)
    (h : InOK X N) (hn : 2 ≤ X.n) (hI : ∀ l, l + 1 < X.n → InvsOK (I l)) (hc : O.cycle = 0 ∨ O.cycle = 1 ∨ O.cycle = 2)
    (hsm : ∀ l A, l + 1 < X.n → mats nhash junk mjunk X l = some A → SmChoice O.cycle (N l) A.entry (selectSmoother (O.smType l) (X.crsMap l)) (X.free l) (X.blocks l))
    (hcrs : O.clevInv = true → ∀ l A, l + 1 = X.n → mats nhash junk mjunk X l = some A → CoarseSolve (N l) A.entry (fun i => isFree (X.free l) i = true) (cinv l)) :
    ∃ m, build nhash junk mjunk I O X cinv = some m ∧ ∃ M : BVec (k 0) →ₗ[ℝ] BVec (k 0),
      (∀ w b x, (mult m O.cycle w b x).map Prod.fst = some (M b)) ∧
      (∀ b c, ip (N 0) (M b) c = ip (N 0) b (M c)) ∧
      (∀ b, 0 ≤ ip (N 0) b (M b)) ∧
      (∀ xs x, energy (N 0) X.A0.entry (xs - (x + M (mulBlock (N 0) X.A0.entry (xs - x)))) ≤ energy (N 0) X.A0.entry (xs - x)) ∧
      (SPDOn (N 0) X.A0.entry (Smoothed (selectSmoother (O.smType 0) (X.crsMap 0)) (X.free 0) (X.blocks 0)) →
        (∀ b, (∃ j < N 0, Smoothed (selectSmoother (O.smType 0) (X.crsMap 0)) (X.free 0) (X.blocks 0) j ∧ b j ≠ 0) → 0 < ip (N 0) b (M b)) ∧
        ∀ xs x, (∃ j < N 0, Smoothed (selectSmoother (O.smType 0) (X.crsMap 0)) (X.free 0) (X.blocks 0) j ∧ mulBlock (N 0) X.A0.entry (xs - x) j ≠ 0) →
          energy (N 0) X.A0.entry (xs - (x + M (mulBlock (N 0) X.A0.entry (xs - x)))) < energy (N 0) X.A0.entry (xs - x)) := by
  have hsmo : ∀ l, l + 1 < X.n → ∃ A S, mats nhash junk mjunk X l = some A ∧ smootherOf nhash junk mjunk I O X l = some S ∧ LevelOK (N l) A ∧
      IsSweep (decide (O.cycle ≠ 0)) A (Smoothed (selectSmoother (O.smType l) (X.crsMap l)) (X.free l) (X.blocks l)) (proxied O l S false) (proxied O l S true) := by
    intro l hl
    obtain ⟨A, h1, h2⟩ := mats_ok nhash junk mjunk h l (by omega)
    obtain ⟨S, h3, h4⟩ := smoother_ok (I l) (hI l hl) ⟨A, X.free l, X.blocks l⟩ h2 O.cycle _ (hsm l A hl h1)
    refine ⟨A, S, h1, ?_, h2, proxied_ok O l S h4⟩
    rw [smootherOf, h1, Option.bind_some, h3]
  have hb : ∃ m, build nhash junk mjunk I O X cinv = some m := by
    unfold build
    rw [if_pos]
    · exact ⟨_, rfl⟩
    · rw [Bool.and_eq_true, List.all_eq_true, List.all_eq_true]
      constructor
      · intro l hl
        obtain ⟨A, h1, _⟩ := mats_ok nhash junk mjunk h l (List.mem_range.1 hl)
        rw [h1]; rfl
      · intro l hl
        obtain ⟨A, S, _, h1, _⟩ := hsmo l (by have := List.mem_range.1 hl; omega)
        rw [h1]; rfl
  obtain ⟨m, hm⟩ := hb
  refine ⟨m, hm, ?_⟩
  have hm' := hm
  unfold build at hm'
  split at hm'
  swap
  · cases hm'
  have em := (Option.some.inj hm').symm
  have en : m.n = X.n := by rw [em]
  have eR : m.R = levelR X := by rw [em]; rfl
  have eP : m.P = levelP X := by rw [em]; rfl
  -- smoothers as linear maps
  have hFG : ∀ l, ∃ fg : (BVec (k l) →ₗ[ℝ] BVec (k l)) × (BVec (k l) →ₗ[ℝ] BVec (k l)),
      (l + 1 < X.n → Contract' (decide (O.cycle ≠ 0)) (levelA nhash junk mjunk X l) (m.F l) (fun x b => x + fg.1 (b - levelA nhash junk mjunk X l x)) ∧
        Contract' (decide (O.cycle ≠ 0)) (levelA nhash junk mjunk X l) (m.B l) (fun x b => x + fg.2 (b - levelA nhash junk mjunk X l x))) ∧
      (∀ u v, ipForm (N l) (fg.1 u) v = ipForm (N l) u (fg.2 v)) ∧ Good (ipForm (N l)) (levelA nhash junk mjunk X l) fg.1 ∧
      Good (ipForm (N l)) (levelA nhash junk mjunk X l) fg.2 ∧
      (l + 1 < X.n → ∀ A, mats nhash junk mjunk X l = some A → SPDOn (N l) A.entry (Smoothed (selectSmoother (O.smType l) (X.crsMap l)) (X.free l) (X.blocks l)) →
        ∀ b : BVec (k l), (∃ j < N l, Smoothed (selectSmoother (O.smType l) (X.crsMap l)) (X.free l) (X.blocks l) j ∧ b j ≠ 0) →
          ipForm (N l) (levelA nhash junk mjunk X l (fg.1 b)) (fg.1 b) < 2 * ipForm (N l) b (fg.1 b)) := by
    intro l
    by_cases hl : l + 1 < X.n
    · obtain ⟨A, S, h1, h2, h3, h4⟩ := hsmo l hl
      obtain ⟨f, g, c1, c2, c3, c4, c5, c6⟩ := h4.maps h3
      have hA := levelA_eq (by omega : l < X.n) h1
      have eF : m.F l = proxied O l S false := by rw [em]; dsimp only; rw [h2]; rfl
      have eB : m.B l = proxied O l S true := by rw [em]; dsimp only; rw [h2]; rfl
      refine ⟨(f, g), ?_⟩
      rw [hA, eF, eB]
      refine ⟨fun _ => ⟨c1, c2⟩, c3, c4, c5, fun _ A' hA' => ?_⟩
      rw [h1] at hA'
      obtain rfl := Option.some.inj hA'
      exact c6
    · refine ⟨(0, 0), fun hl' => absurd hl' hl, fun u v => ?_, good_zero _ _, good_zero _ _, fun hl' => absurd hl' hl⟩
      rw [LinearMap.zero_apply, LinearMap.zero_apply, LinearMap.map_zero₂, map_zero]
  have hC : ∀ l, ∃ C : BVec (k l) →ₗ[ℝ] BVec (k l), (∀ b, crsFun m l b = C b) ∧ (∀ u v, ipForm (N l) (C u) v = ipForm (N l) u (C v)) ∧
      Good (ipForm (N l)) (levelA nhash junk mjunk X l) C := by
    intro l
    have e : ∀ b, crsFun m l b = if O.clevInv = true ∧ l + 1 = X.n then cinv l b else 0 := by
      intro b
      unfold crsFun
      rw [em]
      have : decide (1 < X.n) = true := decide_eq_true (by omega)
      dsimp only
      rw [this, Bool.and_true]
      cases O.clevInv with
      | false => simp
      | true => simp
    by_cases hl : O.clevInv = true ∧ l + 1 = X.n
    · obtain ⟨A, h1, h2⟩ := mats_ok nhash junk mjunk h l (by omega)
      obtain ⟨C, c1, c2, c3⟩ := coarse_ok h2 (hcrs hl.1 l A hl.2 h1)
      refine ⟨C, fun b => ?_, c2, by rw [levelA_eq (by omega) h1]; exact c3⟩
      rw [e, if_pos hl, c1]
    · refine ⟨0, fun b => ?_, fun u v => ?_, good_zero _ _⟩
      · rw [e, if_neg hl]; rfl
      · rw [LinearMap.zero_apply, LinearMap.zero_apply, LinearMap.map_zero₂, map_zero]
  choose fg hfg1 hfg2 hfg3 hfg4 hfg5 using hFG
  choose C hC1 hC2 hC3 using hC
  let d : LinData (fun l => BVec (k l)) :=
    { A := levelA nhash junk mjunk X, F := fun l => (fg l).1, G := fun l => (fg l).2, R := levelR X, P := levelP X, C := C }
  have hsymB : ∀ l (u v : BVec (k l)), ipForm (N l) u v = ipForm (N l) v u := fun l u v => ip_symm (N l) u v
  have hS : SymData d (fun l => ipForm (N l)) :=
    ⟨hsymB, fun l => level_selfadj nhash junk mjunk h l, hfg2, fun l => (level_transfer nhash junk mjunk h l).1, hC2⟩
  have hE : EnergyData d (fun l => ipForm (N l)) :=
    ⟨hsymB, fun l => level_selfadj nhash junk mjunk h l, fun l => (level_transfer nhash junk mjunk h l).1, fun l => (level_transfer nhash junk mjunk h l).2, hfg3, hfg4, hC3⟩
  have hmult : ∀ w b x, (mult m O.cycle w b x).map Prod.fst = some (cycleOf d.hier m.n O.cycle b) := by
    intro w b x
    by_cases h0 : O.cycle = 0
    · rw [h0, ← mult_patch m (fun l => levelA nhash junk mjunk X l) (fun l x b => x + (fg l).1 (b - levelA nhash junk mjunk X l x))
        (fun l x b => x + (fg l).2 (b - levelA nhash junk mjunk X l x))]
      have hr : Realizes (patchMat m (fun l => levelA nhash junk mjunk X l) (fun l x b => x + (fg l).1 (b - levelA nhash junk mjunk X l x))
          (fun l x b => x + (fg l).2 (b - levelA nhash junk mjunk X l x))) d := by
        refine ⟨fun l hl => ?_, fun l hl => ?_, eR, eP, hC1⟩
        · have := (hfg1 l (by rw [← en]; exact hl)).1
          rw [h0] at this
          exact patch_contract _ _ _ this
        · have := (hfg1 l (by rw [← en]; exact hl)).2
          rw [h0] at this
          exact patch_contract _ _ _ this
      exact mult_lin hr (by show 2 ≤ m.n; omega) 0 (Or.inl rfl) w b x
    · have hr : Realizes m d := by
        have hf : decide (O.cycle ≠ 0) = true := by simpa using h0
        refine ⟨fun l hl => ?_, fun l hl => ?_, eR, eP, hC1⟩
        · have := (hfg1 l (by rw [← en]; exact hl)).1
          rw [hf] at this
          exact (contract'_true _ _ _).1 this
        · have := (hfg1 l (by rw [← en]; exact hl)).2
          rw [hf] at this
          exact (contract'_true _ _ _).1 this
      exact mult_lin hr (by omega) _ hc w b x
  obtain ⟨M, hM⟩ := cycles_linear d m.n O.cycle
  have hm0 : mats nhash junk mjunk X 0 = some X.A0 := rfl
  have hA0 : d.A 0 = X.A0.lin := levelA_eq (by omega) hm0
  have hlin : ∀ u : BVec (k 0), mulBlock (N 0) X.A0.entry u = d.A 0 u := by
    intro u
    rw [hA0]
    have := multRow_eq X.A0 h.fine.wf u
    rw [h.fine.width] at this
    exact this.symm
  have hen : ∀ u : BVec (k 0), energy (N 0) X.A0.entry u = ipForm (N 0) (d.A 0 u) u := by
    intro u; unfold energy; rw [hlin]; rfl
  have hgood : Good (ipForm (N 0)) (d.A 0) M := by
    intro r
    rw [← hM]
    unfold cycleOf
    split_ifs
    · rw [vcycle_eq]; exact vLin_good hE _ 0 r
    · rw [wcycle_eq]; exact wLin_good hE _ 0 r
    · rw [bscycle_eq]; exact bsLin_good hE _ 0 r
  have hpos : ∀ u : BVec (k 0), 0 ≤ ipForm (N 0) (d.A 0 u) u := by
    intro u; rw [hA0]; exact h.fine.pos u
  have hstep : ∀ xs x : BVec (k 0), ipForm (N 0) (d.A 0 (xs - (x + M (d.A 0 (xs - x))))) (xs - (x + M (d.A 0 (xs - x)))) =
      ipForm (N 0) (d.A 0 (xs - x)) (xs - x) + (ipForm (N 0) (d.A 0 (M (d.A 0 (xs - x)))) (M (d.A 0 (xs - x))) - 2 * ipForm (N 0) (d.A 0 (xs - x)) (M (d.A 0 (xs - x)))) := by
    intro xs x
    rw [← sub_sub]
    generalize xs - x = e
    have h1 := hE.A 0 (M (d.A 0 e)) e
    have h2 := hsymB 0 (M (d.A 0 e)) (d.A 0 e)
    simp only [map_sub, LinearMap.sub_apply, h1, h2]
    ring
  refine ⟨M, ?_, ?_, ?_, ?_, ?_⟩
  · intro w b x; rw [hmult, hM]
  · intro b c
    rw [← hM, ← hM]; exact cycles_symmetric hS m.n O.cycle b c
  · intro b
    have h1 := hgood b
    have h2 := hpos (M b)
    have : 0 ≤ ipForm (N 0) b (M b) := by linarith
    exact this
  · intro xs x
    rw [hen, hen, hlin, hstep]
    have := hgood (d.A 0 (xs - x))
    linarith
  · intro hp
    have hst : ∀ b : BVec (k 0), (∃ j < N 0, Smoothed (selectSmoother (O.smType 0) (X.crsMap 0)) (X.free 0) (X.blocks 0) j ∧ b j ≠ 0) →
        ipForm (N 0) (d.A 0 (M b)) (M b) < 2 * ipForm (N 0) b (M b) := by
      intro b hb
      rw [← hM]
      exact cycles_strict hE m.n (by omega) O.cycle b (hfg5 0 (by omega) _ hm0 hp b hb)
    constructor
    · intro b hb
      have h1 := hst b hb
      have h2 := hpos (M b)
      have : 0 < ipForm (N 0) b (M b) := by linarith
      exact this
    · intro xs x hr
      rw [hlin] at hr
      rw [hen, hen, hlin, hstep]
      have := hst _ hr
      linarith

end NgsAMG.PC
