import Verif.Props.HybridMatrix

/-! C51: the backward hybrid sweep is the adjoint of the forward sweep. C52: energy of the error. -/

namespace NgsAMG.HybSm

open NgsAMG.DCC NgsAMG.Hybrid NgsAMG.Exch NgsAMG.GS NgsAMG.Spec Matrix

variable {k : ℕ}

/-! ### specification -/

/-- inner product of global vectors -/
def gip (P : PD) (u v : ℕ → Fin k → ℝ) : ℝ := ∑ g ∈ allDofs P, u g ⬝ᵥ v g

/-- energy of a global vector -/
def genergy (P : PD) (A : ℕ → CSR (Blk k)) (e : ℕ → Fin k → ℝ) : ℝ := gip P (gmul P A e) e

/-! ### local sweeps -/

theorem ip_add_left (n : ℕ) (u v w : BVec k) : ip n (u + v) w = ip n u w + ip n v w := LinearMap.map_add₂ (ipForm n) u v w
theorem ip_add_right (n : ℕ) (u v w : BVec k) : ip n u (v + w) = ip n u v + ip n u w := by simpa using ((ipForm n) u).map_add v w
theorem ip_sub_left (n : ℕ) (u v w : BVec k) : ip n (u - v) w = ip n u w - ip n v w := LinearMap.map_sub₂ (ipForm n) u v w
theorem ip_sub_right (n : ℕ) (u v w : BVec k) : ip n u (v - w) = ip n u v - ip n u w := by simpa using ((ipForm n) u).map_sub v w

theorem mulBlock_add (n : ℕ) (B : ℕ → ℕ → Blk k) (u v : BVec k) : mulBlock n B (u + v) = mulBlock n B u + mulBlock n B v := by
  funext i
  simp [mulBlock, Matrix.mulVec_add, Finset.sum_add_distrib]

theorem gsRow_eq (n : ℕ) (B : ℕ → ℕ → Blk k) (d : ℕ → Blk k) (b x : BVec k) (i : ℕ) :
    gsRow n B d b x i = x + Pi.single i (d i *ᵥ (b i - mulBlock n B x i)) := by
  funext j
  rw [gsRow, Pi.add_apply]
  by_cases h : j = i
  · subst h; simp
  · simp [h]

theorem gsSweep_outside (n : ℕ) (B : ℕ → ℕ → Blk k) (d : ℕ → Blk k) (L : List ℕ) (x b : BVec k) {j : ℕ} (hj : j ∉ L) :
    gsSweep n B d L x b j = x j := by
  induction L generalizing x with
  | nil => rfl
  | cons i L ih =>
    simp only [List.mem_cons, not_or] at hj
    show gsSweep n B d L (gsRow n B d b x i) b j = _
    rw [ih _ hj.2, gsRow, if_neg hj.1]

theorem ip_single (n : ℕ) (u : BVec k) {i : ℕ} (hi : i < n) (w : Fin k → ℝ) : ip n u (Pi.single i w) = u i ⬝ᵥ w := by
  rw [ip, Finset.sum_eq_single i]
  · simp
  · intro j _ hj; simp [hj]
  · intro h; exact absurd (Finset.mem_range.2 hi) h

theorem mulBlock_single (n : ℕ) (B : ℕ → ℕ → Blk k) {i : ℕ} (hi : i < n) (w : Fin k → ℝ) (j : ℕ) :
    mulBlock n B (Pi.single i w) j = B j i *ᵥ w := by
  rw [mulBlock, Finset.sum_eq_single i]
  · simp
  · intro m _ hm; simp [hm]
  · intro h; exact absurd (Finset.mem_range.2 hi) h

/-- what a sweep that visits every row at most once gains -/
theorem sweep_decrease (n : ℕ) (B : ℕ → ℕ → Blk k) (hB : ∀ i j, B i j = (B j i)ᵀ) (d md : ℕ → Blk k) (L : List ℕ) (hnd : L.Nodup)
    (hL : ∀ i ∈ L, i < n) (hd : ∀ i ∈ L, (d i)ᵀ = d i ∧ d i * md i * d i = d i) (x b : BVec k) :
    ip n (mulBlock n B (gsSweep n B d L x b - x)) (gsSweep n B d L x b - x) -
      2 * ip n (b - mulBlock n B x) (gsSweep n B d L x b - x) =
    -(L.map fun i => (gsSweep n B d L x b - x) i ⬝ᵥ ((2 : ℝ) • md i - B i i) *ᵥ (gsSweep n B d L x b - x) i).sum := by
  induction L generalizing x with
  | nil => simp [gsSweep, ip]
  | cons i L ih =>
    obtain ⟨hi, hnd'⟩ := List.nodup_cons.1 hnd
    have hin := hL i List.mem_cons_self
    obtain ⟨hsym, hpinv⟩ := hd i List.mem_cons_self
    set w := d i *ᵥ (b i - mulBlock n B x i) with hw
    set x' := gsRow n B d b x i with hx'
    have hx : x' = x + Pi.single i w := gsRow_eq n B d b x i
    have hy : gsSweep n B d (i :: L) x b = gsSweep n B d L x' b := rfl
    have IH := ih hnd' (fun j hj => hL j (List.mem_cons_of_mem _ hj)) (fun j hj => hd j (List.mem_cons_of_mem _ hj)) x'
    rw [hy]
    set y := gsSweep n B d L x' b with hydef
    set δ := y - x' with hδ
    have hδ2 : y - x = Pi.single i w + δ := by rw [hδ, hx]; abel
    have hδi : δ i = 0 := by rw [hδ, Pi.sub_apply, hydef, gsSweep_outside _ _ _ _ _ _ hi, sub_self]
    have e1 : (L.map fun j => (y - x) j ⬝ᵥ ((2 : ℝ) • md j - B j j) *ᵥ (y - x) j) =
        L.map fun j => δ j ⬝ᵥ ((2 : ℝ) • md j - B j j) *ᵥ δ j := by
      apply List.map_congr_left
      intro j hj
      have : j ≠ i := fun h => hi (h ▸ hj)
      have : (y - x) j = δ j := by rw [hδ2, Pi.add_apply]; simp [this]
      rw [this]
    have e2 : (y - x) i = w := by rw [hδ2, Pi.add_apply, hδi]; simp
    rw [List.map_cons, List.sum_cons, e1, e2, neg_add, ← IH, hδ2]
    have hx2 : mulBlock n B x' = mulBlock n B x + mulBlock n B (Pi.single i w) := by rw [hx, mulBlock_add]
    rw [hx2, mulBlock_add]
    simp only [ip_add_left, ip_add_right, ip_sub_left]
    rw [ip_single n _ hin, ip_single n _ hin, ip_single n _ hin, ip_single n _ hin, mulBlock_single n B hin]
    have hs : (mulBlock n B δ) i ⬝ᵥ w = ip n (mulBlock n B (Pi.single i w)) δ := by
      rw [← ip_single n _ hin, mulBlock_selfadj n B hB, ip_symm]
    rw [hs]
    -- the residual at `i`
    have hr : (b i - mulBlock n B x i) ⬝ᵥ w = w ⬝ᵥ md i *ᵥ w := by
      have h1 : ∀ ρ : Fin k → ℝ, ρ ⬝ᵥ d i *ᵥ ρ = (d i *ᵥ ρ) ⬝ᵥ md i *ᵥ (d i *ᵥ ρ) := by
        intro ρ
        conv_lhs => rw [← hpinv]
        rw [← Matrix.mulVec_mulVec, ← Matrix.mulVec_mulVec, Matrix.dotProduct_mulVec ρ (d i), ← Matrix.mulVec_transpose, hsym]
      rw [hw]
      exact h1 _
    rw [sub_dotProduct] at hr
    rw [Matrix.sub_mulVec, Matrix.smul_mulVec, dotProduct_sub, dotProduct_smul, smul_eq_mul, dotProduct_comm (B i i *ᵥ w) w]
    linarith

/-- the sweep over the rows in reverse order is the adjoint -/
theorem sweep_adjoint_dense (n : ℕ) (B : ℕ → ℕ → Blk k) (hB : ∀ i j, B i j = (B j i)ᵀ) (d : ℕ → Blk k) (L : List ℕ)
    (hL : ∀ i ∈ L, (d i)ᵀ = d i) (b c : BVec k) :
    ip n (gsSweep n B d L 0 b) c = ip n b (gsSweep n B d L.reverse 0 c) := by
  let Bl : BVec k →ₗ[ℝ] BVec k :=
    { toFun := mulBlock n B
      map_add' := mulBlock_add n B
      map_smul' := fun s u => by funext i; simp [mulBlock, Matrix.mulVec_smul, Finset.smul_sum] }
  let d' : ℕ → Blk k := fun i => if i ∈ L then d i else 0
  have hrow : ∀ (M : List ℕ), (∀ i ∈ M, i ∈ L) → ∀ x b : BVec k, gsSweep n B d M x b = Sweep.sweep Bl (locCorr d') M x b := by
    intro M hM x b
    induction M generalizing x with
    | nil => rfl
    | cons i M ih =>
      show gsSweep n B d M (gsRow n B d b x i) b = Sweep.sweep Bl (locCorr d') M (Sweep.corr Bl (locCorr d' i) x b) b
      rw [ih (fun j hj => hM j (List.mem_cons_of_mem _ hj))]
      congr 1
      funext j
      rw [gsRow, Sweep.corr, Pi.add_apply]
      by_cases h : j = i
      · subst h
        simp [locCorr, d', hM j List.mem_cons_self, Bl]
      · simp [locCorr, h]
  rw [hrow L (fun _ h => h), hrow L.reverse (fun _ h => List.mem_reverse.1 h)]
  refine Sweep.sweep_adjoint (ipForm n) (fun u v => mulBlock_selfadj n B hB u v) (fun i u v => ?_) L b c
  apply locCorr_selfadj
  by_cases h : i ∈ L
  · simp [d', h, hL i h]
  · simp [d', h]

/-! ### global sums by master -/

variable {P : PD}

theorem sum_masters {M : Type*} [AddCommMonoid M] (hP : P.WF) (f : ℕ → M) : ∑ g ∈ allDofs P, f g =
    ∑ p ∈ Finset.range P.np, ∑ d ∈ Finset.range (P.ndof p), if P.owner (P.glob p d) = p then f (P.glob p d) else 0 := by
  have h1 : ∀ g ∈ allDofs P, f g = gsum P (fun q e => if P.owner (P.glob q e) = q then f (P.glob q e) else 0) g := by
    intro g hg
    obtain ⟨p, hp, d, hd, rfl⟩ := mem_allDofs.1 hg
    exact (gsum_masters hP f hp hd).symm
  rw [Finset.sum_congr rfl h1]
  unfold DCC.gsum
  rw [Finset.sum_comm]
  apply Finset.sum_congr rfl; intro p hp
  rw [Finset.sum_comm]
  apply Finset.sum_congr rfl; intro d hd
  rw [Finset.sum_ite_eq, if_pos]
  exact glob_mem (Finset.mem_range.1 hp) (Finset.mem_range.1 hd)

theorem blockOp_symm {A : ℕ → CSR (Blk k)} (hA : GSymm P A) (p d e : ℕ) : blockOp P A p d e = (blockOp P A p e d)ᵀ := by
  rw [blockOp, blockOp]
  by_cases h : (d < P.ndof p ∧ P.owner (P.glob p d) = p) ∧ e < P.ndof p ∧ P.owner (P.glob p e) = p
  · rw [if_pos h, if_pos ⟨h.2, h.1⟩, hA]
  · rw [if_neg h, if_neg (fun h' => h ⟨h'.2, h'.1⟩), Matrix.transpose_zero]

/-- rows that one call visits, for one local step -/
theorem allRows_reverse (P : PD) (p H : ℕ) (subset : Option (ℕ → Bool)) {nls : ℤ} (hn : nls ≤ 1) :
    allRows P p H subset false true nls = (allRows P p H subset false false nls).reverse := by
  have h0 : rounds nls = 0 := by rw [rounds]; omega
  simp [allRows, h0, loopRows, stageRows, p1, p2]

theorem gsX_adjoint (hP : P.WF) (A : ℕ → CSR (Blk k)) (hA : GSymm P A) (inv : Blk k → Blk k) (md : ℕ → ℕ → Blk k)
    (subset : ℕ → Option (ℕ → Bool)) (sl bw bw' : Bool) (nls : ℤ)
    (hrev : ∀ p < P.np, allRows P p (P.ndof p) (subset p) sl bw' nls = (allRows P p (P.ndof p) (subset p) sl bw nls).reverse)
    (hd : ∀ p < P.np, ∀ i < P.ndof p, P.owner (P.glob p i) = p → (inv (md p i))ᵀ = inv (md p i)) (b c : ℕ → Fin k → ℝ) :
    gip P (gsX P A inv md subset sl bw nls 0 b) c = gip P b (gsX P A inv md subset sl bw' nls 0 c) := by
  rw [gip, gip, sum_masters hP, sum_masters hP]
  apply Finset.sum_congr rfl; intro p hp
  rw [Finset.mem_range] at hp
  let bl : BVec k := fun d => b (P.glob p d)
  let cl : BVec k := fun d => c (P.glob p d)
  let L := allRows P p (P.ndof p) (subset p) sl bw nls
  have hL : ∀ i ∈ L, mast P p i := fun i hi => mem_allRows hp rfl hi
  have key := sweep_adjoint_dense (P.ndof p) (blockOp P A p) (blockOp_symm hA p) (fun i => inv (md p i)) L
    (fun i hi => hd p hp i (hL i hi).1 (hL i hi).2) bl cl
  have e : ∀ (bw : Bool) (w : ℕ → Fin k → ℝ) (d : ℕ), d < P.ndof p → P.owner (P.glob p d) = p →
      gsX P A inv md subset sl bw nls 0 w (P.glob p d) = gsSweep (P.ndof p) (blockOp P A p) (fun i => inv (md p i))
        (allRows P p (P.ndof p) (subset p) sl bw nls) 0 (fun d => w (P.glob p d)) d := by
    intro bw w d hd' ho
    rw [gsX]
    simp only [ho, loc_glob hP hp hd', Pi.zero_apply, Matrix.mulVec_zero, ite_self, Finset.sum_const_zero, sub_zero]
    rfl
  have z : ∀ (M : List ℕ), (∀ i ∈ M, mast P p i) → ∀ (w : BVec k) (d : ℕ), ¬ P.owner (P.glob p d) = p →
      gsSweep (P.ndof p) (blockOp P A p) (fun i => inv (md p i)) M 0 w d = 0 := by
    intro M hM w d hno
    rw [gsSweep_outside _ _ _ _ _ _ (fun h => hno (hM d h).2)]
    rfl
  have l1 : ∑ d ∈ Finset.range (P.ndof p), (if P.owner (P.glob p d) = p then
      gsX P A inv md subset sl bw nls 0 b (P.glob p d) ⬝ᵥ c (P.glob p d) else 0) =
      ip (P.ndof p) (gsSweep (P.ndof p) (blockOp P A p) (fun i => inv (md p i)) L 0 bl) cl := by
    rw [ip]
    apply Finset.sum_congr rfl; intro d hd'
    rw [Finset.mem_range] at hd'
    by_cases ho : P.owner (P.glob p d) = p
    · rw [if_pos ho, e bw b d hd' ho]
    · rw [if_neg ho, z L hL bl d ho, zero_dotProduct]
  have l2 : ∑ d ∈ Finset.range (P.ndof p), (if P.owner (P.glob p d) = p then
      b (P.glob p d) ⬝ᵥ gsX P A inv md subset sl bw' nls 0 c (P.glob p d) else 0) =
      ip (P.ndof p) bl (gsSweep (P.ndof p) (blockOp P A p) (fun i => inv (md p i)) L.reverse 0 cl) := by
    rw [ip]
    apply Finset.sum_congr rfl; intro d hd'
    rw [Finset.mem_range] at hd'
    by_cases ho : P.owner (P.glob p d) = p
    · rw [if_pos ho, e bw' c d hd' ho, hrev p hp]
    · rw [if_neg ho, z L.reverse (fun i hi => hL i (List.mem_reverse.1 hi)) cl d ho, dotProduct_zero]
  rw [l1, l2, key]

/-- with `symm_loc` the rows of a call with one local step are a palindrome, in both directions -/
theorem allRows_palindrome (P : PD) (p H : ℕ) (subset : Option (ℕ → Bool)) (bw : Bool) {nls : ℤ} (hn : nls ≤ 1) :
    allRows P p H subset true bw nls = (allRows P p H subset true bw nls).reverse := by
  have h0 : rounds nls = 0 := by rw [rounds]; omega
  cases bw <;> simp [allRows, h0, loopRows, stageRows, p1, p2]

theorem gs_numLocSteps (overlap inThread : Bool) (n : ℤ) : (HybMat.hybridGSSmoother overlap inThread n).numLocSteps ≤ 1 := by
  cases overlap <;> simp [HybMat.hybridGSSmoother, HybMat.hybridSmoother, HybMat.intOfBool]

/-- **C51.** For every number of processes, sharing pattern, symmetric global matrix, subset and symmetric inverse diagonals, and for
every setting of overlap, thread and local steps given to the constructor: without local symmetrization `SmoothBack` is the adjoint of
`Smooth`, as maps from the right hand side to the iterate computed from `x = 0`. -/
theorem hybridGS_adjoint (hP : P.WF) (A : ℕ → CSR (Blk k)) (hA : GSymm P A) (inv : Blk k → Blk k) (md : ℕ → ℕ → Blk k)
    (subset : ℕ → Option (ℕ → Bool)) (overlap inThread : Bool) (n : ℤ)
    (hd : ∀ p < P.np, ∀ i < P.ndof p, P.owner (P.glob p i) = p → (inv (md p i))ᵀ = inv (md p i)) (b c : ℕ → Fin k → ℝ) :
    let nls := (HybMat.hybridGSSmoother overlap inThread n).numLocSteps
    gip P (gsX P A inv md subset false false nls 0 b) c = gip P b (gsX P A inv md subset false true nls 0 c) :=
  gsX_adjoint hP A hA inv md subset false false true _
    (fun _ _ => allRows_reverse P _ _ _ (gs_numLocSteps overlap inThread n)) hd b c

/-- **C51**, `symm_loc`: `Smooth` and `SmoothBack` are both self-adjoint ... -/
theorem hybridGS_symmLoc_selfadjoint (hP : P.WF) (A : ℕ → CSR (Blk k)) (hA : GSymm P A) (inv : Blk k → Blk k) (md : ℕ → ℕ → Blk k)
    (subset : ℕ → Option (ℕ → Bool)) (overlap inThread : Bool) (n : ℤ) (bw : Bool)
    (hd : ∀ p < P.np, ∀ i < P.ndof p, P.owner (P.glob p i) = p → (inv (md p i))ᵀ = inv (md p i)) (b c : ℕ → Fin k → ℝ) :
    let nls := (HybMat.hybridGSSmoother overlap inThread n).numLocSteps
    gip P (gsX P A inv md subset true bw nls 0 b) c = gip P b (gsX P A inv md subset true bw nls 0 c) :=
  gsX_adjoint hP A hA inv md subset true bw bw _
    (fun _ _ => allRows_palindrome P _ _ _ bw (gs_numLocSteps overlap inThread n)) hd b c

/-- three processes, DOFs of one, two and three processes: the hypotheses are met, and the maps are not zero -/
example : exPD.WF ∧ GSymm exPD exS ∧
    ∀ p < exPD.np, ∀ i < exPD.ndof p, exPD.owner (exPD.glob p i) = p → ((12 : Blk 1)⁻¹)ᵀ = (12 : Blk 1)⁻¹ :=
  ⟨exPD_WF, exS_symm, fun _ _ _ _ _ => by
    rw [Matrix.transpose_nonsing_inv, ← Matrix.diagonal_ofNat, Matrix.diagonal_transpose]⟩

/-- one process with two DOFs -/
def onePD : PD where
  np := 1
  ndof _ := 2
  glob _ d := d

theorem onePD_WF : onePD.WF where
  inj := by decide
  mono := by
    intro p hp q hq d hd d' hd' e he e' he' h h' hlt
    simp only [onePD] at *
    omega

/-- the matrix `[[2, 1], [1, 2]]` -/
def oneA (_ : ℕ) : CSR (Blk 1) :=
  ⟨2, 2, fun i => if i < 2 then [(0, if i = 0 then 2 else 1), (1, if i = 1 then 2 else 1)] else []⟩

theorem oneA_gop (i j : ℕ) (hi : i < 2) (hj : j < 2) : gop onePD oneA i j = if i = j then 2 else 1 := by
  interval_cases i <;> interval_cases j <;> simp [gop, onePD, Finset.sum_range_succ, oneA, CSR.entry]

theorem two_apply : (2 : Blk 1) 0 0 = 2 := by
  have : (2 : Blk 1) = ((2 : ℕ) : Blk 1) := by norm_cast
  rw [this, Matrix.natCast_apply]; simp

theorem two_inv : (2 : Blk 1)⁻¹ 0 0 = 1 / 2 := by
  rw [Matrix.inv_def, Matrix.adjugate_subsingleton, Matrix.det_fin_one]
  simp [two_apply]

theorem oneA_symm : GSymm onePD oneA := by
  intro g h
  have two_t : (2 : Blk 1)ᵀ = 2 := by rw [← Matrix.diagonal_ofNat, Matrix.diagonal_transpose]
  by_cases hg : g < 2 ∧ h < 2
  · rw [oneA_gop _ _ hg.1 hg.2, oneA_gop _ _ hg.2 hg.1]
    by_cases e : g = h
    · subst e; rw [if_pos rfl, two_t]
    · simp [e, Ne.symm e]
  · have z : ∀ g h, ¬ (g < 2 ∧ h < 2) → gop onePD oneA g h = 0 := by
      intro g h hg
      rw [gop]
      refine Finset.sum_eq_zero fun p _ => Finset.sum_eq_zero fun d hd => Finset.sum_eq_zero fun e he => if_neg ?_
      rintro ⟨rfl, rfl⟩
      exact hg ⟨Finset.mem_range.1 hd, Finset.mem_range.1 he⟩
    rw [z _ _ hg, z _ _ (fun h' => hg ⟨h'.2, h'.1⟩), Matrix.transpose_zero]

/-- **C51**, violated for `symm_loc`: ... but `SmoothBack` is not the adjoint of `Smooth`, already on one process and for every setting
of the others: a multigrid cycle that smooths with one before and with the other after the coarse correction is not symmetric. -/
theorem hybridGS_symmLoc_not_adjoint : ∃ (P : PD) (A : ℕ → CSR (Blk 1)) (md : ℕ → ℕ → Blk 1) (b c : ℕ → Fin 1 → ℝ),
    P.WF ∧ GSymm P A ∧ (∀ p i, md p i = gop P A (P.glob p i) (P.glob p i) ∨ 2 ≤ i) ∧
    ∀ (overlap inThread : Bool) (n : ℤ),
    let nls := (HybMat.hybridGSSmoother overlap inThread n).numLocSteps
    gip P (gsX P A (·⁻¹) md (fun _ => none) true false nls 0 b) c ≠ gip P b (gsX P A (·⁻¹) md (fun _ => none) true true nls 0 c) := by
  refine ⟨onePD, oneA, fun _ _ => 2, Pi.single 0 1, Pi.single 0 1, onePD_WF, oneA_symm, ?_, ?_⟩
  · intro p i
    by_cases h : i < 2
    · left; show 2 = gop onePD oneA i i
      rw [oneA_gop i i h h, if_pos rfl]
    · right; omega
  · intro overlap inThread n nls
    have hn : rounds nls = 0 := by have := gs_numLocSteps overlap inThread n; rw [rounds]; omega
    have hr1 : allRows onePD 0 2 none true false nls = [0, 1, 1, 0] := by
      have : allRows onePD 0 2 none true false 1 = [0, 1, 1, 0] := by decide +kernel
      rw [← this, allRows, allRows, hn]; rfl
    have hr2 : allRows onePD 0 2 none true true nls = [1, 0, 0, 1] := by
      have : allRows onePD 0 2 none true true 1 = [1, 0, 0, 1] := by decide +kernel
      rw [← this, allRows, allRows, hn]; rfl
    have had : allDofs onePD = {0, 1} := by decide
    have ho : onePD.owner 0 = 0 := by decide
    have hl : onePD.loc 0 0 = 0 := by decide
    have key : ∀ bw L, allRows onePD 0 2 none true bw nls = L → (∀ i ∈ L, i < 2) → gsX onePD oneA (·⁻¹) (fun _ _ => 2) (fun _ => none) true bw nls 0 (Pi.single 0 1) 0 =
        gsSweep 2 (fun i j => if i = j then 2 else 1) (fun _ => 2⁻¹) L 0 (Pi.single 0 1) 0 := by
      intro bw L hL hb
      rw [gsX]
      simp only [ho, hl, Pi.zero_apply, Matrix.mulVec_zero, ite_self, Finset.sum_const_zero, sub_zero]
      show gsSweep 2 _ _ (allRows onePD 0 2 none true bw nls) 0 (Pi.single 0 1) 0 = _
      rw [hL, gsSweep_congr_matrix (B := fun i j => if i = j then 2 else 1)]
      intro i hi j hj
      have hi2 := hb i hi
      rw [blockOp, if_pos]
      · exact oneA_gop i j hi2 hj
      · have : ∀ m < 2, onePD.owner (onePD.glob 0 m) = 0 := by decide
        exact ⟨⟨hi2, this i hi2⟩, hj, this j hj⟩
    rw [gip, gip, had]
    rw [Finset.sum_pair (by decide), Finset.sum_pair (by decide)]
    rw [key false _ hr1 (by decide), key true _ hr2 (by decide)]
    simp [gsSweep, gsRow, mulBlock, Finset.sum_range_succ, two_apply, Matrix.mulVec, dotProduct]

end NgsAMG.HybSm
