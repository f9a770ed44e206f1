import Verif.Model.HybridSmoother
import Verif.Props.Hybrid
import Verif.Props.GaussSeidel4

/-! C40: the parallel hybrid smoother. -/

namespace NgsAMG.HybSm

open NgsAMG.DCC NgsAMG.Hybrid NgsAMG.Exch NgsAMG.GS Matrix

variable {k : ℕ}

/-! ### specification: global vectors and operators -/

/-- all global DOFs -/
def allDofs (P : PD) : Finset ℕ := (Finset.range P.np).biUnion fun p => (Finset.range (P.ndof p)).image (P.glob p)

/-- the global operator represented by process-local matrices, applied to a global vector -/
def gmul (P : PD) (A : ℕ → CSR (Blk k)) (x : ℕ → Fin k → ℝ) (g : ℕ) : Fin k → ℝ := ∑ h ∈ allDofs P, gop P A g h *ᵥ x h

/-- all processes have the values of the global vector `xh` (CUMULATED) -/
def Consistent (P : PD) (x : ℕ → BVec k) (xh : ℕ → Fin k → ℝ) : Prop := ∀ p < P.np, ∀ d < P.ndof p, x p d = xh (P.glob p d)

theorem mem_allDofs {P : PD} {g : ℕ} : g ∈ allDofs P ↔ ∃ p < P.np, ∃ d < P.ndof p, P.glob p d = g := by
  simp [allDofs]

theorem sum_mulVec' {ι : Type*} (s : Finset ι) (f : ι → Blk k) (v : Fin k → ℝ) : (∑ i ∈ s, f i) *ᵥ v = ∑ i ∈ s, f i *ᵥ v := by
  classical
  induction s using Finset.induction_on with
  | empty => simp
  | insert a s ha ih => rw [Finset.sum_insert ha, Finset.sum_insert ha, Matrix.add_mulVec, ih]

/-- local products with a consistent vector represent the global product -/
theorem gsum_mult {P : PD} (B : ℕ → CSR (Blk k)) (hB : ∀ p < P.np, (B p).WF ∧ (B p).width ≤ P.ndof p)
    {x : ℕ → BVec k} {xh : ℕ → Fin k → ℝ} (hx : Consistent P x xh) (g : ℕ) :
    gsum P (fun p => multRow (B p) (x p)) g = gmul P B xh g := by
  have h1 : ∀ p < P.np, ∀ d, multRow (B p) (x p) d = ∑ e ∈ Finset.range (P.ndof p), (B p).entry d e *ᵥ xh (P.glob p e) := by
    intro p hp d
    obtain ⟨hw, hle⟩ := hB p hp
    rw [multRow, CSR.rowTimesVector_dense _ hw, ← Finset.sum_subset (Finset.range_mono hle)]
    · apply Finset.sum_congr rfl
      intro e he
      rw [Finset.mem_range] at he
      rw [hx p hp e (by omega)]
    · intro e _ he
      rw [Finset.mem_range, not_lt] at he
      rw [CSR.entry_outside _ hw (Or.inr he), Matrix.zero_mulVec]
  have h2 : gmul P B xh g = ∑ p ∈ Finset.range P.np, ∑ d ∈ Finset.range (P.ndof p), ∑ e ∈ Finset.range (P.ndof p),
      if P.glob p d = g then (B p).entry d e *ᵥ xh (P.glob p e) else 0 := by
    simp only [gmul, gop, sum_mulVec']
    rw [Finset.sum_comm]
    apply Finset.sum_congr rfl; intro p hp
    rw [Finset.sum_comm]
    apply Finset.sum_congr rfl; intro d hd
    rw [Finset.sum_comm]
    apply Finset.sum_congr rfl; intro e he
    rw [Finset.mem_range] at hp hd he
    rw [Finset.sum_eq_single (P.glob p e)]
    · by_cases hg : P.glob p d = g <;> simp [hg]
    · intro h _ hne
      rw [if_neg (by rintro ⟨_, h2⟩; exact hne h2.symm), Matrix.zero_mulVec]
    · intro h
      exact absurd (mem_allDofs.2 ⟨p, hp, e, he, rfl⟩) h
  rw [h2, gsum]
  apply Finset.sum_congr rfl; intro p hp
  apply Finset.sum_congr rfl; intro d hd
  rw [Finset.mem_range] at hp
  by_cases hg : P.glob p d = g
  · simp only [hg, if_true]; rw [h1 p hp d]
  · simp [hg]

theorem gsum_add {P : PD} (u v : ℕ → BVec k) (g : ℕ) : gsum P (fun p => u p + v p) g = gsum P u g + gsum P v g := by
  simp only [gsum, ← Finset.sum_add_distrib]
  refine Finset.sum_congr rfl fun p _ => Finset.sum_congr rfl fun d _ => ?_
  split_ifs <;> simp

theorem gsum_sub {P : PD} (u v : ℕ → BVec k) (g : ℕ) : gsum P (fun p => u p - v p) g = gsum P u g - gsum P v g := by
  simp only [gsum, ← Finset.sum_sub_distrib]
  refine Finset.sum_congr rfl fun p _ => Finset.sum_congr rfl fun d _ => ?_
  split_ifs <;> simp

theorem gmul_split {P : PD} (hP : P.WF) {A M : ℕ → CSR (Blk k)} {G : ℕ → Option (CSR (Blk k))}
    (hMG : ∀ p < P.np, LocalSpec P A p (M p) (G p)) (x : ℕ → Fin k → ℝ) (g : ℕ) :
    gmul P M x g + gmul P (fun p => (G p).getD emptyM) x g = gmul P A x g := by
  simp only [gmul, ← Finset.sum_add_distrib]
  apply Finset.sum_congr rfl; intro h _
  rw [← Matrix.add_mulVec, gop_split hP A M G hMG]

theorem gMult_eq (G : Option (CSR (Blk k))) (x : BVec k) : gMult G x = multRow (G.getD emptyM) x := by
  cases G with
  | some G => rfl
  | none => funext i; simp [gMult, multRow, rowTimesVector, emptyM]

/-! ### what the kernels of the stages have to do -/

/-- a smoothing kernel on the DOFs `S`: it reads the right hand side only there, changes the iterate only there, and the version
that keeps the residual computes the same for the right hand side which belongs to the residual -/
structure StageOK (M : CSR (Blk k)) (S : ℕ → Prop) (rhs : BVec k → BVec k → BVec k) (res : BVec k → BVec k → BVec k × BVec k) :
    Prop where
  congr : ∀ x b b', (∀ i, S i → b i = b' i) → rhs x b = rhs x b'
  frame : ∀ x b i, ¬ S i → rhs x b i = x i
  res_eq : ∀ x r, res x r = (rhs x (r + multRow M x), r + multRow M x - multRow M (rhs x (r + multRow M x)))

/-- DOFs of which the process is the master -/
def mast (P : PD) (p d : ℕ) : Prop := d < P.ndof p ∧ P.owner (P.glob p d) = p

/-- DOFs that no other process has -/
def unshared (P : PD) (p d : ℕ) : Prop := d < P.ndof p ∧ ∀ q < P.np, P.shares q (P.glob p d) = true → q = p

/-- the stages: the local parts work on DOFs that no other process has, the exchange part on masters -/
structure KernelsOK (P : PD) (p : ℕ) (M : CSR (Blk k)) (K : Kernels k) : Prop where
  loc1 : ∀ bw xz, StageOK M (unshared P p) (K.rhs .loc1 bw xz) (K.res .loc1 bw xz)
  ex : ∀ bw xz, StageOK M (mast P p) (K.rhs .ex bw xz) (K.res .ex bw xz)
  loc2 : ∀ bw xz, StageOK M (unshared P p) (K.rhs .loc2 bw xz) (K.res .loc2 bw xz)

theorem unshared_mast {P : PD} {p d : ℕ} (hp : p < P.np) (h : unshared P p d) : mast P p d := by
  have ho := owner_spec hp (shares_glob h.1)
  exact ⟨h.1, h.2 _ (by omega) ho.1⟩

/-! ### one process -/

/-- the iterate after the loop, with a fixed right hand side -/
def loopX (K : Kernels k) (bw : Bool) (β : BVec k) : ℕ → Bool → BVec k → BVec k
  | 0, _, x => x
  | n + 1, xz, x =>
    loopX K bw β n false (K.rhs (p1 bw) bw false (K.rhs .ex bw false (K.rhs (p2 bw) bw xz x β) β) β)

/-- the iterate before the last stage -/
def preX (K : Kernels k) (bw xz : Bool) (nls : ℤ) (x β : BVec k) : BVec k :=
  loopX K bw β (rounds nls) xz (K.rhs .ex bw xz (K.rhs (p1 bw) bw xz x β) β)

/-- all stages of the process, with a fixed right hand side -/
def fullX (K : Kernels k) (bw xz : Bool) (nls : ℤ) (x β : BVec k) : BVec k :=
  K.rhs (p2 bw) bw (xZeroAfter nls xz) (preX K bw xz nls x β) β

theorem callSM_rhs (K : Kernels k) {sel : Sel} (hsel : sel ≠ .res) (bw : Bool) (st : Stage) (xz : Bool) (s : LS k) :
    callSM K sel bw st xz s = { s with x := K.rhs st bw xz s.x (sel.get s) } := by
  cases sel <;> first | rfl | exact absurd rfl hsel

theorem get_withX (sel : Sel) (s : LS k) (x : BVec k) : sel.get { s with x := x } = sel.get s := by cases sel <;> rfl

theorem locLoop_rhs (K : Kernels k) {sel : Sel} (hsel : sel ≠ .res) (bw : Bool) (n : ℕ) (xz : Bool) (s : LS k) :
    (locLoop K sel bw n xz s).1 = { s with x := loopX K bw (sel.get s) n xz s.x } := by
  induction n generalizing xz s with
  | zero => rfl
  | succ n ih =>
    simp only [locLoop, callSM_rhs K hsel, get_withX]
    rw [ih]
    simp only [get_withX]
    rfl

theorem stageP1 {P : PD} {p : ℕ} {M : CSR (Blk k)} {K : Kernels k} (hK : KernelsOK P p M K) (bw xz : Bool) :
    StageOK M (unshared P p) (K.rhs (p1 bw) bw xz) (K.res (p1 bw) bw xz) := by
  cases bw
  · exact hK.loc1 _ _
  · exact hK.loc2 _ _

theorem stageP2 {P : PD} {p : ℕ} {M : CSR (Blk k)} {K : Kernels k} (hK : KernelsOK P p M K) (bw xz : Bool) :
    StageOK M (unshared P p) (K.rhs (p2 bw) bw xz) (K.res (p2 bw) bw xz) := by
  cases bw
  · exact hK.loc2 _ _
  · exact hK.loc1 _ _

/-- a stage with the residual keeps `res + M x` -/
theorem callSM_res {M : CSR (Blk k)} {S : ℕ → Prop} {K : Kernels k} {bw : Bool} {st : Stage} {xz : Bool} {N : ℕ}
    (h : StageOK M S (K.rhs st bw xz) (K.res st bw xz)) (hS : ∀ i, S i → i < N) {β : BVec k} {s : LS k}
    (hinv : ∀ i < N, s.res i + multRow M s.x i = β i) :
    (callSM K .res bw st xz s).x = K.rhs st bw xz s.x β ∧ (callSM K .res bw st xz s).gx = s.gx ∧
      (callSM K .res bw st xz s).b = s.b ∧
      ∀ i < N, (callSM K .res bw st xz s).res i + multRow M (callSM K .res bw st xz s).x i = β i := by
  have hx : K.rhs st bw xz s.x (s.res + multRow M s.x) = K.rhs st bw xz s.x β :=
    h.congr _ _ _ fun i hi => hinv i (hS i hi)
  have e := h.res_eq s.x s.res
  refine ⟨?_, rfl, rfl, fun i hi => ?_⟩
  · show (K.res st bw xz s.x s.res).1 = _
    rw [e, hx]
  · show (K.res st bw xz s.x s.res).2 i + multRow M (K.res st bw xz s.x s.res).1 i = _
    rw [e, hx]
    simp only [Pi.add_apply, Pi.sub_apply, sub_add_cancel]
    exact hinv i hi

theorem locLoop_res {P : PD} {p : ℕ} {M : CSR (Blk k)} {K : Kernels k} (hK : KernelsOK P p M K) (bw : Bool)
    {β : BVec k} (n : ℕ) (xz : Bool) (s : LS k) (hinv : ∀ i < P.ndof p, s.res i + multRow M s.x i = β i) :
    (locLoop K .res bw n xz s).1.x = loopX K bw β n xz s.x ∧ (locLoop K .res bw n xz s).1.gx = s.gx ∧
      (locLoop K .res bw n xz s).1.b = s.b ∧
      ∀ i < P.ndof p, (locLoop K .res bw n xz s).1.res i + multRow M (locLoop K .res bw n xz s).1.x i = β i := by
  induction n generalizing xz s with
  | zero => exact ⟨rfl, rfl, rfl, hinv⟩
  | succ n ih =>
    obtain ⟨a1, a2, a3, a4⟩ := callSM_res (stageP2 hK bw xz) (fun i hi => hi.1) hinv
    obtain ⟨b1, b2, b3, b4⟩ := callSM_res (hK.ex bw false) (fun i hi => hi.1) a4
    obtain ⟨c1, c2, c3, c4⟩ := callSM_res (stageP1 hK bw false) (fun i hi => hi.1) b4
    obtain ⟨d1, d2, d3, d4⟩ := ih false _ c4
    refine ⟨?_, ?_, ?_, d4⟩
    · rw [loopX, ← a1, ← b1, ← c1]; exact d1
    · exact d2.trans (c2.trans (b2.trans a2))
    · exact d3.trans (c3.trans (b3.trans a3))

theorem afterGather_res {P : PD} {p : ℕ} {M : CSR (Blk k)} {K : Kernels k} (hK : KernelsOK P p M K)
    (bw xz : Bool) (nls : ℤ) {β : BVec k} (s : LS k) (hinv : ∀ i < P.ndof p, s.res i + multRow M s.x i = β i) :
    (afterGather K .res bw xz nls s).x = loopX K bw β (rounds nls) xz (K.rhs .ex bw xz s.x β) ∧
      (afterGather K .res bw xz nls s).gx = s.gx ∧ (afterGather K .res bw xz nls s).b = s.b ∧
      ∀ i < P.ndof p, (afterGather K .res bw xz nls s).res i + multRow M (afterGather K .res bw xz nls s).x i = β i := by
  obtain ⟨b1, b2, b3, b4⟩ := callSM_res (hK.ex bw xz) (fun i hi => hi.1) hinv
  obtain ⟨d1, d2, d3, d4⟩ := locLoop_res hK bw (rounds nls) xz _ b4
  refine ⟨?_, d2.trans b2, d3.trans b3, d4⟩
  rw [← b1]; exact d1

theorem afterGather_rhs (K : Kernels k) {sel : Sel} (hsel : sel ≠ .res) (bw xz : Bool) (nls : ℤ) (s : LS k) :
    afterGather K sel bw xz nls s =
      { s with x := loopX K bw (sel.get s) (rounds nls) xz (K.rhs .ex bw xz s.x (sel.get s)) } := by
  rw [afterGather, locLoop_rhs K hsel, callSM_rhs K hsel]
  simp only [get_withX]

/-! ### communication -/

theorem matched_kernels {P : PD} (hP : P.WF) (prog : List (Phase (LS k) (List (Fin k → ℝ))))
    (h : ∀ ph ∈ prog, (ph.sends = gComm P ∧ ph.recvs = mComm P) ∨ (ph.sends = mComm P ∧ ph.recvs = gComm P) ∨
      (ph.sends = fun _ _ => false) ∧ (ph.recvs = fun _ _ => false)) : Matched P.np prog := by
  have hg : ∀ p q, gComm P p q = true → q < P.np := by
    intro p q h
    simp only [gComm, Bool.and_eq_true, List.contains_iff_mem] at h
    exact (exProcs_ne h.1).1
  have hm : ∀ p q, mComm P p q = true → q < P.np := by
    intro p q h
    simp only [mComm, Bool.and_eq_true, List.contains_iff_mem] at h
    exact (exProcs_ne h.1).1
  intro ph hph p hp
  rcases h ph hph with ⟨h1, h2⟩ | ⟨h1, h2⟩ | ⟨h1, h2⟩
  · rw [h1, h2]; exact ⟨fun q hq => comm_matched hP hp hq, hg p, hm p⟩
  · rw [h1, h2]; exact ⟨fun q hq => (comm_matched hP hq hp).symm, hm p, hg p⟩
  · rw [h1, h2]; exact ⟨fun q hq => rfl, by simp, by simp⟩

/-- the vector that the stages after the gather see -/
def gathered (P : PD) (needD2c : Bool) (v : ℕ → BVec k) (p : ℕ) : BVec k :=
  if needD2c then runPhase (dis2co P) v p else v p

/-- `ApplyM` adds the same to whatever is in the vector by then -/
theorem applyM_shift {P : PD} (hP : P.WF) {p : ℕ} (hp : p < P.np) (v : ℕ → BVec k) (u : BVec k) {d : ℕ} (hd : d < P.ndof p) :
    applyM P p u (fun q => if mComm P p q = true then (bufferG P q (v q)).2 p else default) d =
      u d - (bufferG P p (v p)).1 d + runPhase (dis2co P) v p d := by
  have hbuf : ∀ q < P.np, q ≠ p → (if mComm P p q = true then (bufferG P q (v q)).2 p else default) = (P.gEx q p).map (v q) := by
    intro q hq _
    by_cases hc : mComm P p q = true
    · rw [if_pos hc, (bufferG_spec hq (v q)).2 p hp]
    · rw [if_neg hc]
      rw [← comm_matched hP hq hp, gComm_iff hq, not_not] at hc
      rw [hc]; rfl
  show _ = _ + applyM P p (bufferG P p (v p)).1 (fun q => if mComm P p q = true then (bufferG P q (v q)).2 p else default) d
  rw [applyM_spec hP hp u v _ hbuf d hd, applyM_spec hP hp _ v _ hbuf d hd]
  abel

/-- on unshared DOFs the gather changes nothing -/
theorem gather_unshared {P : PD} (hP : P.WF) {p : ℕ} (hp : p < P.np) (v : ℕ → BVec k) {d : ℕ} (h : unshared P p d) :
    runPhase (dis2co P) v p d = v p d ∧ (bufferG P p (v p)).1 d = v p d := by
  have ho := (unshared_mast hp h).2
  rw [runPhase_dis2co hP v hp h.1, (bufferG_spec hp (v p)).1 d h.1, if_pos ho, if_pos ho, gsum_at hP p d]
  refine ⟨?_, rfl⟩
  rw [Finset.sum_eq_single p]
  · rw [if_pos (shares_glob h.1), loc_glob hP hp h.1]
  · intro q hq hne
    rw [if_neg]
    intro hs
    exact hne (h.2 q (Finset.mem_range.1 hq) hs)
  · intro hn; exact absurd (Finset.mem_range.2 hp) hn

/-- `X` of the master, after the last stage -/
theorem scatter_x {P : PD} (hP : P.WF) (Xpre X : ℕ → BVec k)
    (hX : ∀ q < P.np, ∀ e, ¬ unshared P q e → X q e = Xpre q e) {p d : ℕ} (hp : p < P.np) (hd : d < P.ndof p) :
    applyG P p (X p) (fun q => if gComm P p q = true then bufferM P q (Xpre q) p else default) d =
      X (P.owner (P.glob p d)) (P.loc (P.owner (P.glob p d)) (P.glob p d)) := by
  rw [applyG_spec hP hp _ Xpre _ ?_ d hd]
  · by_cases ho : P.owner (P.glob p d) = p
    · rw [if_pos ho, ho, loc_glob hP hp hd]
    · rw [if_neg ho]
      have hos := owner_spec hp (shares_glob hd)
      have hl := loc_spec hos.1
      symm
      apply hX _ (by omega)
      intro hu
      have := hu.2 p hp (by rw [hl.2]; exact shares_glob hd)
      exact ho this.symm
  · intro q hq _
    by_cases hc : gComm P p q = true
    · rw [if_pos hc]; rfl
    · rw [if_neg hc]
      rw [comm_matched hP hp hq, mComm_iff hq, not_not] at hc
      rw [hc]; rfl

/-! ### `CallStageKernelsImpl` -/

theorem get_set (sel : Sel) (s : LS k) (v : BVec k) : sel.get (sel.set s v) = v := by cases sel <;> rfl
theorem set_x (sel : Sel) (s : LS k) (v : BVec k) : (sel.set s v).x = s.x := by cases sel <;> rfl

theorem congr_loopX {P : PD} {p : ℕ} (hp : p < P.np) {M : CSR (Blk k)} {K : Kernels k} (hK : KernelsOK P p M K) (bw : Bool)
    {β β' : BVec k} (h : ∀ d, mast P p d → β d = β' d) (n : ℕ) (xz : Bool) (x : BVec k) :
    loopX K bw β n xz x = loopX K bw β' n xz x := by
  induction n generalizing xz x with
  | zero => rfl
  | succ n ih =>
    rw [loopX, loopX, (stageP2 hK bw xz).congr _ _ _ (fun i hi => h i (unshared_mast hp hi)), (hK.ex bw false).congr _ _ _ h,
      (stageP1 hK bw false).congr _ _ _ (fun i hi => h i (unshared_mast hp hi)), ih]

/-- the stages see the right hand side only at masters -/
theorem congr_fullX {P : PD} {p : ℕ} (hp : p < P.np) {M : CSR (Blk k)} {K : Kernels k} (hK : KernelsOK P p M K) (bw xz : Bool)
    (nls : ℤ) (x : BVec k) {β β' : BVec k} (h : ∀ d, mast P p d → β d = β' d) :
    fullX K bw xz nls x β = fullX K bw xz nls x β' ∧ preX K bw xz nls x β = preX K bw xz nls x β' := by
  have hpre : preX K bw xz nls x β = preX K bw xz nls x β' := by
    rw [preX, preX, (stageP1 hK bw xz).congr _ _ _ (fun i hi => h i (unshared_mast hp hi)), (hK.ex bw xz).congr _ _ _ h,
      congr_loopX hp hK bw h]
  refine ⟨?_, hpre⟩
  rw [fullX, fullX, hpre, (stageP2 hK bw _).congr _ _ _ (fun i hi => h i (unshared_mast hp hi))]

/-- first part of `CallStageKernelsImpl`, with the right hand side -/
theorem first_rhs {P : PD} (hP : P.WF) {M : ℕ → CSR (Blk k)} {K : ℕ → Kernels k} (hK : ∀ p < P.np, KernelsOK P p (M p) (K p))
    {sel : Sel} (hsel : sel ≠ .res) (bw xz : Bool) (nls : ℤ) (d2c : Bool) (v : ℕ → LS k) {p : ℕ} (hp : p < P.np) :
    let u := runPhase (if d2c then d2cPhase P K sel bw xz nls else noD2c K sel bw xz nls) v p
    (∃ w, u = sel.set { v p with x := preX (K p) bw xz nls (v p).x w } w ∧
      ∀ d < P.ndof p, w d = gathered P d2c (fun q => sel.get (v q)) p d) := by
  intro u
  cases d2c with
  | false =>
    refine ⟨sel.get (v p), ?_, fun d _ => rfl⟩
    show afterGather (K p) sel bw xz nls (callSM (K p) sel bw (p1 bw) xz (v p)) = _
    rw [afterGather_rhs _ hsel, callSM_rhs _ hsel]
    simp only [get_withX]
    cases sel <;> rfl
  | true =>
    let g := fun q => sel.get (v q)
    let buf : ℕ → List (Fin k → ℝ) := fun q => if mComm P p q = true then (bufferG P q (g q)).2 p else default
    refine ⟨applyM P p (bufferG P p (g p)).1 buf, ?_, ?_⟩
    · show afterGather (K p) sel bw xz nls (sel.set (callSM (K p) sel bw (p1 bw) xz (sel.set (v p) (bufferG P p (g p)).1))
        (applyM P p (sel.get (callSM (K p) sel bw (p1 bw) xz (sel.set (v p) (bufferG P p (g p)).1))) buf)) = _
      rw [callSM_rhs _ hsel, get_withX, get_set, set_x, afterGather_rhs _ hsel]
      have hc : (K p).rhs (p1 bw) bw xz (v p).x (bufferG P p (g p)).1 =
          (K p).rhs (p1 bw) bw xz (v p).x (applyM P p (bufferG P p (g p)).1 buf) := by
        apply (stageP1 (hK p hp) bw xz).congr
        intro i hi
        rw [applyM_shift hP hp g _ hi.1, (gather_unshared hP hp g hi).1, (gather_unshared hP hp g hi).2]
        abel
      rw [hc]
      cases sel <;> rfl
    · intro d hd
      rfl

/-- first part of `CallStageKernelsImpl`, with the residual -/
theorem first_res {P : PD} (hP : P.WF) {M : ℕ → CSR (Blk k)} {K : ℕ → Kernels k} (hK : ∀ p < P.np, KernelsOK P p (M p) (K p))
    (bw xz : Bool) (nls : ℤ) (d2c : Bool) (v : ℕ → LS k) {p : ℕ} (hp : p < P.np) :
    let u := runPhase (if d2c then d2cPhase P K .res bw xz nls else noD2c K .res bw xz nls) v p
    let β := gathered P d2c (fun q => (v q).res) p + multRow (M p) (v p).x
    u.x = preX (K p) bw xz nls (v p).x β ∧ u.gx = (v p).gx ∧ u.b = (v p).b ∧
      ∀ i < P.ndof p, u.res i + multRow (M p) u.x i = β i := by
  intro u β
  cases d2c with
  | false =>
    obtain ⟨a1, a2, a3, a4⟩ := callSM_res (s := v p) (β := β) (stageP1 (hK p hp) bw xz) (fun i hi => hi.1) (fun i _ => rfl)
    obtain ⟨b1, b2, b3, b4⟩ := afterGather_res (hK p hp) bw xz nls _ a4
    refine ⟨?_, b2.trans a2, b3.trans a3, b4⟩
    rw [preX, ← a1]; exact b1
  | true =>
    let g := fun q => (v q).res
    let buf : ℕ → List (Fin k → ℝ) := fun q => if mComm P p q = true then (bufferG P q (g q)).2 p else default
    let s0 : LS k := { v p with res := (bufferG P p (g p)).1 }
    let β0 : BVec k := (bufferG P p (g p)).1 + multRow (M p) (v p).x
    obtain ⟨a1, a2, a3, a4⟩ := callSM_res (s := s0) (β := β0) (stageP1 (hK p hp) bw xz) (fun i hi => hi.1) (fun i _ => rfl)
    let s1 := callSM (K p) .res bw (p1 bw) xz s0
    let s2 : LS k := { s1 with res := applyM P p s1.res buf }
    have hinv : ∀ i < P.ndof p, s2.res i + multRow (M p) s2.x i = β i := by
      intro i hi
      have h1 : s2.res i = s1.res i - (bufferG P p (g p)).1 i + runPhase (dis2co P) g p i := applyM_shift hP hp g _ hi
      have h2 : s1.res i + multRow (M p) s1.x i = (bufferG P p (g p)).1 i + multRow (M p) (v p).x i := a4 i hi
      show s2.res i + multRow (M p) s1.x i = runPhase (dis2co P) g p i + multRow (M p) (v p).x i
      rw [h1]
      have : s1.res i = (bufferG P p (g p)).1 i + multRow (M p) (v p).x i - multRow (M p) s1.x i := by rw [← h2]; abel
      rw [this]
      abel
    obtain ⟨b1, b2, b3, b4⟩ := afterGather_res (hK p hp) bw xz nls s2 hinv
    have hc : s1.x = (K p).rhs (p1 bw) bw xz (v p).x β := by
      rw [show s1.x = _ from a1]
      apply (stageP1 (hK p hp) bw xz).congr
      intro i hi
      show (bufferG P p (g p)).1 i + multRow (M p) (v p).x i = runPhase (dis2co P) g p i + multRow (M p) (v p).x i
      rw [(gather_unshared hP hp g hi).1, (gather_unshared hP hp g hi).2]
    refine ⟨?_, b2.trans a2, b3.trans a3, b4⟩
    rw [preX, ← hc]; exact b1

/-- columns of `M` are masters -/
theorem multRow_masters {P : PD} {A : ℕ → CSR (Blk k)} {p : ℕ} {M : CSR (Blk k)} {G : Option (CSR (Blk k))}
    (h : LocalSpec P A p M G) {x y : BVec k} (hxy : ∀ d, mast P p d → x d = y d) : multRow M x = multRow M y := by
  funext i
  rw [multRow, multRow, CSR.rowTimesVector_eq_sum, CSR.rowTimesVector_eq_sum]
  congr 1
  apply List.map_congr_left
  intro e he
  rw [hxy e.1 ⟨by have := h.wfM.inRange i e he; rw [h.dimM.2] at this; exact this, (h.graphM i e he).2⟩]

/-- rows of `M` that do not belong to masters are empty -/
theorem multRow_ghost {P : PD} {A : ℕ → CSR (Blk k)} {p : ℕ} {M : CSR (Blk k)} {G : Option (CSR (Blk k))}
    (h : LocalSpec P A p M G) (x : BVec k) {d : ℕ} (hd : P.owner (P.glob p d) ≠ p) : multRow M x d = 0 := by
  have : M.row d = [] := by
    rw [List.eq_nil_iff_forall_not_mem]
    intro e he
    exact hd (h.graphM d e he).1
  simp [multRow, rowTimesVector, this]

/-- `CallStageKernelsImpl` with a right hand side -/
theorem kernels_rhs {P : PD} (hP : P.WF) {M : ℕ → CSR (Blk k)} {K : ℕ → Kernels k} (hK : ∀ p < P.np, KernelsOK P p (M p) (K p))
    {sel : Sel} (hsel : sel ≠ .res) (bw xz : Bool) (nls : ℤ) (d2c : Bool) (v : ℕ → LS k) {p : ℕ} (hp : p < P.np) :
    ∃ x w, run (kernels P K sel bw xz nls d2c) v p = sel.set { v p with x := x } w ∧
      (∀ d < P.ndof p, w d = gathered P d2c (fun q => sel.get (v q)) p d) ∧
      ∀ d < P.ndof p, x d = fullX (K (P.owner (P.glob p d))) bw xz nls (v (P.owner (P.glob p d))).x
        (gathered P d2c (fun q => sel.get (v q)) (P.owner (P.glob p d))) (P.loc (P.owner (P.glob p d)) (P.glob p d)) := by
  let u := runPhase (if d2c then d2cPhase P K sel bw xz nls else noD2c K sel bw xz nls) v
  let γ := gathered P d2c (fun q => sel.get (v q))
  have hu : ∀ q < P.np, ∃ w, u q = sel.set { v q with x := preX (K q) bw xz nls (v q).x w } w ∧ ∀ d < P.ndof q, w d = γ q d :=
    fun q hq => first_rhs hP hK hsel bw xz nls d2c v hq
  have hpre : ∀ q < P.np, (u q).x = preX (K q) bw xz nls (v q).x (γ q) := by
    intro q hq
    obtain ⟨w, h1, h2⟩ := hu q hq
    rw [h1, set_x]
    exact (congr_fullX hq (hK q hq) bw xz nls _ (fun d hd => h2 d hd.1)).2
  let X : ℕ → BVec k := fun q => fullX (K q) bw xz nls (v q).x (γ q)
  have hX : ∀ q < P.np, ∀ e, ¬ unshared P q e → X q e = (u q).x e := by
    intro q hq e he
    rw [hpre q hq]
    exact (stageP2 (hK q hq) bw _).frame _ _ _ he
  obtain ⟨w, h1, h2⟩ := hu p hp
  let buf : ℕ → List (Fin k → ℝ) := fun q => if gComm P p q = true then bufferM P q (u q).x p else default
  have hstart : callSM (K p) sel bw (p2 bw) (xZeroAfter nls xz) (u p) = sel.set { v p with x := X p } w := by
    rw [callSM_rhs _ hsel]
    have hg : sel.get (u p) = w := by rw [h1, get_set]
    have hx : (K p).rhs (p2 bw) bw (xZeroAfter nls xz) (u p).x w = X p := by
      show _ = (K p).rhs _ _ _ _ _
      rw [hpre p hp]
      exact (stageP2 (hK p hp) bw _).congr _ _ _ fun i hi => h2 i hi.1
    rw [hg, hx, h1]
    cases sel <;> rfl
  refine ⟨applyG P p (X p) buf, w, ?_, h2, ?_⟩
  · show { callSM (K p) sel bw (p2 bw) (xZeroAfter nls xz) (u p) with
      x := applyG P p (callSM (K p) sel bw (p2 bw) (xZeroAfter nls xz) (u p)).x buf } = _
    rw [hstart, set_x]
    cases sel <;> rfl
  · intro d hd
    exact scatter_x hP (fun q => (u q).x) X hX hp hd

/-- `CallStageKernelsImpl` with a residual -/
theorem kernels_res {P : PD} (hP : P.WF) {A M : ℕ → CSR (Blk k)} {G : ℕ → Option (CSR (Blk k))}
    (hMG : ∀ p < P.np, LocalSpec P A p (M p) (G p)) {K : ℕ → Kernels k} (hK : ∀ p < P.np, KernelsOK P p (M p) (K p))
    (bw xz : Bool) (nls : ℤ) (d2c : Bool) (v : ℕ → LS k) {p : ℕ} (hp : p < P.np) :
    let u := run (kernels P K .res bw xz nls d2c) v p
    let β := fun q => gathered P d2c (fun q => (v q).res) q + multRow (M q) (v q).x
    u.gx = (v p).gx ∧ u.b = (v p).b ∧ (∀ d < P.ndof p, u.res d + multRow (M p) u.x d = β p d) ∧
      ∀ d < P.ndof p, u.x d = fullX (K (P.owner (P.glob p d))) bw xz nls (v (P.owner (P.glob p d))).x
        (β (P.owner (P.glob p d))) (P.loc (P.owner (P.glob p d)) (P.glob p d)) := by
  intro u' β
  let u := runPhase (if d2c then d2cPhase P K .res bw xz nls else noD2c K .res bw xz nls) v
  have hu := fun q (hq : q < P.np) => first_res hP hK bw xz nls d2c v hq
  let X : ℕ → BVec k := fun q => fullX (K q) bw xz nls (v q).x (β q)
  have hX : ∀ q < P.np, ∀ e, ¬ unshared P q e → X q e = (u q).x e := by
    intro q hq e he
    rw [show (u q).x = _ from (hu q hq).1]
    exact (stageP2 (hK q hq) bw _).frame _ _ _ he
  obtain ⟨h1, h2, h3, h4⟩ := hu p hp
  obtain ⟨a1, a2, a3, a4⟩ := callSM_res (s := u p) (β := β p) (stageP2 (hK p hp) bw (xZeroAfter nls xz)) (fun i hi => hi.1) h4
  let buf : ℕ → List (Fin k → ℝ) := fun q => if gComm P p q = true then bufferM P q (u q).x p else default
  let t := callSM (K p) .res bw (p2 bw) (xZeroAfter nls xz) (u p)
  have ht : t.x = X p := by
    rw [show t.x = _ from a1, show (u p).x = _ from h1]; rfl
  have hu' : u' = { t with x := applyG P p t.x buf } := rfl
  have hx : ∀ d < P.ndof p, u'.x d = X (P.owner (P.glob p d)) (P.loc (P.owner (P.glob p d)) (P.glob p d)) := by
    intro d hd
    rw [hu', ht]
    exact scatter_x hP (fun q => (u q).x) X hX hp hd
  refine ⟨?_, ?_, ?_, hx⟩
  · rw [hu']; exact a2.trans h2
  · rw [hu']; exact a3.trans h3
  · intro d hd
    have hM : multRow (M p) u'.x = multRow (M p) t.x := by
      apply multRow_masters (hMG p hp)
      intro e he
      rw [hx e he.1, he.2, loc_glob hP hp he.1, ht]
    rw [hM, hu']
    exact a4 d hd

/-! ### C40 -/

/-- a vector represents the global vector: a DISTRIBUTED one by the sum over all copies, a CUMULATED one on every process -/
def Represents (P : PD) (dist : Bool) (v : ℕ → BVec k) (vh : ℕ → Fin k → ℝ) : Prop :=
  if dist then ∀ g ∈ allDofs P, gsum P v g = vh g else Consistent P v vh

theorem glob_mem {P : PD} {p d : ℕ} (hp : p < P.np) (hd : d < P.ndof p) : P.glob p d ∈ allDofs P :=
  mem_allDofs.2 ⟨p, hp, d, hd, rfl⟩

/-- what the stages see at the masters -/
theorem gathered_master {P : PD} (hP : P.WF) {dist : Bool} {v : ℕ → BVec k} {vh : ℕ → Fin k → ℝ} (h : Represents P dist v vh)
    {p d : ℕ} (hp : p < P.np) (hm : mast P p d) : gathered P dist v p d = vh (P.glob p d) := by
  cases dist with
  | true =>
    show runPhase (dis2co P) v p d = _
    rw [runPhase_dis2co hP v hp hm.1, if_pos hm.2]
    exact h _ (glob_mem hp hm.1)
  | false => exact h p hp d hm.1

/-- the value of a global DOF on its master -/
def atMaster (P : PD) (x : ℕ → BVec k) (g : ℕ) : Fin k → ℝ := x (P.owner g) (P.loc (P.owner g) g)

theorem multM_master {P : PD} (hP : P.WF) {A M : ℕ → CSR (Blk k)} {G : ℕ → Option (CSR (Blk k))}
    (hMG : ∀ p < P.np, LocalSpec P A p (M p) (G p)) {x : ℕ → BVec k} {xh : ℕ → Fin k → ℝ} (hx : Consistent P x xh)
    {p d : ℕ} (hp : p < P.np) (hm : mast P p d) : multRow (M p) (x p) d = gmul P M xh (P.glob p d) := by
  rw [← gsum_mult M (fun p hp => ⟨(hMG p hp).wfM, (hMG p hp).dimM.2.le⟩) hx]
  have h1 : ∀ q < P.np, ∀ e < P.ndof q, multRow (M q) (x q) e =
      if P.owner (P.glob q e) = q then atMaster P (fun q => multRow (M q) (x q)) (P.glob q e) else 0 := by
    intro q hq e he
    by_cases ho : P.owner (P.glob q e) = q
    · rw [if_pos ho, atMaster, ho, loc_glob hP hq he]
    · rw [if_neg ho, multRow_ghost (hMG q hq) _ ho]
  rw [gsum_congr h1, gsum_masters hP _ hp hm.1, atMaster, hm.2, loc_glob hP hp hm.1]

theorem distribute_rep {P : PD} (hP : P.WF) {v : ℕ → BVec k} {vh : ℕ → Fin k → ℝ} (h : ∀ p < P.np, ∀ d, mast P p d → v p d = vh (P.glob p d)) :
    Represents P true (fun p => distribute P p (v p)) vh := by
  intro g hg
  obtain ⟨p, hp, d, hd, rfl⟩ := mem_allDofs.1 hg
  have h1 : ∀ q < P.np, ∀ e < P.ndof q, distribute P q (v q) e = if P.owner (P.glob q e) = q then vh (P.glob q e) else 0 := by
    intro q hq e he
    rw [distribute]
    by_cases ho : P.owner (P.glob q e) = q
    · rw [if_pos ((isMaster_iff hq he).2 ho), if_pos ho, h q hq e ⟨he, ho⟩]
    · rw [if_neg (fun hn => ho ((isMaster_iff hq he).1 hn)), if_neg ho]
  rw [gsum_congr h1, gsum_masters hP vh hp hd]

/-- the data of a hybrid smoother: a splitting of the given matrices (`DecomposeSparseMatrixHybrid`, see `decompose_correct`) and
kernels that keep to their stage -/
structure Setup (P : PD) (A M : ℕ → CSR (Blk k)) (G : ℕ → Option (CSR (Blk k))) (K : ℕ → Kernels k) : Prop where
  wf : P.WF
  split : ∀ p < P.np, LocalSpec P A p (M p) (G p)
  kern : ∀ p < P.np, KernelsOK P p (M p) (K p)

/-- the operator of the couplings between different masters -/
def gmulG (P : PD) (G : ℕ → Option (CSR (Blk k))) (x : ℕ → Fin k → ℝ) (g : ℕ) : Fin k → ℝ :=
  gmul P (fun p => (G p).getD emptyM) x g

/-- the new global iterate: every process runs its stages with its master-master block and the right hand side `b - G x`, where `x`
is the old iterate -/
def newX (P : PD) (G : ℕ → Option (CSR (Blk k))) (K : ℕ → Kernels k) (bw xz : Bool) (nls : ℤ) (x : ℕ → BVec k)
    (xh bh : ℕ → Fin k → ℝ) (g : ℕ) : Fin k → ℝ :=
  fullX (K (P.owner g)) bw xz nls (x (P.owner g)) (fun e => bh (P.glob (P.owner g) e) - gmulG P G xh (P.glob (P.owner g) e))
    (P.loc (P.owner g) g)

section
variable {P : PD} {A M : ℕ → CSR (Blk k)} {G : ℕ → Option (CSR (Blk k))} {K : ℕ → Kernels k}

theorem Setup.wfG (h : Setup P A M G K) : ∀ p < P.np, ((G p).getD emptyM).WF ∧ ((G p).getD emptyM).width ≤ P.ndof p :=
  fun p hp => ⟨(h.split p hp).wfG, (h.split p hp).dimG.1⟩

theorem gmul_zero (P : PD) (B : ℕ → CSR (Blk k)) {x : ℕ → Fin k → ℝ} (hx : ∀ g ∈ allDofs P, x g = 0) (g : ℕ) : gmul P B x g = 0 := by
  apply Finset.sum_eq_zero
  intro h hh
  rw [hx h hh, Matrix.mulVec_zero]

theorem gmulG_none (hG : hasG P G = false) (x : ℕ → Fin k → ℝ) (g : ℕ) : gmulG P G x g = 0 := by
  apply Finset.sum_eq_zero
  intro h _
  have : gop P (fun p => (G p).getD emptyM) g h = 0 := by
    apply Finset.sum_eq_zero; intro p hp
    apply Finset.sum_eq_zero; intro d _
    apply Finset.sum_eq_zero; intro e _
    have hn : G p = none := by
      by_contra hne
      have : hasG P G = true := by
        simp only [hasG, List.any_eq_true]
        exact ⟨p, by simpa using hp, Option.isSome_iff_ne_none.2 hne⟩
      rw [hG] at this
      cases this
    simp [hn, emptyM, CSR.entry]
  rw [this, Matrix.zero_mulVec]

theorem gsum_gMult (h : Setup P A M G K) {x : ℕ → BVec k} {xh : ℕ → Fin k → ℝ} (hx : Consistent P x xh) (g : ℕ) :
    gsum P (fun p => gMult (G p) (x p)) g = gmulG P G xh g := by
  have : (fun p => gMult (G p) (x p)) = fun p => multRow ((G p).getD emptyM) (x p) := by
    funext p; rw [gMult_eq]
  rw [this, gsum_mult _ h.wfG hx]
  rfl

/-- the right hand side of the stages and their result -/
theorem newX_of (h : Setup P A M G K) (bw xz : Bool) (nls : ℤ) (x : ℕ → BVec k) (xh bh : ℕ → Fin k → ℝ) (β : ℕ → BVec k)
    (hβ : ∀ p < P.np, ∀ d, mast P p d → β p d = bh (P.glob p d) - gmulG P G xh (P.glob p d)) {p d : ℕ} (hp : p < P.np)
    (hd : d < P.ndof p) :
    fullX (K (P.owner (P.glob p d))) bw xz nls (x (P.owner (P.glob p d))) (β (P.owner (P.glob p d)))
      (P.loc (P.owner (P.glob p d)) (P.glob p d)) = newX P G K bw xz nls x xh bh (P.glob p d) := by
  have ho := owner_spec hp (shares_glob hd)
  have hop : P.owner (P.glob p d) < P.np := by omega
  rw [newX]
  exact congrFun (congr_fullX hop (h.kern _ hop) bw xz nls _ fun e he => hβ _ hop e he).1 _

/-- `SmoothImplRHS` in lock step -/
theorem smoothImplRHS_run (h : Setup P A M G K) (bw xz : Bool) (nls : ℤ) (bDist : Bool) (v : ℕ → LS k) (xh bh : ℕ → Fin k → ℝ)
    (hx : Consistent P (fun p => (v p).x) xh) (hb : Represents P bDist (fun p => (v p).b) bh)
    (hz : xz = true → ∀ g ∈ allDofs P, xh g = 0) :
    let u := run (smoothImplRHS P G K bw xz nls bDist) v
    Consistent P (fun p => (u p).x) (newX P G K bw xz nls (fun p => (v p).x) xh bh) ∧
      (∀ p < P.np, (u p).res = (v p).res) ∧
      Represents P (bDist || (!xz && hasG P G)) (fun p => (u p).b) bh := by
  intro u
  by_cases hc : (!xz && hasG P G) = true
  · -- with b - G x
    let v1 : ℕ → LS k := fun p =>
      { v p with b := (if bDist then (v p).b else distribute P p (v p).b),
                 gx := (if bDist then (v p).b else distribute P p (v p).b) - gMult (G p) (v p).x }
    have hu : u = run (kernels P K .gx bw xz nls true) v1 := by
      show run (smoothImplRHS P G K bw xz nls bDist) v = _
      rw [smoothImplRHS, if_pos hc]
      rfl
    have hb1 : Represents P true (fun p => (v1 p).b) bh := by
      cases bDist with
      | true => exact hb
      | false => exact distribute_rep h.wf fun p hp d hd => hb p hp d hd.1
    have hg : Represents P true (fun p => (v1 p).gx) fun g => bh g - gmulG P G xh g := by
      intro g hg
      show gsum P (fun p => (v1 p).b - gMult (G p) (v p).x) g = _
      rw [gsum_sub, gsum_gMult h hx, hb1 g hg]
    have hk := fun p (hp : p < P.np) => kernels_rhs h.wf h.kern (sel := .gx) (by simp) bw xz nls true v1 hp
    rw [hu, hc, Bool.or_true]
    refine ⟨?_, ?_, ?_⟩
    · intro p hp d hd
      obtain ⟨x, w, h1, h2, h3⟩ := hk p hp
      show (run (kernels P K .gx bw xz nls true) v1 p).x d = _
      rw [h1, set_x]
      refine (h3 d hd).trans ?_
      exact newX_of h bw xz nls (fun p => (v p).x) xh bh _
        (fun q hq e he => gathered_master h.wf hg hq he) hp hd
    · intro p hp
      obtain ⟨x, w, h1, h2, h3⟩ := hk p hp
      show (run (kernels P K .gx bw xz nls true) v1 p).res = _
      rw [h1]; rfl
    · have : ∀ p < P.np, (run (kernels P K .gx bw xz nls true) v1 p).b = (v1 p).b := by
        intro p hp
        obtain ⟨x, w, h1, h2, h3⟩ := hk p hp
        rw [h1]; rfl
      intro g hg
      rw [← hb1 g hg]
      apply gsum_congr
      intro p hp d _
      show (run (kernels P K .gx bw xz nls true) v1 p).b d = _
      rw [this p hp]
  · -- with b
    have hu : u = run (kernels P K .b bw xz nls bDist) v := by
      show run (smoothImplRHS P G K bw xz nls bDist) v = _
      rw [smoothImplRHS, if_neg hc]
    have hgz : ∀ g, gmulG P G xh g = 0 := by
      intro g
      cases hx0 : xz with
      | true => exact gmul_zero P _ (hz hx0) g
      | false =>
        rw [hx0] at hc
        exact gmulG_none (by simpa using hc) xh g
    have hk := fun p (hp : p < P.np) => kernels_rhs h.wf h.kern (sel := .b) (by simp) bw xz nls bDist v hp
    rw [hu, Bool.not_eq_true] at *
    rw [hc, Bool.or_false]
    refine ⟨?_, ?_, ?_⟩
    · intro p hp d hd
      obtain ⟨x, w, h1, h2, h3⟩ := hk p hp
      show (run (kernels P K .b bw xz nls bDist) v p).x d = _
      rw [h1, set_x]
      refine (h3 d hd).trans ?_
      refine newX_of h bw xz nls (fun p => (v p).x) xh bh _ (fun q hq e he => ?_) hp hd
      rw [hgz, sub_zero]
      exact gathered_master h.wf hb hq he
    · intro p hp
      obtain ⟨x, w, h1, h2, h3⟩ := hk p hp
      show (run (kernels P K .b bw xz nls bDist) v p).res = _
      rw [h1]; rfl
    · have hw : ∀ p < P.np, ∀ d < P.ndof p, (run (kernels P K .b bw xz nls bDist) v p).b d =
          gathered P bDist (fun q => (v q).b) p d := by
        intro p hp d hd
        obtain ⟨x, w, h1, h2, h3⟩ := hk p hp
        rw [h1]
        exact h2 d hd
      cases bDist with
      | false =>
        intro p hp d hd
        exact (hw p hp d hd).trans (hb p hp d hd)
      | true =>
        intro g hg
        rw [gsum_congr hw]
        obtain ⟨p, hp, d, hd, rfl⟩ := mem_allDofs.1 hg
        have : ∀ q < P.np, ∀ e < P.ndof q, gathered P true (fun q => (v q).b) q e =
            if P.owner (P.glob q e) = q then bh (P.glob q e) else 0 := by
          intro q hq e he
          show runPhase (dis2co P) (fun q => (v q).b) q e = _
          rw [runPhase_dis2co h.wf _ hq he, hb _ (glob_mem hq he)]
        rw [gsum_congr this, gsum_masters h.wf bh hp hd]

/-- the number of processes that have a DOF -/
def copies (P : PD) (g : ℕ) : ℕ := ((Finset.range P.np).filter fun q => P.shares q g = true).card

/-- the sum over all copies of a CUMULATED vector -/
theorem gsum_consistent {P : PD} (hP : P.WF) {v : ℕ → BVec k} {vh : ℕ → Fin k → ℝ} (h : Consistent P v vh) {g : ℕ}
    (hg : g ∈ allDofs P) : gsum P v g = copies P g • vh g := by
  obtain ⟨p, hp, d, hd, rfl⟩ := mem_allDofs.1 hg
  rw [gsum_at hP, copies, Finset.card_filter, Finset.sum_smul]
  apply Finset.sum_congr rfl
  intro q hq
  by_cases hs : P.shares q (P.glob p d) = true
  · have := loc_spec hs
    rw [if_pos hs, if_pos hs, h q (Finset.mem_range.1 hq) _ this.1, this.2, one_smul]
  · rw [if_neg hs, if_neg hs, zero_smul]

/-- `SmoothImplRES` in lock step. A residual that is CUMULATED when the call starts is used, but the values on the other processes stay
what they were, so that the residual counts them again. -/
theorem smoothImplRES_run (h : Setup P A M G K) (bw xz : Bool) (nls : ℤ) (resDist : Bool) (v : ℕ → LS k) (xh bh : ℕ → Fin k → ℝ)
    (hx : Consistent P (fun p => (v p).x) xh) (hr : Represents P resDist (fun p => (v p).res) fun g => bh g - gmul P A xh g)
    (hz : xz = true → ∀ g ∈ allDofs P, xh g = 0) :
    let u := run (smoothImplRES P G K bw xz nls resDist) v
    Consistent P (fun p => (u p).x) (newX P G K bw xz nls (fun p => (v p).x) xh bh) ∧
      (∀ p < P.np, (u p).b = (v p).b) ∧
      (∀ g ∈ allDofs P, gsum P (fun p => (u p).res) g = (if resDist then 1 else copies P g) • (bh g - gmul P A xh g) +
        gmul P A xh g - gmul P A (newX P G K bw xz nls (fun p => (v p).x) xh bh) g) := by
  intro u
  let v1 : ℕ → LS k := fun p => if !xz && hasG P G then { v p with gx := gMult (G p) (v p).x } else v p
  let u1 := run (kernels P K .res bw xz nls resDist) v1
  let X := newX P G K bw xz nls (fun p => (v p).x) xh bh
  have hu : ∀ p, u p = if hasG P G then
      { u1 p with res := (if !xz && hasG P G then (u1 p).res + (u1 p).gx else (u1 p).res) - gMult (G p) (u1 p).x } else u1 p := by
    intro p; rfl
  have hv1 : ∀ p, (v1 p).x = (v p).x ∧ (v1 p).res = (v p).res ∧ (v1 p).b = (v p).b := by
    intro p
    show (if _ then _ else _ : LS k).x = _ ∧ (if _ then _ else _ : LS k).res = _ ∧ (if _ then _ else _ : LS k).b = _
    split <;> exact ⟨rfl, rfl, rfl⟩
  have hres1 : (fun q => (v1 q).res) = fun q => (v q).res := by funext q; exact (hv1 q).2.1
  have hk := fun p (hp : p < P.np) => kernels_res h.wf h.split h.kern bw xz nls resDist v1 hp
  have hβ : ∀ p < P.np, ∀ d, mast P p d → (gathered P resDist (fun q => (v1 q).res) p + multRow (M p) (v1 p).x) d =
      bh (P.glob p d) - gmulG P G xh (P.glob p d) := by
    intro p hp d hd
    have e2 : multRow (M p) (v p).x d = gmul P M xh (P.glob p d) := multM_master h.wf h.split hx hp hd
    rw [Pi.add_apply, (hv1 p).1, hres1, gathered_master h.wf hr hp hd, e2, ← gmul_split h.wf h.split]
    rw [gmulG]
    abel
  have hux : ∀ p < P.np, ∀ d < P.ndof p, (u1 p).x d = X (P.glob p d) := by
    intro p hp d hd
    refine ((hk p hp).2.2.2 d hd).trans ?_
    have : ∀ q, (v1 q).x = (v q).x := fun q => (hv1 q).1
    simp only [this]
    exact newX_of h bw xz nls (fun p => (v p).x) xh bh
      (fun q => gathered P resDist (fun q => (v1 q).res) q + multRow (M q) (v q).x) (fun q hq e he => by
      have := hβ q hq e he
      rw [(hv1 q).1] at this
      exact this) hp hd
  have hcons : Consistent P (fun p => (u p).x) X := by
    intro p hp d hd
    have : (u p).x = (u1 p).x := by rw [hu p]; split <;> rfl
    show (u p).x d = _
    rw [this]; exact hux p hp d hd
  refine ⟨hcons, ?_, ?_⟩
  · intro p hp
    have : (u p).b = (u1 p).b := by rw [hu p]; split <;> rfl
    rw [this, show (u1 p).b = _ from (hk p hp).2.1, (hv1 p).2.2]
  · intro g hg
    generalize hc : (if resDist then 1 else copies P g) • (bh g - gmul P A xh g) = c
    -- masters and ghosts after the kernels
    have hcons1 : Consistent P (fun p => (u1 p).x) X := hux
    have h1 : gsum P (fun p => (u1 p).res) g = c + gmul P M xh g - gmul P M X g := by
      have e1 : ∀ p < P.np, ∀ d < P.ndof p, (u1 p).res d =
          (gathered P resDist (fun q => (v q).res) p + multRow (M p) (v p).x - multRow (M p) (u1 p).x) d := by
        intro p hp d hd
        have := (hk p hp).2.2.1 d hd
        simp only [Pi.sub_apply, Pi.add_apply]
        have h3 : (u1 p).res d + multRow (M p) (u1 p).x d =
            gathered P resDist (fun q => (v q).res) p d + multRow (M p) (v p).x d := by
          refine this.trans ?_
          show (gathered P resDist (fun q => (v1 q).res) p + multRow (M p) (v1 p).x) d = _
          rw [hres1, (hv1 p).1]; rfl
        rw [← h3]; abel
      rw [gsum_congr e1, gsum_sub, gsum_add]
      have e2 : gsum P (fun p => multRow (M p) (v p).x) g = gmul P M xh g :=
        gsum_mult M (fun p hp => ⟨(h.split p hp).wfM, (h.split p hp).dimM.2.le⟩) hx g
      have e3 : gsum P (fun p => multRow (M p) (u1 p).x) g = gmul P M X g :=
        gsum_mult M (fun p hp => ⟨(h.split p hp).wfM, (h.split p hp).dimM.2.le⟩) hcons1 g
      have e4 : gsum P (fun p => gathered P resDist (fun q => (v q).res) p) g = c := by
        rw [← hc]
        cases resDist with
        | false =>
          have hc : Consistent P (fun p => (v p).res) fun g => bh g - gmul P A xh g := hr
          exact gsum_consistent h.wf hc hg
        | true =>
          rw [if_pos rfl, one_smul]
          obtain ⟨p, hp, d, hd, rfl⟩ := mem_allDofs.1 hg
          have : ∀ q < P.np, ∀ e < P.ndof q, gathered P true (fun q => (v q).res) q e =
              if P.owner (P.glob q e) = q then (fun g => bh g - gmul P A xh g) (P.glob q e) else 0 := by
            intro q hq e he
            show runPhase (dis2co P) (fun q => (v q).res) q e = _
            rw [runPhase_dis2co h.wf _ hq he, hr _ (glob_mem hq he)]
          rw [gsum_congr this]
          exact gsum_masters h.wf (fun g => bh g - gmul P A xh g) hp hd
      rw [e2, e3, e4]
    have e5 := gmul_split h.wf h.split xh g
    have e6 := gmul_split h.wf h.split X g
    cases hG : hasG P G with
    | false =>
      have : ∀ p < P.np, ∀ d < P.ndof p, (u p).res d = (u1 p).res d := by
        intro p _ d _
        rw [hu p, hG]; rfl
      rw [gsum_congr this, h1]
      rw [show gmul P (fun p => (G p).getD emptyM) xh g = 0 from gmulG_none hG xh g] at e5
      rw [show gmul P (fun p => (G p).getD emptyM) X g = 0 from gmulG_none hG X g] at e6
      rw [← e5, ← e6]
      abel
    | true =>
      have hgx : ∀ p < P.np, xz = false → (u1 p).gx = gMult (G p) (v p).x := by
        intro p hp hxz
        rw [show (u1 p).gx = _ from (hk p hp).1]
        show (if (!xz && hasG P G) = true then _ else _ : LS k).gx = _
        rw [if_pos (by simp [hxz, hG])]
      have : ∀ p < P.np, ∀ d < P.ndof p, (u p).res d =
          ((u1 p).res + (if xz then 0 else gMult (G p) (v p).x) - gMult (G p) (u1 p).x) d := by
        intro p hp d _
        rw [hu p, hG]
        cases hxz : xz with
        | true => simp
        | false => simp [hgx p hp hxz]
      rw [gsum_congr this, gsum_sub, gsum_add, h1, gsum_gMult h hcons1]
      have e7 : gsum P (fun p => if xz then 0 else gMult (G p) (v p).x) g = gmulG P G xh g := by
        cases hxz : xz with
        | true => simp [gsum, gmulG, gmul_zero P _ (hz hxz) g]
        | false => exact gsum_gMult h hx g
      rw [e7, ← e5, ← e6, gmulG, gmulG]
      abel

theorem run_append {V Msg : Type*} [Inhabited Msg] (p1 p2 : List (Phase V Msg)) (v : ℕ → V) : run (p1 ++ p2) v = run p2 (run p1 v) :=
  List.foldl_append

theorem matched_kernelsList (sel : Sel) (bw xz : Bool) (nls : ℤ) (d2c : Bool) :
    ∀ ph ∈ kernels P K sel bw xz nls d2c, (ph.sends = gComm P ∧ ph.recvs = mComm P) ∨ (ph.sends = mComm P ∧ ph.recvs = gComm P) ∨
      (ph.sends = fun _ _ => false) ∧ (ph.recvs = fun _ _ => false) := by
  intro ph hph
  simp only [kernels, List.mem_cons, List.not_mem_nil, or_false] at hph
  rcases hph with rfl | rfl
  · cases d2c
    · exact Or.inr (Or.inr ⟨rfl, rfl⟩)
    · exact Or.inl ⟨rfl, rfl⟩
  · exact Or.inr (Or.inl ⟨rfl, rfl⟩)

/-- sends and receives of all processes fit together -/
theorem matched_smooth (hP : P.WF) (bw : Bool) (nls : ℤ) (ru ur xz bDist resDist : Bool) :
    Matched P.np (smoothImpl P M G K bw nls ru ur xz bDist resDist) := by
  apply matched_kernels hP
  have hloc : ∀ f : ℕ → LS k → LS k, ((localPhase f).sends = fun _ _ => false) ∧ ((localPhase f).recvs = fun _ _ => false) :=
    fun f => ⟨rfl, rfl⟩
  have hk := matched_kernelsList (P := P) (K := K)
  have hRES : ∀ d, ∀ ph ∈ smoothImplRES P G K bw xz nls d, (ph.sends = gComm P ∧ ph.recvs = mComm P) ∨
      (ph.sends = mComm P ∧ ph.recvs = gComm P) ∨ (ph.sends = fun _ _ => false) ∧ (ph.recvs = fun _ _ => false) := by
    intro d ph hph
    simp only [smoothImplRES, List.mem_append, List.mem_singleton] at hph
    rcases hph with (rfl | h) | rfl
    · exact Or.inr (Or.inr (hloc _))
    · exact hk _ _ _ _ _ ph h
    · exact Or.inr (Or.inr (hloc _))
  have hRHS : ∀ d, ∀ ph ∈ smoothImplRHS P G K bw xz nls d, (ph.sends = gComm P ∧ ph.recvs = mComm P) ∨
      (ph.sends = mComm P ∧ ph.recvs = gComm P) ∨ (ph.sends = fun _ _ => false) ∧ (ph.recvs = fun _ _ => false) := by
    intro d ph hph
    simp only [smoothImplRHS] at hph
    split at hph
    · simp only [List.mem_append, List.mem_singleton] at hph
      rcases hph with rfl | h
      · exact Or.inr (Or.inr (hloc _))
      · exact hk _ _ _ _ _ ph h
    · exact hk _ _ _ _ _ ph hph
  intro ph hph
  rw [smoothImpl] at hph
  split_ifs at hph
  · rw [List.mem_append, List.mem_singleton] at hph
    rcases hph with h | rfl
    · exact hRHS _ _ h
    · exact Or.inr (Or.inr (hloc _))
  · rw [List.mem_append, List.mem_singleton] at hph
    rcases hph with rfl | h
    · exact Or.inr (Or.inr (hloc _))
    · exact hRES _ _ h
  · exact hRES _ _ hph
  · exact hRHS _ _ hph

/-- the flags tell the truth: `x_zero` means that `x` is zero, `res_updated` that the residual is `b - A x` -/
structure Truthful (P : PD) (A : ℕ → CSR (Blk k)) (v : ℕ → LS k) (xh bh : ℕ → Fin k → ℝ) (ru xz bDist resDist : Bool) : Prop where
  x : Consistent P (fun p => (v p).x) xh
  b : Represents P bDist (fun p => (v p).b) bh
  res : ru = true → Represents P resDist (fun p => (v p).res) fun g => bh g - gmul P A xh g
  zero : xz = true → ∀ g ∈ allDofs P, xh g = 0

/-- **C40.** For every number of processes, sharing pattern, matrix, kernels, direction, number of local steps, flags and schedule of
the processes: when all processes are done the iterate is consistent on all processes, it is the same for all flags (`newX`: every
process runs its stages with its master-master block and the right hand side `b - G x`), `b` still represents the same global vector,
and the residual, if it is asked for, is globally `b - A x`. The latter needs that the vector in which the residual is computed (the
given residual, or `b` if `x` is zero and no residual is given) is DISTRIBUTED when the call starts. -/
theorem smooth_correct (h : Setup P A M G K) (bw : Bool) (nls : ℤ) (ru ur xz bDist resDist : Bool) (v : ℕ → LS k)
    (xh bh : ℕ → Fin k → ℝ) (ht : Truthful P A v xh bh ru xz bDist resDist) {n : ℕ} {s : St (LS k) (List (Fin k → ℝ))}
    (hr : Reach P.np (smoothImpl P M G K bw nls ru ur xz bDist resDist) v n s)
    (hf : Final P.np (smoothImpl P M G K bw nls ru ur xz bDist resDist) s) :
    let X := newX P G K bw xz nls (fun p => (v p).x) xh bh
    Consistent P (fun p => (s.vec p).x) X ∧
      (ur = true → (ru = true → resDist = true) → (ru = false → xz = true → bDist = true) →
        ∀ g ∈ allDofs P, gsum P (fun p => (s.vec p).res) g = bh g - gmul P A X g) ∧
      ∃ dist, Represents P dist (fun p => (s.vec p).b) bh := by
  intro X
  have hfin := (final_state (matched_smooth h.wf bw nls ru ur xz bDist resDist) hr hf).1
  let u := run (smoothImpl P M G K bw nls ru ur xz bDist resDist) v
  suffices hu : Consistent P (fun p => (u p).x) X ∧
      (ur = true → (ru = true → resDist = true) → (ru = false → xz = true → bDist = true) →
        ∀ g ∈ allDofs P, gsum P (fun p => (u p).res) g = bh g - gmul P A X g) ∧
      ∃ dist, Represents P dist (fun p => (u p).b) bh by
    obtain ⟨h1, h2, dist, h3⟩ := hu
    refine ⟨fun p hp d hd => ?_, fun a b c g hg => ?_, dist, ?_⟩
    · show (s.vec p).x d = _
      rw [hfin p hp]; exact h1 p hp d hd
    · rw [← h2 a b c g hg]
      apply gsum_congr
      intro p hp d _
      show (s.vec p).res d = _
      rw [hfin p hp]
    · cases dist with
      | true =>
        intro g hg
        rw [← h3 g hg]
        apply gsum_congr
        intro p hp d _
        show (s.vec p).b d = _
        rw [hfin p hp]
      | false =>
        intro p hp d hd
        show (s.vec p).b d = _
        rw [hfin p hp]; exact h3 p hp d hd
  obtain ⟨hx, hb, hres, hz⟩ := ht
  have keepB : ∀ w : ℕ → LS k, (∀ p < P.np, (w p).b = (v p).b) → Represents P bDist (fun p => (w p).b) bh := by
    intro w hw
    cases bDist with
    | true =>
      intro g hg
      rw [← hb g hg]
      exact gsum_congr (fun p hp d _ => by show (w p).b d = _; rw [hw p hp]) g
    | false =>
      intro p hp d hd
      show (w p).b d = _
      rw [hw p hp]; exact hb p hp d hd
  have hu : u = run (smoothImpl P M G K bw nls ru ur xz bDist resDist) v := rfl
  clear_value u
  cases ur with
  | false =>
    have : u = run (smoothImplRHS P G K bw xz nls bDist) v := hu
    rw [this]
    obtain ⟨a1, a2, a3⟩ := smoothImplRHS_run h bw xz nls bDist v xh bh hx hb hz
    exact ⟨a1, by simp, _, a3⟩
  | true =>
    cases ru with
    | true =>
      have : u = run (smoothImplRES P G K bw xz nls resDist) v := hu
      rw [this]
      obtain ⟨a1, a2, a3⟩ := smoothImplRES_run h bw xz nls resDist v xh bh hx (hres rfl) hz
      refine ⟨a1, fun _ b _ g hg => ?_, bDist, keepB _ a2⟩
      rw [a3 g hg, if_pos (b rfl), one_smul, sub_add_cancel]
    | false =>
      cases xz with
      | true =>
        let v1 : ℕ → LS k := fun p => { v p with res := (v p).b }
        have : u = run (smoothImplRES P G K bw true nls bDist) v1 := by
          rw [hu]; exact run_append _ _ v
        rw [this]
        have hA : ∀ g, gmul P A xh g = 0 := gmul_zero P A (hz rfl)
        obtain ⟨a1, a2, a3⟩ := smoothImplRES_run h bw true nls bDist v1 xh bh hx (by
          have : (fun g => bh g - gmul P A xh g) = bh := by funext g; rw [hA, sub_zero]
          rw [this]; exact hb) hz
        refine ⟨a1, fun _ _ c g hg => ?_, bDist, keepB _ a2⟩
        rw [a3 g hg, if_pos (c rfl rfl), one_smul, sub_add_cancel]
      | false =>
        let w := run (smoothImplRHS P G K bw false nls bDist) v
        let ρ : ℕ → BVec k := fun p =>
          (if bDist then (w p).b else distribute P p (w p).b) - multRow (M p) (w p).x - gMult (G p) (w p).x
        have : u = fun p => { w p with res := ρ p } := by
          rw [hu]; exact run_append _ _ v
        obtain ⟨a1, a2, a3⟩ := smoothImplRHS_run h bw false nls bDist v xh bh hx hb hz
        rw [this]
        refine ⟨a1, fun _ _ _ g hg => ?_, _, a3⟩
        have hb1 : Represents P true (fun p => if bDist then (w p).b else distribute P p (w p).b) bh := by
          cases bDist with
          | true => exact a3
          | false =>
            apply distribute_rep h.wf
            intro p hp d hd
            by_cases hG : hasG P G = true
            · -- b was distributed before
              have e : w = run (kernels P K .gx bw false nls true) fun p =>
                  { v p with b := distribute P p (v p).b, gx := distribute P p (v p).b - gMult (G p) (v p).x } := by
                show run (smoothImplRHS P G K bw false nls false) v = _
                rw [smoothImplRHS, if_pos (by simpa using hG)]
                rfl
              obtain ⟨x, y, h1, h2, h3⟩ := kernels_rhs h.wf h.kern (sel := .gx) (by simp) bw false nls true
                (fun p => ({ v p with b := distribute P p (v p).b, gx := distribute P p (v p).b - gMult (G p) (v p).x } : LS k)) hp
              rw [e, h1]
              show distribute P p (v p).b d = _
              rw [distribute, if_pos ((isMaster_iff hp hd.1).2 hd.2)]
              exact hb p hp d hd.1
            · have : (!false && hasG P G) = false := by simpa using hG
              rw [this] at a3
              exact a3 p hp d hd.1
        have e : gsum P (fun p => (if bDist then (w p).b else distribute P p (w p).b) - multRow (M p) (w p).x -
            gMult (G p) (w p).x) g = bh g - gmul P M X g - gmulG P G X g := by
          rw [gsum_sub, gsum_sub, hb1 g hg, gsum_gMult h a1]
          have : gsum P (fun p => multRow (M p) (w p).x) g = gmul P M X g :=
            gsum_mult M (fun p hp => ⟨(h.split p hp).wfM, (h.split p hp).dimM.2.le⟩) a1 g
          rw [this]
        show gsum P (fun p => (if bDist then (w p).b else distribute P p (w p).b) - multRow (M p) (w p).x -
            gMult (G p) (w p).x) g = _
        rw [e, ← gmul_split h.wf h.split X g, gmulG]
        abel

/-- **C40**, no process hangs, whatever the flags -/
theorem smooth_progress (hP : P.WF) (bw : Bool) (nls : ℤ) (ru ur xz bDist resDist : Bool) (v : ℕ → LS k) {n : ℕ}
    {s : St (LS k) (List (Fin k → ℝ))} (hr : Reach P.np (smoothImpl P M G K bw nls ru ur xz bDist resDist) v n s) :
    (¬ Final P.np (smoothImpl P M G K bw nls ru ur xz bDist resDist) s →
      ∃ t, Step P.np (smoothImpl P M G K bw nls ru ur xz bDist resDist) s t) ∧ n ≤ 10 * P.np := by
  refine ⟨fun hn => no_deadlock (matched_smooth hP bw nls ru ur xz bDist resDist) hr hn, ?_⟩
  have := terminates (matched_smooth hP bw nls ru ur xz bDist resDist) hr
  have hl : (smoothImpl P M G K bw nls ru ur xz bDist resDist).length ≤ 5 := by
    rw [smoothImpl]
    split_ifs <;> simp only [smoothImplRES, smoothImplRHS, kernels] <;> (try split_ifs) <;> simp
  refine this.trans ?_
  nlinarith

/-- **C40**, what happens if the vector in which the residual is computed is CUMULATED: the start residual `b` counts once per
process that has the DOF. Here `x` is zero and `b` is CUMULATED. -/
theorem smooth_cumulated (h : Setup P A M G K) (bw : Bool) (nls : ℤ) (resDist : Bool) (v : ℕ → LS k)
    (xh bh : ℕ → Fin k → ℝ) (ht : Truthful P A v xh bh false true false resDist) {n : ℕ} {s : St (LS k) (List (Fin k → ℝ))}
    (hr : Reach P.np (smoothImpl P M G K bw nls false true true false resDist) v n s)
    (hf : Final P.np (smoothImpl P M G K bw nls false true true false resDist) s) :
    ∀ g ∈ allDofs P, gsum P (fun p => (s.vec p).res) g =
      copies P g • bh g - gmul P A (newX P G K bw true nls (fun p => (v p).x) xh bh) g := by
  have hfin := (final_state (matched_smooth h.wf bw nls false true true false resDist) hr hf).1
  obtain ⟨hx, hb, -, hz⟩ := ht
  let v1 : ℕ → LS k := fun p => { v p with res := (v p).b }
  have hu : run (smoothImpl P M G K bw nls false true true false resDist) v = run (smoothImplRES P G K bw true nls false) v1 :=
    run_append _ _ v
  have hA : ∀ g, gmul P A xh g = 0 := gmul_zero P A (hz rfl)
  obtain ⟨-, -, a3⟩ := smoothImplRES_run h bw true nls false v1 xh bh hx (by
    have : (fun g => bh g - gmul P A xh g) = bh := by funext g; rw [hA, sub_zero]
    rw [this]; exact hb) hz
  intro g hg
  have e := a3 g hg
  rw [hA, sub_zero, add_zero] at e
  rw [show (if false = true then 1 else copies P g) = copies P g from rfl] at e
  rw [← show gsum P (fun p => (run (smoothImplRES P G K bw true nls false) v1 p).res) g = _ from e]
  apply gsum_congr
  intro p hp d _
  show (s.vec p).res d = _
  rw [hfin p hp, hu]

end

end NgsAMG.HybSm
