import Verif.Props.HybridSmoother

/-! C40 for `HybridGSSmoother`: the Gauss-Seidel kernels keep to their stages; the new iterate in terms of textbook Gauss-Seidel. -/

namespace NgsAMG.HybSm

open NgsAMG.DCC NgsAMG.Hybrid NgsAMG.Exch NgsAMG.GS NgsAMG.Spec Matrix

variable {k : ℕ}

/-! ### kernels that visit rows -/

theorem updateRow_congr (A : CSR (Blk k)) (d : ℕ → Blk k) {b b' : BVec k} (L : List ℕ) (h : ∀ i ∈ L, b i = b' i) (x : BVec k) :
    L.foldl (updateRow A d b) x = L.foldl (updateRow A d b') x := by
  induction L generalizing x with
  | nil => rfl
  | cons i L ih =>
    have e : updateRow A d b x i = updateRow A d b' x i := by
      unfold GS.updateRow
      rw [h i List.mem_cons_self]
    rw [List.foldl_cons, List.foldl_cons, e]
    exact ih (fun j hj => h j (List.mem_cons_of_mem _ hj)) _

theorem stage_rows {M : CSR (Blk k)} (hM : M.WF) (hs : Symm M) (d : ℕ → Blk k) (L : List ℕ) (S : ℕ → Prop) (hL : ∀ i ∈ L, S i) :
    StageOK M S (fun x b => L.foldl (updateRow M d b) x) (fun x r => L.foldl (upRow M d) (x, r)) where
  congr x b b' h := updateRow_congr M d L (fun i hi => h i (hL i hi)) x
  frame x b i hi := foldl_updateRow_outside M d L x b i fun h => hi (hL i h)
  res_eq x r := by
    have := foldl_upRow M hM hs d L (r + multRow M x) x
    rw [add_sub_cancel_right] at this
    exact this

theorem stage_comp {M : CSR (Blk k)} {S : ℕ → Prop} {f g : BVec k → BVec k → BVec k} {f' g' : BVec k → BVec k → BVec k × BVec k}
    (hf : StageOK M S f f') (hg : StageOK M S g g') :
    StageOK M S (fun x b => g (f x b) b) (fun x r => g' (f' x r).1 (f' x r).2) where
  congr x b b' h := by
    show g (f x b) b = g (f x b') b'
    rw [hf.congr x b b' h, hg.congr _ b b' h]
  frame x b i hi := by
    show g (f x b) b i = _
    rw [hg.frame _ _ _ hi, hf.frame _ _ _ hi]
  res_eq x r := by
    show g' (f' x r).1 (f' x r).2 = _
    rw [hf.res_eq x r]
    show g' (f x (r + multRow M x)) _ = _
    rw [hg.res_eq, sub_add_cancel]

theorem stage_id {M : CSR (Blk k)} {S : ℕ → Prop} : StageOK M S (fun x _ => x) (fun x r => (x, r)) where
  congr _ _ _ _ := rfl
  frame _ _ _ _ := rfl
  res_eq x r := by simp

theorem stage_mono {M : CSR (Blk k)} {S T : ℕ → Prop} {f : BVec k → BVec k → BVec k} {f' : BVec k → BVec k → BVec k × BVec k}
    (h : StageOK M S f f') (hST : ∀ i, S i → T i) : StageOK M T f f' where
  congr x b b' hb := h.congr x b b' fun i hi => hb i (hST i hi)
  frame x b i hi := h.frame x b i fun hs => hi (hST i hs)
  res_eq := h.res_eq

/-! ### the rows of the stages -/

/-- rows of the local stages, increasing -/
def locRows (P : PD) (p H first next : ℕ) (subset : Option (ℕ → Bool)) : List ℕ :=
  freeRows H first next fun i => locDofs P p subset i = true

/-- rows of the exchange stage, increasing -/
def exRows (P : PD) (p H : ℕ) (subset : Option (ℕ → Bool)) : List ℕ := freeRows H 0 H fun i => exDofs P p subset i = true

theorem mem_locRows {P : PD} {p H first next : ℕ} (hp : p < P.np) (hH : H = P.ndof p) {subset : Option (ℕ → Bool)} {i : ℕ}
    (hi : i ∈ locRows P p H first next subset) : unshared P p i := by
  simp only [locRows, freeRows, List.mem_filter, List.mem_range, decide_eq_true_eq, locDofs, Bool.and_eq_true,
    List.isEmpty_iff] at hi
  obtain ⟨h1, _, _, ⟨h2, h3⟩, _⟩ := hi
  refine ⟨by omega, fun q hq hs => ?_⟩
  by_contra hne
  have : q ∈ P.dps p i := mem_dps.2 ⟨hq, hne, hs⟩
  rw [h3] at this
  simp at this

theorem mem_exRows {P : PD} {p H : ℕ} (hp : p < P.np) (hH : H = P.ndof p) {subset : Option (ℕ → Bool)} {i : ℕ}
    (hi : i ∈ exRows P p H subset) : mast P p i := by
  simp only [exRows, freeRows, List.mem_filter, List.mem_range, decide_eq_true_eq, exDofs, Bool.and_eq_true] at hi
  obtain ⟨h1, _, _, ⟨h2, _⟩, _⟩ := hi
  exact ⟨by omega, (isMaster_iff hp (by omega)).1 h2⟩

/-- the rows that a stage visits, in this order: gssmoother.cpp:717-782 -/
def stageRows (P : PD) (p H : ℕ) (subset : Option (ℕ → Bool)) (symmLoc : Bool) (st : Stage) (bw : Bool) : List ℕ :=
  let split := splitInd P p H subset
  if symmLoc then
    match st with
    | .loc1 => locRows P p H 0 H subset
    | .ex => exRows P p H subset ++ (exRows P p H subset).reverse
    | .loc2 => (locRows P p H 0 H subset).reverse
  else
    match st with
    | .ex => if bw then (exRows P p H subset).reverse else exRows P p H subset
    | .loc1 => if bw then (locRows P p H 0 split subset).reverse else locRows P p H 0 split subset
    | .loc2 => if bw then (locRows P p H split H subset).reverse else locRows P p H split H subset

theorem mem_stageRows_loc1 {P : PD} {p H : ℕ} (hp : p < P.np) (hH : H = P.ndof p) {subset : Option (ℕ → Bool)} {symmLoc bw : Bool}
    {i : ℕ} (hi : i ∈ stageRows P p H subset symmLoc .loc1 bw) : unshared P p i := by
  cases symmLoc <;> cases bw <;> simp only [stageRows, if_true, Bool.false_eq_true, if_false, List.mem_reverse] at hi <;>
    exact mem_locRows hp hH hi

theorem mem_stageRows_loc2 {P : PD} {p H : ℕ} (hp : p < P.np) (hH : H = P.ndof p) {subset : Option (ℕ → Bool)} {symmLoc bw : Bool}
    {i : ℕ} (hi : i ∈ stageRows P p H subset symmLoc .loc2 bw) : unshared P p i := by
  cases symmLoc <;> cases bw <;> simp only [stageRows, if_true, Bool.false_eq_true, if_false, List.mem_reverse] at hi <;>
    exact mem_locRows hp hH hi

theorem mem_stageRows_ex {P : PD} {p H : ℕ} (hp : p < P.np) (hH : H = P.ndof p) {subset : Option (ℕ → Bool)} {symmLoc bw : Bool}
    {i : ℕ} (hi : i ∈ stageRows P p H subset symmLoc .ex bw) : mast P p i := by
  cases symmLoc <;> cases bw <;>
    simp only [stageRows, if_true, Bool.false_eq_true, if_false, List.mem_reverse, List.mem_append, or_self] at hi <;>
    exact mem_exRows hp hH hi

/-- `jac_loc` visits `locRows` -/
theorem jacLoc_smooth (P : PD) (inv : Blk k → Blk k) (p : ℕ) (M : CSR (Blk k)) (md : ℕ → Blk k) (subset : Option (ℕ → Bool))
    (first next : ℕ) (x v : BVec k) (bw : Bool) :
    (jacLoc P inv p M md subset).smoothRHS first next x v bw =
      (if bw then (locRows P p M.height first next subset).reverse else locRows P p M.height first next subset).foldl
        (updateRow M (fun i => inv (md i)) v) x ∧
    (jacLoc P inv p M md subset).smoothRES first next x v bw =
      (if bw then (locRows P p M.height first next subset).reverse else locRows P p M.height first next subset).foldl
        (upRow M (fun i => inv (md i))) (x, v) := by
  have hv : visited (jacLoc P inv p M md subset) first next bw =
      if bw then (locRows P p M.height first next subset).reverse else locRows P p M.height first next subset :=
    visited_mk' inv M (some md) (some (locDofs P p subset)) first next bw
  have hd : ∀ i ∈ visited (jacLoc P inv p M md subset) first next bw, (jacLoc P inv p M md subset).dinv i = inv (md i) := by
    intro i hi
    have := (mem_visited inv M (some md) (some (locDofs P p subset)) first next i bw hi).2
    show (if isFree (some (locDofs P p subset)) i then inv (md i) else 0) = _
    rw [if_pos this]
  rw [GSS3.smoothRHS, GSS3.smoothRES, ← hv]
  revert hd
  generalize visited (jacLoc P inv p M md subset) first next bw = L
  intro hd
  constructor
  · induction L generalizing x with
    | nil => rfl
    | cons i L ih =>
      rw [List.foldl_cons, List.foldl_cons, ih _ fun j hj => hd j (List.mem_cons_of_mem _ hj)]
      congr 1
      show Function.update x i (x i + (jacLoc P inv p M md subset).dinv i *ᵥ _) = _
      rw [hd i List.mem_cons_self]; rfl
  · generalize (x, v) = s
    induction L generalizing s with
    | nil => rfl
    | cons i L ih =>
      rw [List.foldl_cons, List.foldl_cons, ih (fun j hj => hd j (List.mem_cons_of_mem _ hj))]
      congr 1
      simp only [upRow]
      rw [hd i List.mem_cons_self]; rfl

/-- `jac_ex` visits `exRows` -/
theorem gss4_smooth (P : PD) (inv : Blk k → Blk k) (p : ℕ) (M : CSR (Blk k)) (md : ℕ → Blk k) (subset : Option (ℕ → Bool))
    (x v : BVec k) (bw : Bool) :
    (GSS4.mk' inv M (some md) (some (exDofs P p subset))).smoothRHS x v bw =
      (if bw then (exRows P p M.height subset).reverse else exRows P p M.height subset).foldl
        (updateRow M (fun i => inv (md i)) v) x ∧
    (GSS4.mk' inv M (some md) (some (exDofs P p subset))).smoothRES x v bw =
      (if bw then (exRows P p M.height subset).reverse else exRows P p M.height subset).foldl
        (upRow M (fun i => inv (md i))) (x, v) := by
  have hx : (GSS4.mk' inv M (some md) (some (exDofs P p subset))).xdofs = exRows P p M.height subset := setUp4_xdofs M _
  have hr := setUp4_rows M (some (exDofs P p subset))
  have ha : Agrees (GSS4.mk' inv M (some md) (some (exDofs P p subset))) M (fun i => inv (md i)) := by
    refine ⟨hr.1, hr.2, fun q hq => ?_⟩
    have hq' : q < (setUp4 M (some (exDofs P p subset))).2.length := hq
    show inv (((setUp4 M (some (exDofs P p subset))).2[q]?.map md).getD 0) = _
    rw [List.getElem?_eq_getElem hq']
    rfl
  have := smooth4_of_agrees ha bw x v
  rwa [hx] at this

theorem exRows_nil {P : PD} {p : ℕ} {H : ℕ} {subset : Option (ℕ → Bool)} (h : numSet H (exDofs P p subset) = 0) :
    exRows P p H subset = [] := by
  rw [exRows, freeRows, List.filter_eq_nil_iff]
  intro i hi
  have := numSet_zero h i (List.mem_range.1 hi)
  simp [this]

/-- the kernels of `HybridGSSmoother` visit the rows `stageRows` -/
theorem gs_rows (P : PD) (inv : Blk k → Blk k) (p : ℕ) (M : CSR (Blk k)) (md : ℕ → Blk k) (subset : Option (ℕ → Bool))
    (symmLoc : Bool) (st : Stage) (bw : Bool) (x v : BVec k) :
    gsRHS P inv p M md subset symmLoc st bw x v =
      (stageRows P p M.height subset symmLoc st bw).foldl (updateRow M (fun i => inv (md i)) v) x ∧
    gsRES P inv p M md subset symmLoc st bw x v =
      (stageRows P p M.height subset symmLoc st bw).foldl (upRow M (fun i => inv (md i))) (x, v) := by
  have h3 := jacLoc_smooth P inv p M md subset
  have h4 := gss4_smooth P inv p M md subset
  have hex : ∀ x' (bw' : Bool), (match jacEx P inv p M md subset with | some e => e.smoothRHS x' v bw' | none => x') =
      (if bw' then (exRows P p M.height subset).reverse else exRows P p M.height subset).foldl
        (updateRow M (fun i => inv (md i)) v) x' := by
    intro x' bw'
    rw [jacEx]
    by_cases h0 : numSet M.height (exDofs P p subset) = 0
    · simp [h0, exRows_nil h0]
    · simp only [h0, ne_eq, not_false_eq_true, if_true]
      exact (h4 x' v bw').1
  have hex' : ∀ s : BVec k × BVec k, ∀ (bw' : Bool), (match jacEx P inv p M md subset with | some e => e.smoothRES s.1 s.2 bw' | none => s) =
      (if bw' then (exRows P p M.height subset).reverse else exRows P p M.height subset).foldl
        (upRow M (fun i => inv (md i))) s := by
    intro s bw'
    rw [jacEx]
    by_cases h0 : numSet M.height (exDofs P p subset) = 0
    · simp [h0, exRows_nil h0]
    · simp only [h0, ne_eq, not_false_eq_true, if_true]
      exact (h4 s.1 s.2 bw').2
  constructor
  · cases symmLoc with
    | true =>
      cases st with
      | loc1 => exact (h3 0 M.height x v false).1
      | loc2 => exact (h3 0 M.height x v true).1
      | ex =>
        show (match jacEx P inv p M md subset with | some e => e.smoothRHS (e.smoothRHS x v false) v true | none => x) = _
        have e1 := hex x false
        have e2 := hex (match jacEx P inv p M md subset with | some e => e.smoothRHS x v false | none => x) true
        simp only [stageRows, if_true, List.foldl_append]
        rw [e1] at e2
        simp only [Bool.false_eq_true, if_false, if_true] at e1 e2
        rw [← e2, ← e1]
        cases jacEx P inv p M md subset <;> rfl
    | false =>
      cases st with
      | loc1 => cases bw <;> exact (h3 0 _ x v _).1
      | loc2 => cases bw <;> exact (h3 _ M.height x v _).1
      | ex =>
        show (match jacEx P inv p M md subset with
          | some e => if bw then e.smoothRHS x v true else e.smoothRHS x v false | none => x) = _
        simp only [stageRows, Bool.false_eq_true, if_false]
        rw [← hex x bw]
        cases bw <;> rfl
  · cases symmLoc with
    | true =>
      cases st with
      | loc1 => exact (h3 0 M.height x v false).2
      | loc2 => exact (h3 0 M.height x v true).2
      | ex =>
        show (match jacEx P inv p M md subset with
          | some e => e.smoothRES (e.smoothRES x v false).1 (e.smoothRES x v false).2 true | none => (x, v)) = _
        have e1 := hex' (x, v) false
        have e2 := hex' (match jacEx P inv p M md subset with | some e => e.smoothRES x v false | none => (x, v)) true
        simp only [stageRows, if_true, List.foldl_append]
        rw [e1] at e2
        simp only [Bool.false_eq_true, if_false, if_true] at e1 e2
        rw [← e2, ← e1]
        cases jacEx P inv p M md subset <;> rfl
    | false =>
      cases st with
      | loc1 => cases bw <;> exact (h3 0 _ x v _).2
      | loc2 => cases bw <;> exact (h3 _ M.height x v _).2
      | ex =>
        show (match jacEx P inv p M md subset with
          | some e => if bw then e.smoothRES x v true else e.smoothRES x v false | none => (x, v)) = _
        simp only [stageRows, Bool.false_eq_true, if_false]
        rw [← hex' (x, v) bw]
        cases bw <;> rfl

/-! ### C40 for Gauss-Seidel -/

/-- the global operator is symmetric -/
def GSymm (P : PD) (A : ℕ → CSR (Blk k)) : Prop := ∀ g h, gop P A g h = (gop P A h g)ᵀ

theorem symm_M {P : PD} {A : ℕ → CSR (Blk k)} (hA : GSymm P A) {p : ℕ} {M : CSR (Blk k)} {G : Option (CSR (Blk k))}
    (h : LocalSpec P A p M G) : Symm M := by
  refine ⟨h.dimM.1.trans h.dimM.2.symm, fun i j => ?_⟩
  by_cases hi : i < P.ndof p
  · by_cases hj : j < P.ndof p
    · rw [h.entryM i hi j hj, h.entryM j hj i hi]
      by_cases hc : P.owner (P.glob p i) = p ∧ P.owner (P.glob p j) = p
      · rw [if_pos hc, if_pos hc.symm]; exact hA _ _
      · rw [if_neg hc, if_neg fun h => hc h.symm, Matrix.transpose_zero]
    · have := h.dimM
      rw [CSR.entry_outside M h.wfM (Or.inr (by omega)), CSR.entry_outside M h.wfM (Or.inl (by omega)), Matrix.transpose_zero]
  · have := h.dimM
    rw [CSR.entry_outside M h.wfM (Or.inl (by omega)), CSR.entry_outside M h.wfM (Or.inr (by omega)), Matrix.transpose_zero]

/-- the Gauss-Seidel kernels keep to their stages -/
theorem gs_kernelsOK {P : PD} {A : ℕ → CSR (Blk k)} (hA : GSymm P A) {M : ℕ → CSR (Blk k)} {G : ℕ → Option (CSR (Blk k))}
    (hMG : ∀ p < P.np, LocalSpec P A p (M p) (G p)) (inv : Blk k → Blk k) (md : ℕ → ℕ → Blk k)
    (subset : ℕ → Option (ℕ → Bool)) (symmLoc : Bool) : ∀ p < P.np, KernelsOK P p (M p) (gsKernels P inv M md subset symmLoc p) := by
  intro p hp
  have hw := (hMG p hp).wfM
  have hs := symm_M hA (hMG p hp)
  have hH := (hMG p hp).dimM.1
  have key : ∀ (st : Stage) (S : ℕ → Prop) (bw xz : Bool), (∀ i ∈ stageRows P p (M p).height (subset p) symmLoc st bw, S i) →
      StageOK (M p) S ((gsKernels P inv M md subset symmLoc p).rhs st bw xz) ((gsKernels P inv M md subset symmLoc p).res st bw xz) := by
    intro st S bw xz hS
    have e := stage_rows hw hs (fun i => inv (md p i)) _ S hS
    have h1 : (gsKernels P inv M md subset symmLoc p).rhs st bw xz = _ :=
      funext fun x => funext fun b => (gs_rows P inv p (M p) (md p) (subset p) symmLoc st bw x b).1
    have h2 : (gsKernels P inv M md subset symmLoc p).res st bw xz = _ :=
      funext fun x => funext fun b => (gs_rows P inv p (M p) (md p) (subset p) symmLoc st bw x b).2
    rw [h1, h2]; exact e
  exact ⟨fun bw xz => key _ _ bw xz fun i hi => mem_stageRows_loc1 hp hH hi,
    fun bw xz => key _ _ bw xz fun i hi => mem_stageRows_ex hp hH hi,
    fun bw xz => key _ _ bw xz fun i hi => mem_stageRows_loc2 hp hH hi⟩

/-- the rows of the loop -/
def loopRows (P : PD) (p H : ℕ) (subset : Option (ℕ → Bool)) (symmLoc bw : Bool) : ℕ → List ℕ
  | 0 => []
  | n + 1 => stageRows P p H subset symmLoc (p2 bw) bw ++ stageRows P p H subset symmLoc .ex bw ++
      stageRows P p H subset symmLoc (p1 bw) bw ++ loopRows P p H subset symmLoc bw n

/-- all rows that one process visits during a call, in this order -/
def allRows (P : PD) (p H : ℕ) (subset : Option (ℕ → Bool)) (symmLoc bw : Bool) (nls : ℤ) : List ℕ :=
  stageRows P p H subset symmLoc (p1 bw) bw ++ stageRows P p H subset symmLoc .ex bw ++
    loopRows P p H subset symmLoc bw (rounds nls) ++ stageRows P p H subset symmLoc (p2 bw) bw

theorem fullX_gs (P : PD) (inv : Blk k → Blk k) (M : ℕ → CSR (Blk k)) (md : ℕ → ℕ → Blk k) (subset : ℕ → Option (ℕ → Bool))
    (symmLoc : Bool) (p : ℕ) (bw xz : Bool) (nls : ℤ) (x β : BVec k) :
    fullX (gsKernels P inv M md subset symmLoc p) bw xz nls x β =
      (allRows P p (M p).height (subset p) symmLoc bw nls).foldl (updateRow (M p) (fun i => inv (md p i)) β) x := by
  have h1 : ∀ st bw xz x, (gsKernels P inv M md subset symmLoc p).rhs st bw xz x β =
      (stageRows P p (M p).height (subset p) symmLoc st bw).foldl (updateRow (M p) (fun i => inv (md p i)) β) x :=
    fun st bw xz x => (gs_rows P inv p (M p) (md p) (subset p) symmLoc st bw x β).1
  have h2 : ∀ n xz x, loopX (gsKernels P inv M md subset symmLoc p) bw β n xz x =
      (loopRows P p (M p).height (subset p) symmLoc bw n).foldl (updateRow (M p) (fun i => inv (md p i)) β) x := by
    intro n
    induction n with
    | zero => intro xz x; rfl
    | succ n ih =>
      intro xz x
      rw [loopX, ih, h1, h1, h1, loopRows, List.foldl_append, List.foldl_append, List.foldl_append]
  rw [fullX, preX, h1, h2, h1, h1, allRows, List.foldl_append, List.foldl_append, List.foldl_append]

/-- the master-master block of the global operator on process `p` -/
def blockOp (P : PD) (A : ℕ → CSR (Blk k)) (p d e : ℕ) : Blk k :=
  if (d < P.ndof p ∧ P.owner (P.glob p d) = p) ∧ e < P.ndof p ∧ P.owner (P.glob p e) = p then gop P A (P.glob p d) (P.glob p e) else 0

/-- the new iterate of the hybrid Gauss-Seidel smoother on its master: textbook Gauss-Seidel with the process's block of the *global*
operator, in the order `allRows`, for the right hand side `b - (couplings to other processes' DOFs) x_old` -/
def gsX (P : PD) (A : ℕ → CSR (Blk k)) (inv : Blk k → Blk k) (md : ℕ → ℕ → Blk k) (subset : ℕ → Option (ℕ → Bool))
    (symmLoc bw : Bool) (nls : ℤ) (xh bh : ℕ → Fin k → ℝ) (g : ℕ) : Fin k → ℝ :=
  let p := P.owner g
  gsSweep (P.ndof p) (blockOp P A p) (fun i => inv (md p i)) (allRows P p (P.ndof p) (subset p) symmLoc bw nls)
    (fun d => xh (P.glob p d))
    (fun d => bh (P.glob p d) - ∑ h ∈ allDofs P, if P.owner (P.glob p d) = P.owner h then 0 else gop P A (P.glob p d) h *ᵥ xh h)
    (P.loc p g)

/-- couplings of `G` -/
theorem gop_G {P : PD} (hP : P.WF) {A M : ℕ → CSR (Blk k)} {G : ℕ → Option (CSR (Blk k))}
    (hMG : ∀ p < P.np, LocalSpec P A p (M p) (G p)) (g h : ℕ) :
    gop P (fun p => (G p).getD emptyM) g h = if P.owner g = P.owner h then 0 else gop P A g h := by
  rw [gop_at hP, gop_at hP]
  by_cases ho : P.owner g = P.owner h
  · rw [if_pos ho]
    apply Finset.sum_eq_zero
    intro q hq
    rw [Finset.mem_range] at hq
    by_cases hs : P.shares q g = true ∧ P.shares q h = true
    · have m1 := loc_spec hs.1
      have m2 := loc_spec hs.2
      rw [if_pos hs, (hMG q hq).entryG _ m1.1 _ m2.1, m1.2, m2.2, if_neg (by simp [ho])]
    · rw [if_neg hs]
  · rw [if_neg ho]
    apply Finset.sum_congr rfl
    intro q hq
    rw [Finset.mem_range] at hq
    by_cases hs : P.shares q g = true ∧ P.shares q h = true
    · have m1 := loc_spec hs.1
      have m2 := loc_spec hs.2
      rw [if_pos hs, if_pos hs, (hMG q hq).entryG _ m1.1 _ m2.1, m1.2, m2.2, if_pos ho]
    · rw [if_neg hs, if_neg hs]

theorem gmulG_eq {P : PD} (hP : P.WF) {A M : ℕ → CSR (Blk k)} {G : ℕ → Option (CSR (Blk k))}
    (hMG : ∀ p < P.np, LocalSpec P A p (M p) (G p)) (x : ℕ → Fin k → ℝ) (g : ℕ) :
    gmulG P G x g = ∑ h ∈ allDofs P, if P.owner g = P.owner h then 0 else gop P A g h *ᵥ x h := by
  apply Finset.sum_congr rfl
  intro h _
  rw [gop_G hP hMG]
  split_ifs <;> simp

theorem gsSweep_congr_matrix {n : ℕ} {A B : ℕ → ℕ → Blk k} (d : ℕ → Blk k) (L : List ℕ) (x b : BVec k)
    (h : ∀ i ∈ L, ∀ j < n, A i j = B i j) : gsSweep n A d L x b = gsSweep n B d L x b := by
  induction L generalizing x with
  | nil => rfl
  | cons i L ih =>
    have e : gsRow n A d b x i = gsRow n B d b x i := by
      funext j
      rw [gsRow, gsRow]
      have : mulBlock n A x i = mulBlock n B x i :=
        Finset.sum_congr rfl fun j hj => by rw [h i List.mem_cons_self j (Finset.mem_range.1 hj)]
      rw [this]
    rw [gsSweep, gsSweep, List.foldl_cons, List.foldl_cons, e]
    exact ih _ fun j hj => h j (List.mem_cons_of_mem _ hj)

theorem gsSweep_congr_x {n : ℕ} {A : ℕ → ℕ → Blk k} (d : ℕ → Blk k) (L : List ℕ) (x x' b : BVec k)
    (h : ∀ i < n, x i = x' i) (hL : ∀ i ∈ L, i < n) : ∀ i < n, gsSweep n A d L x b i = gsSweep n A d L x' b i := by
  induction L generalizing x x' with
  | nil => exact h
  | cons i L ih =>
    apply ih
    · intro j hj
      rw [gsRow, gsRow]
      have : mulBlock n A x i = mulBlock n A x' i :=
        Finset.sum_congr rfl fun j hj => by rw [h j (Finset.mem_range.1 hj)]
      rw [this, h i (hL i List.mem_cons_self), h j hj]
    · exact fun j hj => hL j (List.mem_cons_of_mem _ hj)

theorem mem_allRows {P : PD} {p H : ℕ} (hp : p < P.np) (hH : H = P.ndof p) {subset : Option (ℕ → Bool)} {symmLoc bw : Bool}
    {nls : ℤ} {i : ℕ} (hi : i ∈ allRows P p H subset symmLoc bw nls) : mast P p i := by
  have h1 : ∀ i ∈ stageRows P p H subset symmLoc (p1 bw) bw, mast P p i := by
    intro i hi
    cases bw
    · exact unshared_mast hp (mem_stageRows_loc1 hp hH hi)
    · exact unshared_mast hp (mem_stageRows_loc2 hp hH hi)
  have h2 : ∀ i ∈ stageRows P p H subset symmLoc (p2 bw) bw, mast P p i := by
    intro i hi
    cases bw
    · exact unshared_mast hp (mem_stageRows_loc2 hp hH hi)
    · exact unshared_mast hp (mem_stageRows_loc1 hp hH hi)
  have h3 : ∀ i ∈ stageRows P p H subset symmLoc .ex bw, mast P p i := fun i hi => mem_stageRows_ex hp hH hi
  have h4 : ∀ n, ∀ i ∈ loopRows P p H subset symmLoc bw n, mast P p i := by
    intro n
    induction n with
    | zero => simp [loopRows]
    | succ n ih =>
      intro i hi
      simp only [loopRows, List.mem_append] at hi
      rcases hi with ((hi | hi) | hi) | hi
      · exact h2 i hi
      · exact h3 i hi
      · exact h1 i hi
      · exact ih i hi
  simp only [allRows, List.mem_append] at hi
  rcases hi with ((hi | hi) | hi) | hi
  · exact h1 i hi
  · exact h3 i hi
  · exact h4 _ i hi
  · exact h2 i hi

/-- **C40**, hybrid Gauss-Seidel: `newX` is textbook Gauss-Seidel on every process -/
theorem newX_gs {P : PD} (hP : P.WF) {A M : ℕ → CSR (Blk k)} {G : ℕ → Option (CSR (Blk k))}
    (hMG : ∀ p < P.np, LocalSpec P A p (M p) (G p)) (inv : Blk k → Blk k) (md : ℕ → ℕ → Blk k)
    (subset : ℕ → Option (ℕ → Bool)) (symmLoc bw xz : Bool) (nls : ℤ) (x : ℕ → BVec k) (xh bh : ℕ → Fin k → ℝ)
    (hx : Consistent P x xh) {g : ℕ} (hg : g ∈ allDofs P) :
    newX P G (gsKernels P inv M md subset symmLoc) bw xz nls x xh bh g = gsX P A inv md subset symmLoc bw nls xh bh g := by
  obtain ⟨p, hp, d, hd, rfl⟩ := mem_allDofs.1 hg
  have ho := owner_spec hp (shares_glob hd)
  have hop : P.owner (P.glob p d) < P.np := by omega
  have hl := loc_spec ho.1
  have hs := hMG _ hop
  rw [newX, fullX_gs, ← gsSweep_eq _ hs.wfM, gsX, hs.dimM.1, hs.dimM.2]
  simp only [gmulG_eq hP hMG]
  rw [gsSweep_congr_matrix (B := blockOp P A (P.owner (P.glob p d)))]
  · exact gsSweep_congr_x _ _ _ _ _ (fun i hi => hx _ hop i hi) (fun i hi => (mem_allRows hop rfl hi).1) _ hl.1
  · intro i hi j hj
    have hm := mem_allRows hop rfl hi
    rw [hs.entryM i hm.1 j hj, blockOp]
    by_cases hj' : P.owner (P.glob (P.owner (P.glob p d)) j) = P.owner (P.glob p d)
    · rw [if_pos ⟨hm.2, hj'⟩, if_pos ⟨hm, hj, hj'⟩]
    · rw [if_neg fun h => hj' h.2, if_neg fun h => hj' h.2.2]

/-- **C40**, hybrid Gauss-Seidel, end to end: from process-local matrices `A` whose sum is symmetric, split by the code, with any
modified diagonal and subset. -/
theorem hybridGS_correct {P : PD} (hP : P.WF) (A : ℕ → CSR (Blk k)) (hA : GSymm P A)
    {M : ℕ → CSR (Blk k)} {G : ℕ → Option (CSR (Blk k))} (hMG : ∀ p < P.np, LocalSpec P A p (M p) (G p))
    (inv : Blk k → Blk k) (md : ℕ → ℕ → Blk k) (subset : ℕ → Option (ℕ → Bool)) (symmLoc bw : Bool) (nls : ℤ)
    (ru ur xz bDist resDist : Bool) (v : ℕ → LS k) (xh bh : ℕ → Fin k → ℝ) (ht : Truthful P A v xh bh ru xz bDist resDist)
    {n : ℕ} {s : St (LS k) (List (Fin k → ℝ))}
    (hr : Reach P.np (smoothImpl P M G (gsKernels P inv M md subset symmLoc) bw nls ru ur xz bDist resDist) v n s)
    (hf : Final P.np (smoothImpl P M G (gsKernels P inv M md subset symmLoc) bw nls ru ur xz bDist resDist) s) :
    let X := gsX P A inv md subset symmLoc bw nls xh bh
    Consistent P (fun p => (s.vec p).x) X ∧
      (ur = true → (ru = true → resDist = true) → (ru = false → xz = true → bDist = true) →
        ∀ g ∈ allDofs P, gsum P (fun p => (s.vec p).res) g = bh g - gmul P A X g) := by
  intro X
  have hset : Setup P A M G (gsKernels P inv M md subset symmLoc) := ⟨hP, hMG, gs_kernelsOK hA hMG inv md subset symmLoc⟩
  obtain ⟨h1, h2, _⟩ := smooth_correct hset bw nls ru ur xz bDist resDist v xh bh ht hr hf
  have e : ∀ g ∈ allDofs P, newX P G (gsKernels P inv M md subset symmLoc) bw xz nls (fun p => (v p).x) xh bh g = X g :=
    fun g hg => newX_gs hP hMG inv md subset symmLoc bw xz nls _ xh bh ht.x hg
  refine ⟨fun p hp d hd => (h1 p hp d hd).trans (e _ (glob_mem hp hd)), fun a b c g hg => ?_⟩
  rw [h2 a b c g hg]
  congr 1
  exact Finset.sum_congr rfl fun h hh => by rw [e h hh]

/-! ### a concrete case: three processes, DOFs of one, two and three processes -/

/-- process matrices with 4 on the diagonal and 1 elsewhere -/
def exS (_ : ℕ) : CSR (Blk 1) :=
  ⟨3, 3, fun i => if i < 3 then [(0, if i = 0 then 4 else 1), (1, if i = 1 then 4 else 1), (2, if i = 2 then 4 else 1)] else []⟩

theorem exS_wf (p : ℕ) : (exS p).WF := by
  refine ⟨?_, ?_, ?_⟩
  · intro i
    by_cases h : i < 3 <;> simp [exS, h]
  · intro i e he
    by_cases h : i < 3
    · simp only [exS, h, if_true, List.mem_cons, List.not_mem_nil, or_false] at he
      rcases he with rfl | rfl | rfl <;> simp [exS]
    · simp [exS, h] at he
  · intro i hi
    have : ¬ i < 3 := by simpa [exS] using hi
    simp [exS, this]

theorem exS_entry (p i j : ℕ) : (exS p).entry i j = if i < 3 ∧ j < 3 then (if i = j then 4 else 1) else 0 := by
  by_cases hi : i < 3
  · by_cases hj : j < 3
    · rw [if_pos ⟨hi, hj⟩]
      interval_cases i <;> interval_cases j <;> simp [exS, CSR.entry]
    · rw [if_neg (fun h => hj h.2)]
      exact CSR.entry_outside _ (exS_wf p) (Or.inr (by simpa [exS] using hj))
  · rw [if_neg (fun h => hi h.1)]
    exact CSR.entry_outside _ (exS_wf p) (Or.inl (by simpa [exS] using hi))

theorem exS_symm : GSymm exPD exS := by
  intro g h
  have one_t : (4 : Blk 1)ᵀ = 4 := by
    rw [← Matrix.diagonal_ofNat, Matrix.diagonal_transpose]
  rw [gop, gop, Matrix.transpose_sum]
  apply Finset.sum_congr rfl
  intro p _
  rw [Finset.sum_comm, Matrix.transpose_sum]
  apply Finset.sum_congr rfl
  intro d _
  rw [Matrix.transpose_sum]
  apply Finset.sum_congr rfl
  intro e _
  simp only [and_comm (a := exPD.glob p e = g), exS_entry, eq_comm (a := e), and_comm (a := e < 3)]
  split_ifs <;> simp [one_t]

/-- the code splits these matrices -/
theorem exS_split : ∃ (M : ℕ → CSR (Blk 1)) (G : ℕ → Option (CSR (Blk 1))), ∀ p < exPD.np, LocalSpec exPD exS p (M p) (G p) := by
  obtain ⟨n, s, hr, hf⟩ := exists_final (decompose_matched (P := exPD)) (fun p => (exS p, none))
  obtain ⟨M, G, -, h, -⟩ := decompose_correct exPD_WF exS (fun p _ => ⟨exS_wf p, rfl, rfl⟩) hr hf
  exact ⟨M, G, h⟩

/-- start vectors of a call: `x` is zero, `b` is one everywhere, CUMULATED or DISTRIBUTED -/
def exV (bDist : Bool) (p : ℕ) : LS 1 :=
  { x := 0, b := fun d => if bDist then (if exPD.isMaster p d then 1 else 0) else 1, res := 0, gx := 0 }

theorem exV_truthful (bDist : Bool) : Truthful exPD exS (exV bDist) 0 1 false true bDist true where
  x := fun _ _ _ _ => rfl
  b := by
    cases bDist with
    | false => exact fun _ _ _ _ => rfl
    | true => exact distribute_rep exPD_WF (v := fun _ _ => 1) fun _ _ _ _ => rfl
  res := by simp
  zero := fun _ _ _ => rfl

/-- the hypotheses of `hybridGS_correct` are met by a complete run, with two local steps and a residual -/
example : ∃ M G n s, (∀ p < exPD.np, LocalSpec exPD exS p (M p) (G p)) ∧ GSymm exPD exS ∧
    Reach exPD.np (smoothImpl exPD M G (gsKernels exPD (fun d => d⁻¹) M (fun _ _ => 12) (fun _ => none) false) false 2 false true
      true true true) (exV true) n s ∧
    Final exPD.np (smoothImpl exPD M G (gsKernels exPD (fun d => d⁻¹) M (fun _ _ => 12) (fun _ => none) false) false 2 false true
      true true true) s ∧ Truthful exPD exS (exV true) 0 1 false true true true := by
  obtain ⟨M, G, h⟩ := exS_split
  obtain ⟨n, s, hr, hf⟩ := exists_final (matched_smooth (M := M) (G := G)
    (K := gsKernels exPD (fun d => d⁻¹) M (fun _ _ => 12) (fun _ => none) false) exPD_WF false 2 false true true true true) (exV true)
  exact ⟨M, G, n, s, h, exS_symm, hr, hf, exV_truthful true⟩

/-- **C40** does not hold for a CUMULATED right hand side and `x = 0`: a run of the hybrid Gauss-Seidel smoother after which the
residual is not `b - A x`, for any forms of the residual: its sum over all copies is wrong. -/
theorem residual_cumulated_wrong : ∃ (P : PD) (A M : ℕ → CSR (Blk 1)) (G : ℕ → Option (CSR (Blk 1))) (K : ℕ → Kernels 1)
    (v : ℕ → LS 1) (xh bh : ℕ → Fin 1 → ℝ) (n : ℕ) (s : St (LS 1) (List (Fin 1 → ℝ))),
    Setup P A M G K ∧ K = gsKernels P (fun d => d⁻¹) M (fun _ _ => 12) (fun _ => none) false ∧
      Truthful P A v xh bh false true false true ∧
      Reach P.np (smoothImpl P M G K false 1 false true true false true) v n s ∧
      Final P.np (smoothImpl P M G K false 1 false true true false true) s ∧
      ∃ X, Consistent P (fun p => (s.vec p).x) X ∧ ∃ g ∈ allDofs P, gsum P (fun p => (s.vec p).res) g ≠ bh g - gmul P A X g := by
  obtain ⟨M, G, h⟩ := exS_split
  have hset : Setup exPD exS M G (gsKernels exPD (fun d => d⁻¹) M (fun _ _ => 12) (fun _ => none) false) :=
    ⟨exPD_WF, h, gs_kernelsOK exS_symm h _ _ _ _⟩
  obtain ⟨n, s, hr, hf⟩ := exists_final (matched_smooth (M := M) (G := G)
    (K := gsKernels exPD (fun d => d⁻¹) M (fun _ _ => 12) (fun _ => none) false) exPD_WF false 1 false true true false true) (exV false)
  refine ⟨exPD, exS, M, G, _, exV false, 0, 1, n, s, hset, rfl, exV_truthful false, hr, hf, _,
    (smooth_correct hset false 1 false true true false true (exV false) 0 1 (exV_truthful false) hr hf).1, 7, ?_, ?_⟩
  · exact mem_allDofs.2 ⟨0, by decide, 2, by decide, rfl⟩
  · have hg : 7 ∈ allDofs exPD := mem_allDofs.2 ⟨0, by decide, 2, by decide, rfl⟩
    rw [smooth_cumulated hset false 1 true (exV false) 0 1 (exV_truthful false) hr hf 7 hg]
    have hc : copies exPD 7 = 3 := by decide
    rw [hc]
    intro he
    have := congrFun (sub_left_injective he) 0
    norm_num at this

end NgsAMG.HybSm
