import Verif.Model.HybridDyn
import Verif.Props.HybridPattern
import Verif.Props.HybridBS2
import Verif.Props.DynSmoother5

/-! C84: `HybridDynBlockSmoother`. -/

namespace NgsAMG.HybDyn
open NgsAMG.DCC NgsAMG.Hybrid NgsAMG.HybSm NgsAMG.DynBlock NgsAMG.GS NgsAMG.Spec NgsAMG.BlkGS Matrix

/-! ### kernels that are sequences of blocks -/

section
variable {k : ℕ}

/-- the stages of the kernels visit the blocks of `ord` -/
structure StagesOK (M : CSR (Blk k)) (K : Kernels k) (ord : ℕ → List (BBlock k)) : Prop where
  rhs : ∀ st bw xz x b, K.rhs st bw xz x b = (stageList ord false st bw).foldl (stepRHS M b) x
  res : ∀ st bw xz x r, K.res st bw xz x r = ((stageList ord false st bw).foldl (stepRHS M (r + multRow M x)) x,
    r + multRow M x - multRow M ((stageList ord false st bw).foldl (stepRHS M (r + multRow M x)) x))

theorem stages_kernelsOK {P : PD} {p : ℕ} {M : CSR (Blk k)} {K : Kernels k} {ord : ℕ → List (BBlock k)} (h : StagesOK M K ord)
    (hd : ∀ i < 3, ∀ B ∈ ord i, ∀ d ∈ B.dofs, mast P p d ∧ (i ≠ 1 → unshared P p d)) : KernelsOK P p M K := by
  have key : ∀ (st : Stage) (bw xz : Bool) (T : ℕ → Prop), (∀ B ∈ stageList ord false st bw, ∀ d ∈ B.dofs, T d) → StageOK M T (K.rhs st bw xz) (K.res st bw xz) :=
    fun st bw xz T hT => stage_blocks (stageList ord false st bw) T hT (fun x b => h.rhs st bw xz x b) (fun x r => h.res st bw xz x r)
  constructor
  · intro bw xz
    refine key _ _ _ _ fun B hB d hdd => ?_
    obtain ⟨i, hi, hBi, hne⟩ := mem_stageList hB
    exact (hd i hi B hBi d hdd).2 (hne (by simp))
  · intro bw xz
    refine key _ _ _ _ fun B hB d hdd => ?_
    obtain ⟨i, hi, hBi, hne⟩ := mem_stageList hB
    exact (hd i hi B hBi d hdd).1
  · intro bw xz
    refine key _ _ _ _ fun B hB d hdd => ?_
    obtain ⟨i, hi, hBi, hne⟩ := mem_stageList hB
    exact (hd i hi B hBi d hdd).2 (hne (by simp))

theorem stages_fullX {M : CSR (Blk k)} {K : Kernels k} {ord : ℕ → List (BBlock k)} (h : StagesOK M K ord) (bw xz : Bool) (nls : ℤ) (x β : BVec k) :
    fullX K bw xz nls x β = (allBlocks ord false bw nls).foldl (stepRHS M β) x := by
  have h2 : ∀ n xz x, loopX K bw β n xz x = (loopList ord false bw n).foldl (stepRHS M β) x := by
    intro n
    induction n with
    | zero => intro xz x; rfl
    | succ n ih =>
      intro xz x
      rw [loopX, ih, h.rhs, h.rhs, h.rhs, loopList, List.foldl_append, List.foldl_append, List.foldl_append]
  rw [fullX, preX, h.rhs, h2, h.rhs, h.rhs, allBlocks, List.foldl_append, List.foldl_append, List.foldl_append]

theorem stages_newX {P : PD} (hP : P.WF) {A M : ℕ → CSR (Blk k)} {G : ℕ → Option (CSR (Blk k))} (hMG : ∀ p < P.np, LocalSpec P A p (M p) (G p)) {K : ℕ → Kernels k}
    {ord : ℕ → ℕ → List (BBlock k)} (hO : ∀ p < P.np, StagesOK (M p) (K p) (ord p)) (hd : ∀ p < P.np, ∀ i < 3, ∀ B ∈ ord p i, ∀ d ∈ B.dofs, mast P p d ∧ (i ≠ 1 → unshared P p d))
    (bw xz : Bool) (nls : ℤ) (x : ℕ → BVec k) (xh bh : ℕ → Fin k → ℝ) (hx : HybSm.Consistent P x xh) {g : ℕ} (hg : g ∈ allDofs P) :
    newX P G K bw xz nls x xh bh g = bsX P A (fun p i => (ord p i).map BBlock.toSpec) false bw nls xh bh g := by
  obtain ⟨p, hp, d, hd', rfl⟩ := mem_allDofs.1 hg
  have ho := owner_spec hp (shares_glob hd')
  have hop : P.owner (P.glob p d) < P.np := by omega
  have hl := loc_spec ho.1
  have hs := hMG _ hop
  rw [newX, stages_fullX (hO _ hop), foldl_spec _ hs.wfM, bsX, hs.dimM.2, map_allBlocks]
  simp only [gmulG_eq hP hMG]
  refine blockSweep_congr _ _ _ _ ?_ (fun i hi => hx _ hop i hi) _ hl.1
  intro C hC i hi j hj
  obtain ⟨t, ht, hCt⟩ := mem_allBlocks hC
  obtain ⟨B, hB, rfl⟩ := List.mem_map.1 hCt
  have hm := (hd _ hop t ht B hB i hi).1
  rw [hs.entryM i hm.1 j hj, blockOp]
  by_cases hj' : P.owner (P.glob (P.owner (P.glob p d)) j) = P.owner (P.glob p d)
  · rw [if_pos ⟨hm.2, hj'⟩, if_pos ⟨hm, hj, hj'⟩]
  · rw [if_neg fun h => hj' h.2, if_neg fun h => hj' h.2.2]

/-- the hybrid smoother with such kernels -/
theorem stages_smooth {P : PD} (hP : P.WF) {A M : ℕ → CSR (Blk k)} {G : ℕ → Option (CSR (Blk k))} (hMG : ∀ p < P.np, LocalSpec P A p (M p) (G p)) {K : ℕ → Kernels k}
    {ord : ℕ → ℕ → List (BBlock k)} (hO : ∀ p < P.np, StagesOK (M p) (K p) (ord p)) (hd : ∀ p < P.np, ∀ i < 3, ∀ B ∈ ord p i, ∀ d ∈ B.dofs, mast P p d ∧ (i ≠ 1 → unshared P p d))
    (bw : Bool) (nls : ℤ) (ru ur xz bDist resDist : Bool) (v : ℕ → LS k) (xh bh : ℕ → Fin k → ℝ) (ht : Truthful P A v xh bh ru xz bDist resDist)
    {n : ℕ} {s : Exch.St (LS k) (List (Fin k → ℝ))} (hr : Exch.Reach P.np (HybSm.smoothImpl P M G K bw nls ru ur xz bDist resDist) v n s)
    (hf : Exch.Final P.np (HybSm.smoothImpl P M G K bw nls ru ur xz bDist resDist) s) :
    let X := bsX P A (fun p i => (ord p i).map BBlock.toSpec) false bw nls xh bh
    HybSm.Consistent P (fun p => (s.vec p).x) X ∧
      (ur = true → (ru = true → resDist = true) → (ru = false → xz = true → bDist = true) →
        ∀ g ∈ allDofs P, gsum P (fun p => (s.vec p).res) g = bh g - gmul P A X g) := by
  intro X
  have hset : Setup P A M G K := ⟨hP, hMG, fun p hp => stages_kernelsOK (hO p hp) (hd p hp)⟩
  obtain ⟨h1, h3, _⟩ := smooth_correct hset bw nls ru ur xz bDist resDist v xh bh ht hr hf
  have e : ∀ g ∈ allDofs P, newX P G K bw xz nls (fun p => (v p).x) xh bh g = X g :=
    fun g hg => stages_newX hP hMG hO hd bw xz nls _ xh bh ht.x hg
  refine ⟨fun p hp d hd => (h1 p hp d hd).trans (e _ (glob_mem hp hd)), fun a b c g hg => ?_⟩
  rw [h3 a b c g hg]
  congr 1
  exact Finset.sum_congr rfl fun h hh => by rw [e h hh]

end

/-! ### scalars and blocks of size one -/

theorem lift_toScal (M : CSR (Blk 1)) : lift (toScal M) = M := by
  cases M with
  | mk h w row =>
    simp only [lift, toScal, List.map_map]
    congr 1
    funext i
    refine (List.map_congr_left (g := id) fun e _ => ?_).trans (List.map_id _)
    refine Prod.ext rfl ?_
    funext a b
    rw [Subsingleton.elim a 0, Subsingleton.elim b 0]
    rfl

theorem toScal_cols (M : CSR (Blk 1)) (i : ℕ) : cols (toScal M) i = cols M i := by
  simp [cols, toScal, Function.comp_def]

theorem toScal_wf {M : CSR (Blk 1)} (h : M.WF) : (toScal M).WF where
  sorted i := by
    have := h.sorted i
    simpa [toScal, Function.comp_def] using this
  inRange i e he := by
    obtain ⟨x, hx, rfl⟩ := List.mem_map.1 he
    exact h.inRange i x hx
  outside i hi := by
    show ((M.row i).map _) = []
    rw [h.outside i hi]
    rfl

theorem toScal_entry (M : CSR (Blk 1)) (i j : ℕ) : (toScal M).entry i j = M.entry i j 0 0 := by
  conv_rhs => rw [← lift_toScal M, lift_entry]
  rfl

theorem toScal_symm {M : CSR (Blk 1)} (h : Symm M) : SymmR (toScal M) := by
  refine ⟨h.1, fun i j => ?_⟩
  rw [toScal_entry, toScal_entry]
  have := congrFun (congrFun (h.2 i j) 0) 0
  exact this

theorem up1_down (x : BVec 1) : up1 (down x) = x := by
  funext i c
  rw [Subsingleton.elim c 0]
  rfl

theorem down_up1 (x : ℕ → ℝ) : down (up1 x) = x := rfl

/-! ### the blocks of the stages -/

/-- does the class have an unknown that another process has, too? -/
def shared (P : PD) (p : ℕ) (F : List ℕ) : Bool := F.any fun d => !(P.dps p d).isEmpty

/-- unknowns that the process updates -/
def maf (P : PD) (p : ℕ) (free : Option (ℕ → Bool)) : Option (ℕ → Bool) := some fun i => P.isMaster p i && inSubset free i

theorem sortBlocks_spec (P : PD) (p : ℕ) (free : Option (ℕ → Bool)) (D : Dyn ℝ) (f : ℕ → List ℕ) (bs : List (RowBlock ℝ)) (k : ℕ)
    (hf : ∀ j b, bs[j]? = some b → f (k + j) = freeOf D (maf P p free) b) :
    ((((sortBlocks P p free D k bs).1.map f).filter fun F => !F.isEmpty) = (((bs.map (freeOf D (maf P p free))).filter fun F => !F.isEmpty).filter fun F => !shared P p F)) ∧
    ((((sortBlocks P p free D k bs).2.map f).filter fun F => !F.isEmpty) = (((bs.map (freeOf D (maf P p free))).filter fun F => !F.isEmpty).filter fun F => shared P p F)) ∧
    (∀ j, j ∈ (sortBlocks P p free D k bs).1 ∨ j ∈ (sortBlocks P p free D k bs).2 → j < k + bs.length) := by
  induction bs generalizing k with
  | nil => simp [sortBlocks]
  | cons b bs ih =>
    obtain ⟨h1, h2, h3⟩ := ih (k + 1) fun j c hc => by
      have := hf (j + 1) c (by simpa using hc)
      rwa [show k + (j + 1) = k + 1 + j by omega] at this
    have hk : f k = freeOf D (maf P p free) b := by simpa using hf 0 b rfl
    have hmem : ∀ d, d ∈ freeOf D (maf P p free) b → d ∈ D.srows b ∧ P.isMaster p d = true ∧ inSubset free d = true := by
      intro d hd
      rw [freeOf] at hd
      split at hd
      · cases hd
      · obtain ⟨g1, g2⟩ := List.mem_filter.1 hd
        simp only [maf, Option.map_some, Option.getD_some, Bool.and_eq_true] at g2
        exact ⟨g1, g2⟩
    have hmem' : freeOf D (maf P p free) b ≠ [] → ∀ d ∈ D.srows b, P.isMaster p d = true → inSubset free d = true → d ∈ freeOf D (maf P p free) b := by
      intro hne d h1 h2 h3
      rw [freeOf] at hne ⊢
      split
      · rename_i h; rw [if_pos h] at hne; exact absurd rfl hne
      · refine List.mem_filter.2 ⟨h1, ?_⟩
        simp [maf, h2, h3]
    set F := freeOf D (maf P p free) b with hF
    rw [sortBlocks]
    rw [List.map_cons, ← hF]
    by_cases hex : anyMEx P p free D b = true
    · rw [if_pos hex]
      have hsh : F ≠ [] → shared P p F = true := by
        intro hne
        rw [anyMEx, List.any_eq_true] at hex
        obtain ⟨d, hd, he⟩ := hex
        simp only [Bool.and_eq_true] at he
        exact List.any_eq_true.2 ⟨d, hmem' hne d hd he.1.2 he.1.1, he.2⟩
      refine ⟨?_, ?_, ?_⟩
      · rw [h1, List.filter_cons]
        by_cases hne : F = []
        · rw [if_neg (by simp [hne])]
        · rw [if_pos (by simp [hne]), List.filter_cons, if_neg (by simp [hsh hne])]
      · rw [List.map_cons, hk, List.filter_cons, List.filter_cons]
        by_cases hne : F = []
        · rw [if_neg (by simp [hne]), if_neg (by simp [hne]), h2]
        · rw [if_pos (by simp [hne]), if_pos (by simp [hne]), List.filter_cons, if_pos (hsh hne), h2]
      · intro j hj
        rw [List.length_cons]
        rcases hj with hj | hj
        · have := h3 j (.inl hj); omega
        · rcases List.mem_cons.1 hj with rfl | hj
          · omega
          · have := h3 j (.inr hj); omega
    · rw [if_neg hex]
      have hsh : shared P p F = false := by
        rw [← Bool.not_eq_true]
        intro h
        obtain ⟨d, hd, he⟩ := List.any_eq_true.1 h
        obtain ⟨g1, g2, g3⟩ := hmem d hd
        refine hex (List.any_eq_true.2 ⟨d, g1, ?_⟩)
        simp [g2, g3] at he ⊢
        exact he
      by_cases hfr : anyMFree P p free D b = true
      · rw [if_pos hfr]
        refine ⟨?_, ?_, ?_⟩
        · rw [List.map_cons, hk, List.filter_cons, List.filter_cons]
          by_cases hne : F = []
          · rw [if_neg (by simp [hne]), if_neg (by simp [hne]), h1]
          · rw [if_pos (by simp [hne]), if_pos (by simp [hne]), List.filter_cons, if_pos (by simp [hsh]), h1]
        · rw [h2, List.filter_cons]
          by_cases hne : F = []
          · rw [if_neg (by simp [hne])]
          · rw [if_pos (by simp [hne]), List.filter_cons, if_neg (by simp [hsh])]
        · intro j hj
          rw [List.length_cons]
          rcases hj with hj | hj
          · rcases List.mem_cons.1 hj with rfl | hj
            · omega
            · have := h3 j (.inl hj); omega
          · have := h3 j (.inr hj); omega
      · rw [if_neg hfr]
        have hne : F = [] := by
          by_contra hne
          obtain ⟨d, hd⟩ := List.exists_mem_of_ne_nil F hne
          obtain ⟨g1, g2, g3⟩ := hmem d hd
          exact hfr (List.any_eq_true.2 ⟨d, g1, by simp [g2, g3]⟩)
        rw [h1, h2, List.filter_cons, if_neg (by simp [hne])]
        refine ⟨rfl, rfl, fun j hj => ?_⟩
        have := h3 j hj
        rw [List.length_cons]
        omega

end NgsAMG.HybDyn
