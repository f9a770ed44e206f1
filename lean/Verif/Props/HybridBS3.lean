import Verif.Props.HybridBS2

/-! C82: `HybridBS`. Third part: forward and backward smoothing; where the claims do not hold. -/

namespace NgsAMG.HybSm
open NgsAMG.DCC NgsAMG.Hybrid NgsAMG.Exch NgsAMG.GS NgsAMG.Spec NgsAMG.BlkGS Matrix

variable {k : ℕ} {P : PD}

theorem allBlocks_reverse {β : Type} (ord : ℕ → List β) {nls : ℤ} (hn : nls ≤ 1) :
    allBlocks ord false true nls = (allBlocks ord false false nls).reverse := by
  have h0 : rounds nls = 0 := by rw [rounds]; omega
  simp [allBlocks, h0, loopList, stageList, p1, p2, Stage.idx]

theorem allBlocks_palindrome {β : Type} (ord : ℕ → List β) (bw : Bool) {nls : ℤ} (hn : nls ≤ 1) :
    allBlocks ord true bw nls = (allBlocks ord true bw nls).reverse := by
  have h0 : rounds nls = 0 := by rw [rounds]; omega
  cases bw <;> simp [allBlocks, h0, loopList, stageList, p1, p2]

theorem blockSweep_outside {n : ℕ} {A : ℕ → ℕ → Blk k} (L : List (SBlock k)) (x b : BVec k) {j : ℕ} (hj : ∀ B ∈ L, j ∉ B.1) : blockSweep n A L x b j = x j := by
  induction L generalizing x with
  | nil => rfl
  | cons B L ih =>
    refine (ih _ fun C hC => hj C (List.mem_cons_of_mem _ hC)).trans ?_
    funext c
    show blockRow n A B.1 B.2 b x j c = _
    unfold blockRow
    rw [Finset.sum_eq_zero, add_zero]
    intro p _
    rw [if_neg]
    intro h
    exact hj B List.mem_cons_self (h ▸ List.getElem_mem _)

theorem globalBlock_symm {A : ℕ → CSR (Blk k)} (hA : GSymm P A) {inv : Inverter k} (hinv : ∀ n M, Mᵀ = M → (inv n M)ᵀ = inv n M)
    {md : ℕ → Option (ℕ → Blk k)} (hmd : ∀ p d, md p = some d → ∀ i, (d i)ᵀ = d i) (p : ℕ) (b : List ℕ) :
    (globalBlock P A inv md p b).2ᵀ = (globalBlock P A inv md p b).2 := by
  apply hinv
  generalize b.insertionSort (· ≤ ·) = c
  have key : ∀ F : ℕ → ℕ → Blk k, (∀ i j, F i j = (F j i)ᵀ) → (diagBlock F c)ᵀ = diagBlock F c := by
    intro F hF
    ext s t
    show F c[t.1] c[s.1] t.2 s.2 = F c[s.1] c[t.1] s.2 t.2
    rw [hF c[s.1] c[t.1]]; rfl
  apply key
  intro i j
  cases h : md p with
  | none => exact hA _ _
  | some d =>
    show (if i = j then d i else _) = (if j = i then d j else _)ᵀ
    by_cases hij : i = j
    · subst hij; simp only [if_true]; exact (hmd p d h i).symm
    · rw [if_neg hij, if_neg (Ne.symm hij)]; exact hA _ _

theorem bsX_adjoint (hP : P.WF) (A : ℕ → CSR (Blk k)) (hA : GSymm P A) {M : ℕ → CSR (Blk k)} {G : ℕ → Option (CSR (Blk k))}
    (hMG : ∀ p < P.np, LocalSpec P A p (M p) (G p)) (ord : ℕ → ℕ → List (SBlock k)) (sl bw bw' : Bool) (nls : ℤ)
    (hrev : ∀ p < P.np, allBlocks (ord p) sl bw' nls = (allBlocks (ord p) sl bw nls).reverse)
    (hd : ∀ p < P.np, ∀ B ∈ allBlocks (ord p) sl bw nls, (∀ d ∈ B.1, mast P p d) ∧ B.2ᵀ = B.2) (b c : ℕ → Fin k → ℝ) :
    gip P (bsX P A ord sl bw nls 0 b) c = gip P b (bsX P A ord sl bw' nls 0 c) := by
  rw [gip, gip, sum_masters hP, sum_masters hP]
  apply Finset.sum_congr rfl; intro p hp
  rw [Finset.mem_range] at hp
  have hs := hMG p hp
  let bl : BVec k := fun d => b (P.glob p d)
  let cl : BVec k := fun d => c (P.glob p d)
  set L := allBlocks (ord p) sl bw nls with hLdef
  have hL := hd p hp
  have key := blockSweep_adjoint (M p) hs.wfM (symm_M hA hs) L
    (fun B hB => ⟨fun d hdB => by rw [hs.dimM.1]; exact ((hL B hB).1 d hdB).1, (hL B hB).2⟩) bl cl
  have conv : ∀ (L' : List (SBlock k)), (∀ B ∈ L', ∀ d ∈ B.1, mast P p d) → ∀ w : BVec k, ∀ i < P.ndof p,
      blockSweep (P.ndof p) (blockOp P A p) L' 0 w i = blockSweep (M p).width (M p).entry L' 0 w i := by
    intro L' hL' w
    rw [hs.dimM.2]
    refine blockSweep_congr _ _ _ _ ?_ fun _ _ => rfl
    intro B hB i hi j hj
    have hm := hL' B hB i hi
    rw [hs.entryM i hm.1 j hj]
    unfold blockOp
    by_cases hj' : P.owner (P.glob p j) = p
    · rw [if_pos ⟨hm, hj, hj'⟩, if_pos ⟨hm.2, hj'⟩]
    · rw [if_neg fun h => hj' h.2.2, if_neg fun h => hj' h.2]
  have e : ∀ (bw : Bool) (w : ℕ → Fin k → ℝ) (d : ℕ), d < P.ndof p → P.owner (P.glob p d) = p →
      bsX P A ord sl bw nls 0 w (P.glob p d) = blockSweep (P.ndof p) (blockOp P A p) (allBlocks (ord p) sl bw nls) 0 (fun d => w (P.glob p d)) d := by
    intro bw w d hd' ho
    rw [bsX]
    simp only [ho, loc_glob hP hp hd', Pi.zero_apply, Matrix.mulVec_zero, ite_self, Finset.sum_const_zero, sub_zero]
    rfl
  have l1 : ∑ d ∈ Finset.range (P.ndof p), (if P.owner (P.glob p d) = p then bsX P A ord sl bw nls 0 b (P.glob p d) ⬝ᵥ c (P.glob p d) else 0) =
      ip (M p).width (blockSweep (M p).width (M p).entry L 0 bl) cl := by
    rw [ip, hs.dimM.2]
    apply Finset.sum_congr rfl; intro d hd'
    rw [Finset.mem_range] at hd'
    rw [← hs.dimM.2, ← conv L (fun B hB => (hL B hB).1) bl d hd']
    by_cases ho : P.owner (P.glob p d) = p
    · rw [if_pos ho, e bw b d hd' ho]
    · rw [if_neg ho, blockSweep_outside L 0 bl (fun B hB hdB => ho ((hL B hB).1 d hdB).2), Pi.zero_apply, zero_dotProduct]
  have hLr : ∀ B ∈ L.reverse, ∀ d ∈ B.1, mast P p d := fun B hB => (hL B (List.mem_reverse.1 hB)).1
  have l2 : ∑ d ∈ Finset.range (P.ndof p), (if P.owner (P.glob p d) = p then b (P.glob p d) ⬝ᵥ bsX P A ord sl bw' nls 0 c (P.glob p d) else 0) =
      ip (M p).width bl (blockSweep (M p).width (M p).entry L.reverse 0 cl) := by
    rw [ip, hs.dimM.2]
    apply Finset.sum_congr rfl; intro d hd'
    rw [Finset.mem_range] at hd'
    rw [← hs.dimM.2, ← conv L.reverse hLr cl d hd']
    by_cases ho : P.owner (P.glob p d) = p
    · rw [if_pos ho, e bw' c d hd' ho, hrev p hp]
    · rw [if_neg ho, blockSweep_outside L.reverse 0 cl (fun B hB hdB => ho (hLr B hB d hdB).2), Pi.zero_apply, dotProduct_zero]
  rw [l1, l2, key]

/-- the blocks of an order are blocks of the specification -/
theorem GroupOrder.blocks {A : ℕ → CSR (Blk k)} (hA : GSymm P A) {inv : Inverter k} (hinv : ∀ n M, Mᵀ = M → (inv n M)ᵀ = inv n M)
    {md : ℕ → Option (ℕ → Blk k)} (hmd : ∀ p d, md p = some d → ∀ i, (d i)ᵀ = d i) {blocks : ℕ → List (List ℕ)}
    (hb : ∀ p < P.np, ∀ b ∈ blocks p, ∀ d ∈ b, d < P.ndof p) {symmLoc bs2 parallel : Bool} {ord : ℕ → ℕ → List (SBlock k)}
    (ho : GroupOrder P A inv md blocks symmLoc bs2 parallel ord) {bw : Bool} {nls : ℤ} :
    ∀ p < P.np, ∀ B ∈ allBlocks (ord p) symmLoc bw nls, (∀ d ∈ B.1, mast P p d) ∧ B.2ᵀ = B.2 := by
  intro p hp B hB
  obtain ⟨i, hi, hBi⟩ := mem_allBlocks hB
  obtain ⟨b, hbg, rfl⟩ := List.mem_map.1 ((ho p hp i hi).1.mem_iff.1 hBi)
  exact ⟨fun d hd => (stageGroup_dofs hp (hb p hp) hbg ((List.mem_insertionSort (r := (· ≤ ·))).1 hd)).1, globalBlock_symm hA hinv hmd p b⟩

/-- **C82**: with at most one local step the backward smoother is the adjoint of the forward smoother; `inv` gives symmetric inverses of symmetric matrices -/
theorem hybridBS_adjoint (hP : P.WF) (A : ℕ → CSR (Blk k)) (hA : GSymm P A) {M : ℕ → CSR (Blk k)} {G : ℕ → Option (CSR (Blk k))}
    (hMG : ∀ p < P.np, LocalSpec P A p (M p) (G p)) {inv : Inverter k} (hinv : ∀ n M, Mᵀ = M → (inv n M)ᵀ = inv n M)
    {md : ℕ → Option (ℕ → Blk k)} (hmd : ∀ p d, md p = some d → ∀ i, (d i)ᵀ = d i) {blocks : ℕ → List (List ℕ)}
    (hb : ∀ p < P.np, ∀ b ∈ blocks p, ∀ d ∈ b, d < P.ndof p) {bs2 parallel : Bool} {ord : ℕ → ℕ → List (SBlock k)}
    (ho : GroupOrder P A inv md blocks false bs2 parallel ord) (overlap inThread : Bool) {n : ℤ} (hn : n ≤ 1) (b c : ℕ → Fin k → ℝ) :
    let nls := (HybMat.hybridBS overlap inThread n).numLocSteps
    gip P (bsX P A ord false false nls 0 b) c = gip P b (bsX P A ord false true nls 0 c) :=
  bsX_adjoint hP A hA hMG ord false false true _ (fun p _ => allBlocks_reverse _ hn) (ho.blocks hA hinv hmd hb) b c

/-- **C82**: with `symm_loc` and at most one local step, both smoothers are self-adjoint -/
theorem hybridBS_symmLoc_selfadjoint (hP : P.WF) (A : ℕ → CSR (Blk k)) (hA : GSymm P A) {M : ℕ → CSR (Blk k)} {G : ℕ → Option (CSR (Blk k))}
    (hMG : ∀ p < P.np, LocalSpec P A p (M p) (G p)) {inv : Inverter k} (hinv : ∀ n M, Mᵀ = M → (inv n M)ᵀ = inv n M)
    {md : ℕ → Option (ℕ → Blk k)} (hmd : ∀ p d, md p = some d → ∀ i, (d i)ᵀ = d i) {blocks : ℕ → List (List ℕ)}
    (hb : ∀ p < P.np, ∀ b ∈ blocks p, ∀ d ∈ b, d < P.ndof p) {bs2 parallel : Bool} {ord : ℕ → ℕ → List (SBlock k)}
    (ho : GroupOrder P A inv md blocks true bs2 parallel ord) (bw overlap inThread : Bool) {n : ℤ} (hn : n ≤ 1) (b c : ℕ → Fin k → ℝ) :
    let nls := (HybMat.hybridBS overlap inThread n).numLocSteps
    gip P (bsX P A ord true bw nls 0 b) c = gip P b (bsX P A ord true bw nls 0 c) :=
  bsX_adjoint hP A hA hMG ord true bw bw _ (fun p _ => allBlocks_palindrome _ bw hn) (ho.blocks hA hinv hmd hb) b c

/-- the example meets the hypotheses: three processes, inverses of the blocks, no replaced diagonal -/
example : ∃ (M : ℕ → CSR (Blk 1)) (G : ℕ → Option (CSR (Blk 1))) (ord₁ ord₂ : ℕ → ℕ → List (SBlock 1)),
    exPD.WF ∧ GSymm exPD exS ∧ (∀ p < exPD.np, LocalSpec exPD exS p (M p) (G p)) ∧
    (∀ n (M : Matrix (Fin n × Fin 1) (Fin n × Fin 1) ℝ), Mᵀ = M → (M⁻¹)ᵀ = M⁻¹) ∧
    (∀ p < exPD.np, ∀ b ∈ [[0, 1], [1, 2]], ∀ d ∈ b, d < exPD.ndof p) ∧
    GroupOrder exPD exS (fun _ M => M⁻¹) (fun _ => none) (fun _ => [[0, 1], [1, 2]]) false true false ord₁ ∧
    GroupOrder exPD exS (fun _ M => M⁻¹) (fun _ => none) (fun _ => [[0, 1], [1, 2]]) true true false ord₂ := by
  obtain ⟨M, G, h⟩ := exS_split
  refine ⟨M, G, fun p i => (stageGroup exPD p false [[0, 1], [1, 2]] i).map (globalBlock exPD exS (fun _ M => M⁻¹) (fun _ => none) p),
    fun p i => (stageGroup exPD p true [[0, 1], [1, 2]] i).map (globalBlock exPD exS (fun _ M => M⁻¹) (fun _ => none) p),
    exPD_WF, exS_symm, h, ?_, by decide, fun p _ i _ => ⟨List.Perm.refl _, fun _ => rfl⟩, fun p _ i _ => ⟨List.Perm.refl _, fun _ => rfl⟩⟩
  intro n M hM
  rw [Matrix.transpose_nonsing_inv, hM]

/-! ### two local steps -/

/-- the blocks of the example: an unshared and a shared unknown of process 0 -/
def exBl (p : ℕ) : List (List ℕ) := if p = 0 then [[0], [1]] else []

theorem exS_gop : gop exPD exS 0 0 = sc 4 ∧ gop exPD exS 0 1 = sc 1 ∧ gop exPD exS 0 7 = sc 1 ∧ gop exPD exS 1 0 = sc 1 ∧ gop exPD exS 1 1 = sc 8 ∧
    gop exPD exS 1 7 = sc 2 := by
  have h4 : (4 : Blk 1) = sc 4 := by
    rw [← Matrix.diagonal_ofNat]; ext i j; fin_cases i; fin_cases j; simp [sc]
  have h1 : (1 : Blk 1) = sc 1 := by ext i j; fin_cases i; fin_cases j; simp [sc]
  have h8 : sc 4 + sc 4 = sc 8 := by funext i j; show (4 : ℝ) + 4 = 8; norm_num
  have h2 : sc 1 + sc 1 = sc 2 := by funext i j; show (1 : ℝ) + 1 = 2; norm_num
  refine ⟨?_, ?_, ?_, ?_, ?_, ?_⟩ <;> simp [gop, exPD, exS_entry, Finset.sum_range_succ, h4, h1, h8, h2]

/-- the order of the example -/
noncomputable def exOrd (p i : ℕ) : List (SBlock 1) :=
  (stageGroup exPD p false (exBl p) i).map (globalBlock exPD exS (fun _ M => M⁻¹) (fun _ => none) p)

theorem inv_block {P : PD} {A : ℕ → CSR (Blk 1)} {p i : ℕ} {a : ℝ} (h : gop P A (P.glob p i) (P.glob p i) = sc a) :
    globalBlock P A (fun _ M => M⁻¹) (fun _ => none) p [i] = ⟨[i], fun _ _ => a⁻¹⟩ := by
  show (⟨[i], (diagBlock (fun i j => gop P A (P.glob p i) (P.glob p j)) [i])⁻¹⟩ : SBlock 1) = _
  have h1 : Subsingleton (Fin [i].length) := inferInstanceAs (Subsingleton (Fin 1))
  have h2 : Subsingleton (Fin [i].length × Fin 1) := inferInstanceAs (Subsingleton (Fin 1 × Fin 1))
  congr 1
  rw [inv_subsingleton]
  funext p q
  have : p = q := Subsingleton.elim _ _
  subst this
  rw [diagonal_apply_eq, Ring.inverse_eq_inv', diagBlock]
  have : [i][p.1] = i := List.mem_singleton.1 (List.getElem_mem _)
  simp [this, h, sc]

/-- the part of the operator on process 0 -/
noncomputable def exT (i j : ℕ) : Blk 1 := if i = 0 then (if j = 0 then sc 4 else sc 1) else if j = 0 then sc 1 else if j = 1 then sc 8 else sc 2

/-- vectors of the example -/
noncomputable def exVec (α β : ℝ) : BVec 1 := fun i _ => if i = 0 then α else if i = 1 then β else 0

theorem blockRow_single {n : ℕ} (A : ℕ → ℕ → Blk 1) (i : ℕ) (a : ℝ) (b x : BVec 1) :
    blockRow n A [i] (fun _ _ => a) b x = fun j c => if j = i then x j c + a * (b i 0 - mulBlock n A x i 0) else x j c := by
  funext j c
  unfold blockRow
  rw [show (∑ p : Fin [i].length, if [i][p] = j then ∑ q : Fin [i].length × Fin 1, a * (b - mulBlock n A x) [i][q.1] q.2 else 0) =
    if i = j then a * (b i 0 - mulBlock n A x i 0) else 0 from ?_]
  · by_cases h : i = j
    · rw [if_pos h, if_pos h.symm]
    · rw [if_neg h, if_neg (Ne.symm h), add_zero]
  · simp [Fintype.sum_prod_type]

theorem exT_mul (α β : ℝ) : mulBlock 3 exT (exVec α β) 0 0 = 4 * α + β ∧ mulBlock 3 exT (exVec α β) 1 0 = α + 8 * β := by
  constructor <;> simp [mulBlock, Finset.sum_range_succ, exT, exVec, sc, Matrix.mulVec, dotProduct]

theorem ex_row0 (α β : ℝ) : blockRow 3 exT [0] (fun _ _ => (4 : ℝ)⁻¹) (Pi.single 1 1) (exVec α β) = exVec (α - (4 * α + β) / 4) β := by
  rw [blockRow_single, (exT_mul α β).1]
  funext j c
  by_cases h : j = 0
  · subst h; simp [exVec]; ring
  · simp [exVec, h]

theorem ex_row1 (α β : ℝ) : blockRow 3 exT [1] (fun _ _ => (8 : ℝ)⁻¹) (Pi.single 1 1) (exVec α β) = exVec α (β + (1 - (α + 8 * β)) / 8) := by
  rw [blockRow_single, (exT_mul α β).2]
  funext j c
  by_cases h : j = 1
  · subst h; simp [exVec]; ring
  · simp [exVec, h]

theorem ex_gip (u : ℕ → Fin 1 → ℝ) : gip exPD u (Pi.single 1 1) = u 1 0 ∧ gip exPD (Pi.single 1 1) u = u 1 0 := by
  have had : allDofs exPD = {0, 1, 7, 2, 3} := by decide
  have h0 : (0 : ℕ → Fin 1 → ℝ) = 0 := rfl
  rw [gip, gip, had]
  constructor
  · rw [Finset.sum_eq_single 1]
    · simp [dotProduct]
    · intro j _ hj; rw [Pi.single_eq_of_ne hj, dotProduct_zero]
    · simp
  · rw [Finset.sum_eq_single 1]
    · simp [dotProduct]
    · intro j _ hj; rw [Pi.single_eq_of_ne hj, zero_dotProduct]
    · simp

/-- **C82** does not hold for two local steps: the backward smoother is not the adjoint of the forward smoother -/
theorem hybridBS_not_adjoint : ∃ (b c : ℕ → Fin 1 → ℝ), GroupOrder exPD exS (fun _ M => M⁻¹) (fun _ => none) exBl false false false exOrd ∧
    ∀ overlap inThread, let nls := (HybMat.hybridBS overlap inThread 2).numLocSteps
      gip exPD (bsX exPD exS exOrd false false nls 0 b) c ≠ gip exPD b (bsX exPD exS exOrd false true nls 0 c) := by
  refine ⟨Pi.single 1 1, Pi.single 1 1, fun p _ i _ => ⟨List.Perm.refl _, fun _ => rfl⟩, ?_⟩
  intro overlap inThread nls
  obtain ⟨g00, g01, g07, g10, g11, g17⟩ := exS_gop
  have o0 : exOrd 0 0 = [] := by
    have : stageGroup exPD 0 false (exBl 0) 0 = [] := by decide +kernel
    rw [exOrd, this]; rfl
  have o1 : exOrd 0 1 = [⟨[1], fun _ _ => (8 : ℝ)⁻¹⟩] := by
    have : stageGroup exPD 0 false (exBl 0) 1 = [[1]] := by decide +kernel
    rw [exOrd, this, List.map_singleton, inv_block (P := exPD) (p := 0) (i := 1) (a := 8) g11]
  have o2 : exOrd 0 2 = [⟨[0], fun _ _ => (4 : ℝ)⁻¹⟩] := by
    have : stageGroup exPD 0 false (exBl 0) 2 = [[0]] := by decide +kernel
    rw [exOrd, this, List.map_singleton, inv_block (P := exPD) (p := 0) (i := 0) (a := 4) g00]
  have hn : rounds nls = 1 := rfl
  have hr1 : allBlocks (exOrd 0) false false nls = [⟨[1], fun _ _ => (8 : ℝ)⁻¹⟩, ⟨[0], fun _ _ => (4 : ℝ)⁻¹⟩, ⟨[1], fun _ _ => (8 : ℝ)⁻¹⟩, ⟨[0], fun _ _ => (4 : ℝ)⁻¹⟩] := by
    simp [allBlocks, hn, loopList, stageList, p1, p2, Stage.idx, o0, o1, o2]
  have hr2 : allBlocks (exOrd 0) false true nls = [⟨[0], fun _ _ => (4 : ℝ)⁻¹⟩, ⟨[1], fun _ _ => (8 : ℝ)⁻¹⟩, ⟨[1], fun _ _ => (8 : ℝ)⁻¹⟩, ⟨[0], fun _ _ => (4 : ℝ)⁻¹⟩] := by
    simp [allBlocks, hn, loopList, stageList, p1, p2, Stage.idx, o0, o1, o2]
  have ho : exPD.owner 1 = 0 := by decide
  have hl : exPD.loc 0 1 = 1 := by decide
  have key : ∀ bw L, allBlocks (exOrd 0) false bw nls = L → (∀ B ∈ L, ∀ i ∈ B.1, i < 2) → bsX exPD exS exOrd false bw nls 0 (Pi.single 1 1) 1 =
      blockSweep 3 exT L 0 (Pi.single 1 1) 1 := by
    intro bw L hL hb
    rw [bsX]
    simp only [ho, hl, Pi.zero_apply, Matrix.mulVec_zero, ite_self, Finset.sum_const_zero, sub_zero, hL]
    have eb : (fun d => (Pi.single 1 1 : ℕ → Fin 1 → ℝ) (exPD.glob 0 d)) = Pi.single 1 1 := by
      funext d
      by_cases h2 : d = 2
      · subst h2; rfl
      · have : exPD.glob 0 d = d := by simp [exPD, h2]
        rw [this]
    rw [eb]
    refine blockSweep_congr _ _ _ _ ?_ (fun _ _ => rfl) 1 (by decide)
    intro B hB i hi j hj
    have hi2 := hb B hB i hi
    have hall : ∀ m < 3, exPD.owner (exPD.glob 0 m) = 0 := by decide
    rw [blockOp, if_pos ⟨⟨lt_of_lt_of_le hi2 (by decide), hall i (by omega)⟩, hj, hall j hj⟩]
    have hj3 : j < 3 := hj
    interval_cases i <;> interval_cases j
    exacts [g00, g01, g07, g10, g11, g17]
  rw [(ex_gip _).1, (ex_gip _).2, key false _ hr1 (by simp), key true _ hr2 (by simp)]
  have h0 : (0 : BVec 1) = exVec 0 0 := by funext i c; simp [exVec]
  rw [h0]
  unfold blockSweep
  simp only [List.foldl_cons, List.foldl_nil, ex_row0, ex_row1]
  simp only [exVec]
  norm_num

/-! ### two processes -/

/-- two processes that share their only unknown -/
def twoPD : PD where
  np := 2
  ndof _ := 1
  glob _ _ := 0

theorem twoPD_WF : twoPD.WF where
  inj := by decide
  mono := by
    intro p hp q hq d hd d' hd' e he e' he' h h' hlt
    have : d < 1 := hd
    have : d' < 1 := hd'
    omega

/-- the matrices of the processes: `1`, so that the operator is `2` -/
def twoA (_ : ℕ) : CSR (Blk 1) := ⟨1, 1, fun i => if i = 0 then [(0, sc 1)] else []⟩

theorem twoA_wf (p : ℕ) : (twoA p).WF := by
  refine ⟨?_, ?_, ?_⟩
  · intro i; by_cases h : i = 0 <;> simp [twoA, h]
  · intro i e he
    by_cases h : i = 0
    · simp [twoA, h] at he; subst he; simp [twoA]
    · simp [twoA, h] at he
  · intro i hi
    have : i ≠ 0 := by simp only [twoA] at hi; omega
    simp [twoA, this]

theorem twoA_gop : gop twoPD twoA 0 0 = sc 2 := by
  have h2 : sc 1 + sc 1 = sc 2 := by funext i j; show (1 : ℝ) + 1 = 2; norm_num
  rw [← h2]
  simp [gop, twoPD, twoA, CSR.entry, Finset.sum_range_succ, two_mul]

theorem twoA_symm : GSymm twoPD twoA := by
  intro g h
  rw [gop, gop, Matrix.transpose_sum]
  apply Finset.sum_congr rfl
  intro p _
  rw [Finset.sum_comm, Matrix.transpose_sum]
  apply Finset.sum_congr rfl
  intro d hd
  rw [Matrix.transpose_sum]
  apply Finset.sum_congr rfl
  intro e he
  have hd' : d = 0 := by have := Finset.mem_range.1 hd; simp only [twoPD] at this; omega
  have he' : e = 0 := by have := Finset.mem_range.1 he; simp only [twoPD] at this; omega
  subst hd' he'
  have ht : ((twoA p).entry 0 0)ᵀ = (twoA p).entry 0 0 := by ext i j; fin_cases i; fin_cases j; rfl
  simp only [and_comm (a := twoPD.glob p 0 = g)]
  split_ifs
  · exact ht.symm
  · simp

/-- the vectors of the call: `x = 0`, and the right hand side `1` is kept by process 1 -/
def twoV (p : ℕ) : LS 1 := { x := 0, b := fun _ _ => if p = 1 then 1 else 0, res := 0, gx := 0 }

theorem twoV_truthful : Truthful twoPD twoA twoV 0 1 false true true true where
  x := fun _ _ _ _ => rfl
  b := by
    intro g hg
    have : g = 0 := by
      obtain ⟨p, hp, d, hd, rfl⟩ := mem_allDofs.1 hg
      rfl
    subst this
    funext c
    simp [gsum, twoPD, twoV, Finset.sum_range_succ]
  res := by simp
  zero := fun _ _ _ => rfl

/-- a sweep that starts with zero and sees a zero right hand side changes nothing -/
theorem foldl_zero (M : CSR (Blk k)) (b : BVec k) (L : List (BBlock k)) (h : ∀ B ∈ L, ∀ d ∈ B.dofs, b d = 0) : L.foldl (stepRHS M b) 0 = 0 := by
  rw [stepRHS_congr M (b' := 0) L fun B hB d hd => h B hB d hd, foldl_sweep]
  have := Sweep.sweep_fixed (A := M.lin) (P := corrOf) L 0
  simpa using this

theorem two_split : ∃ (M : ℕ → CSR (Blk 1)) (G : ℕ → Option (CSR (Blk 1))), ∀ p < twoPD.np, LocalSpec twoPD twoA p (M p) (G p) := by
  obtain ⟨n, s, hr, hf⟩ := exists_final (decompose_matched (P := twoPD)) (fun p => (twoA p, none))
  obtain ⟨M, G, -, h, -⟩ := decompose_correct twoPD_WF twoA (fun p _ => ⟨twoA_wf p, rfl, rfl⟩) hr hf
  exact ⟨M, G, h⟩

/-- **C82** does not hold for two processes, none of them idle: the blocks are not filtered, so that a shared unknown is smoothed before the right hand side has been
gathered. For the operator `2` and the right hand side `1`, whose value is kept by process 1, every run returns `x = 0` for all inverses, with either local
smoother; block Gauss-Seidel with the block `[0]` gives `1/2`. -/
theorem hybridBS_refuted : ∃ (M : ℕ → CSR (Blk 1)) (G : ℕ → Option (CSR (Blk 1))), (∀ p < twoPD.np, LocalSpec twoPD twoA p (M p) (G p)) ∧
    (∀ (inv : Inverter 1) (color : List (List ℕ) → ℕ × List ℕ) (_ : ColoringOK color) (bs2 parallel : Bool),
      ∃ S : ℕ → HBS 1, (∀ p < twoPD.np, mkHBS inv color (M p) (fblocks twoPD p false false [[0]]) bs2 parallel none = some (S p)) ∧
        (∃ n s, Reach twoPD.np (smoothImpl twoPD M G (bsKernels S false) false 1 false false true true true) twoV n s ∧
          Final twoPD.np (smoothImpl twoPD M G (bsKernels S false) false 1 false false true true true) s) ∧
        ∀ n s, Reach twoPD.np (smoothImpl twoPD M G (bsKernels S false) false 1 false false true true true) twoV n s →
          Final twoPD.np (smoothImpl twoPD M G (bsKernels S false) false 1 false false true true true) s → ∀ p < twoPD.np, (s.vec p).x 0 0 = 0) ∧
    ∀ bs2 parallel ord, GroupOrder twoPD twoA (fun _ M => M⁻¹) (fun _ => none) (fun _ => [[0]]) false bs2 parallel ord →
      bsX twoPD twoA ord false false 1 0 1 0 0 = 1 / 2 := by
  obtain ⟨M, G, hMG⟩ := two_split
  refine ⟨M, G, hMG, fun inv color hcol bs2 parallel => ?_, fun bs2 parallel ord ho => ?_⟩
  · have key : ∀ p, ∃ (S : HBS 1) (ord : ℕ → List (BBlock 1)), p < twoPD.np →
        mkHBS inv color (M p) [[[0]], [], []] bs2 parallel none = some S ∧ OrdOK inv (M p) none [[[0]], [], []] bs2 parallel ord ∧
          ∀ st bw, StageEq S (M p) false ord st bw := by
      intro p
      by_cases hp : p < twoPD.np
      · have hs := hMG p hp
        obtain ⟨S, ord, h⟩ := mkHBS_ok hs.wfM (symm_M twoA_symm hs) inv color hcol [[[0]], [], []] (by
          rw [hs.dimM.1]; simp [twoPD]) bs2 parallel false none (Or.inl rfl)
        exact ⟨S, ord, fun _ => h⟩
      · exact ⟨.one [], fun _ => [], fun h => absurd h hp⟩
    choose S ord hSO using key
    refine ⟨S, fun p hp => (hSO p hp).1, exists_final (matched_smooth twoPD_WF false 1 false false true true true) twoV, fun n s hr hf p hp => ?_⟩
    rw [(final_state (matched_smooth twoPD_WF false 1 false false true true true) hr hf).1 p hp]
    -- the kernels
    have hb0 : ∀ q < 2, (bufferG twoPD q (twoV q).b).1 0 = 0 := by
      intro q hq
      have e0 : twoPD.exProcs 0 = [1] := by decide
      have e1 : twoPD.exProcs 1 = [0] := by decide
      have g0 : twoPD.gEx 0 1 = [] := by decide
      have g1 : twoPD.gEx 1 0 = [0] := by decide
      interval_cases q
      · funext c; simp [bufferG, e0, g0, twoV]
      · funext c; simp [bufferG, e1, g1]
    have h1 : ∀ q < 2, ∀ b : BVec 1, b 0 = 0 → (bsKernels S false q).rhs .loc1 false true 0 b = 0 := by
      intro q hq b hb
      show ((S q).rhs false .loc1 false 0 b).getD 0 = 0
      rw [((hSO q hq).2.2 .loc1 false).rhs]
      show (ord q 0).foldl (stepRHS (M q) b) 0 = 0
      refine foldl_zero _ _ _ fun B hB d hd => ?_
      have := ((hSO q hq).2.1 0 [[0]] rfl).1.mem_iff.1 hB
      rw [codeBlocks, List.map_singleton, List.mem_singleton] at this
      subst this
      have : d ∈ [0] := hd
      rw [List.mem_singleton.1 this, hb]
    have hnil : ∀ q < 2, ord q 1 = [] ∧ ord q 2 = [] := fun q hq =>
      ⟨List.perm_nil.1 ((hSO q hq).2.1 1 [] rfl).1, List.perm_nil.1 ((hSO q hq).2.1 2 [] rfl).1⟩
    have h2 : ∀ q < 2, ∀ st, st ≠ .loc1 → ∀ x b : BVec 1, (bsKernels S false q).rhs st false true x b = x := by
      intro q hq st hst x b
      show ((S q).rhs false st false x b).getD x = x
      rw [((hSO q hq).2.2 st false).rhs]
      cases st
      · exact absurd rfl hst
      · show (ord q 1).foldl (stepRHS (M q) b) x = x
        rw [(hnil q hq).1]; rfl
      · show (ord q 2).foldl (stepRHS (M q) b) x = x
        rw [(hnil q hq).2]; rfl
    -- the phases
    have hx1 : ∀ q < 2, (runPhase (d2cPhase twoPD (bsKernels S false) .b false true 1) twoV q).x = 0 := by
      intro q hq
      show (bsKernels S false q).rhs .ex false true ((bsKernels S false q).rhs .loc1 false true 0 (bufferG twoPD q (twoV q).b).1) _ = 0
      rw [h2 q hq .ex (by simp), h1 q hq _ (hb0 q hq)]
    set w := runPhase (d2cPhase twoPD (bsKernels S false) .b false true 1) twoV with hw
    show (runPhase (co2cuPhase twoPD (bsKernels S false) .b false true 1) w p).x 0 0 = 0
    have hx2 : (runPhase (co2cuPhase twoPD (bsKernels S false) .b false true 1) w p).x =
        applyG twoPD p 0 (fun q => if gComm twoPD p q then bufferM twoPD q (w q).x p else default) := by
      show applyG twoPD p ((bsKernels S false p).rhs .loc2 false true (w p).x _) _ = _
      rw [h2 p hp .loc2 (by simp), hx1 p hp]; rfl
    rw [hx2]
    have e0 : twoPD.exProcs 0 = [1] := by decide
    have e1 : twoPD.exProcs 1 = [0] := by decide
    have g0 : twoPD.gEx 0 1 = [] := by decide
    have g1 : twoPD.gEx 1 0 = [0] := by decide
    have m0 : twoPD.mEx 0 1 = [0] := by decide
    have hp' : p < 2 := hp
    interval_cases p
    · simp [applyG, e0, g0]
    · simp [applyG, e1, g1, gComm, bufferM, m0, hx1 0 (by omega)]
  · have g : stageGroup twoPD 0 false [[0]] 0 = [] ∧ stageGroup twoPD 0 false [[0]] 1 = [[0]] ∧ stageGroup twoPD 0 false [[0]] 2 = [] := by decide +kernel
    have o0 : ord 0 0 = [] := by
      have := (ho 0 (by decide) 0 (by decide)).1
      rw [g.1] at this; exact List.perm_nil.1 this
    have o2 : ord 0 2 = [] := by
      have := (ho 0 (by decide) 2 (by decide)).1
      rw [g.2.2] at this; exact List.perm_nil.1 this
    have o1 : ord 0 1 = [⟨[0], fun _ _ => (2 : ℝ)⁻¹⟩] := by
      have := (ho 0 (by decide) 1 (by decide)).1
      rw [g.2.1, List.map_singleton, inv_block (P := twoPD) (p := 0) (i := 0) (a := 2) twoA_gop] at this
      exact List.perm_singleton.1 this
    have how : twoPD.owner 0 = 0 := by decide
    have hl : twoPD.loc 0 0 = 0 := by decide
    rw [bsX]
    have hall : allBlocks (ord 0) false false 1 = [⟨[0], fun _ _ => (2 : ℝ)⁻¹⟩] := by
      simp [allBlocks, rounds, loopList, stageList, p1, p2, Stage.idx, o0, o1, o2]
    simp only [how, hl, Pi.zero_apply, Matrix.mulVec_zero, ite_self, Finset.sum_const_zero, sub_zero, hall]
    rw [blockSweep, List.foldl_cons, List.foldl_nil]
    refine (congrFun (congrFun (blockRow_single _ 0 (2 : ℝ)⁻¹ _ _) 0) 0).trans ?_
    simp [mulBlock]

end NgsAMG.HybSm
