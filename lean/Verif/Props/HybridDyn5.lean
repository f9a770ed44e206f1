import Verif.Props.HybridDyn4

/-! C84, fifth part: positive definite matrices, adjointness, fixed points. -/

namespace NgsAMG.HybDyn
open NgsAMG.DCC NgsAMG.Hybrid NgsAMG.HybSm NgsAMG.DynBlock NgsAMG.GS NgsAMG.Spec NgsAMG.BlkGS Matrix

theorem sum_delta {ι : Type*} [Fintype ι] (S : Finset ℕ) (a : ι → ℕ) (ha : ∀ q, a q ∈ S) (v : ι → ℝ) (w : ℕ → ℝ) :
    ∑ h ∈ S, w h * ∑ q, (if a q = h then v q else 0) = ∑ q, w (a q) * v q := by
  simp only [Finset.mul_sum]
  rw [Finset.sum_comm]
  refine Finset.sum_congr rfl fun q _ => ?_
  rw [Finset.sum_eq_single (a q)]
  · rw [if_pos rfl]
  · intro h _ hne
    rw [if_neg (Ne.symm hne), mul_zero]
  · intro h
    exact absurd (ha q) h

/-- a block of a positive definite matrix stays positive definite if its diagonal is enlarged -/
theorem class_posDef {P : PD} (hP : P.WF) {A : ℕ → CSR (Blk 1)} (hA : GSymm P A) (hpd : ModDiag.PosDef P A) {p : ℕ} (hp : p < P.np) {F : List ℕ} (hn : F.Nodup)
    (hlt : ∀ d ∈ F, d < P.ndof p) (B : ℕ → ℕ → Blk 1) (hB : ∀ i ∈ F, ∀ j ∈ F, i ≠ j → B i j = gop P A (P.glob p i) (P.glob p j))
    (hD : ∀ i ∈ F, ∃ f : ℝ, 1 ≤ f ∧ B i i 0 0 = f * gop P A (P.glob p i) (P.glob p i) 0 0) : (diagBlock B F).PosDef := by
  have hmem : ∀ q : Fin F.length × Fin 1, P.glob p F[q.1] ∈ allDofs P := fun q => glob_mem hp (hlt _ (List.getElem_mem _))
  have hpos := ModDiag.posDef_diag hpd
  have hne : ∀ q r : Fin F.length × Fin 1, q ≠ r → F[q.1] ≠ F[r.1] := by
    intro q r hqr he
    apply hqr
    have h1 : (q.1 : ℕ) = r.1 := (List.Nodup.getElem_inj_iff hn).1 he
    exact Prod.ext (Fin.ext h1) (Subsingleton.elim _ _)
  refine Matrix.PosDef.of_dotProduct_mulVec_pos ?_ ?_
  · rw [IsHermitian, conjTranspose_eq_transpose_of_trivial]
    ext q r
    show B F[r.1] F[q.1] r.2 q.2 = B F[q.1] F[r.1] q.2 r.2
    by_cases h : q = r
    · rw [h]
    · rw [hB F[r.1] (List.getElem_mem _) F[q.1] (List.getElem_mem _) (Ne.symm (hne q r h)), hB F[q.1] (List.getElem_mem _) F[r.1] (List.getElem_mem _) (hne q r h), hA]
      rfl
  · intro v hv
    let e : ℕ → Fin 1 → ℝ := fun g _ => ∑ q : Fin F.length × Fin 1, if P.glob p F[q.1] = g then v q else 0
    have h1 : 0 < genergy P A e := by
      apply hpd
      obtain ⟨q, hq⟩ := Function.ne_iff.1 hv
      refine ⟨P.glob p F[q.1], hmem q, fun h => hq ?_⟩
      have h0 := congrFun h 0
      show v q = 0
      rw [← show e (P.glob p F[q.1]) 0 = 0 from h0]
      show v q = ∑ r : Fin F.length × Fin 1, if P.glob p F[r.1] = P.glob p F[q.1] then v r else 0
      rw [Finset.sum_eq_single q]
      · rw [if_pos rfl]
      · intro r _ hr
        rw [if_neg]
        intro he
        exact hne r q hr (hP.inj p hp _ (hlt _ (List.getElem_mem _)) _ (hlt _ (List.getElem_mem _)) he)
      · intro h; exact absurd (Finset.mem_univ _) h
    have h2 : genergy P A e = ∑ q : Fin F.length × Fin 1, (∑ r : Fin F.length × Fin 1, gop P A (P.glob p F[q.1]) (P.glob p F[r.1]) 0 0 * v r) * v q := by
      have hg : ∀ g, (gmul P A e g) 0 = ∑ r : Fin F.length × Fin 1, gop P A g (P.glob p F[r.1]) 0 0 * v r := by
        intro g
        rw [← sum_delta (allDofs P) (fun r : Fin F.length × Fin 1 => P.glob p F[r.1]) hmem v (fun h => gop P A g h 0 0), gmul, Finset.sum_apply]
        refine Finset.sum_congr rfl fun h _ => ?_
        simp [Matrix.mulVec, dotProduct, e]
      rw [genergy, gip, ← sum_delta (allDofs P) (fun r : Fin F.length × Fin 1 => P.glob p F[r.1]) hmem v (fun g => ∑ r : Fin F.length × Fin 1, gop P A g (P.glob p F[r.1]) 0 0 * v r)]
      refine Finset.sum_congr rfl fun g _ => ?_
      rw [← hg]
      simp [dotProduct, e]
    refine lt_of_lt_of_le h1 ?_
    rw [h2]
    show _ ≤ ∑ q, star (v q) * ∑ r, B F[q.1] F[r.1] q.2 r.2 * v r
    refine Finset.sum_le_sum fun q _ => ?_
    rw [star_trivial, mul_comm (v q), Finset.sum_mul, Finset.sum_mul]
    refine Finset.sum_le_sum fun r _ => ?_
    by_cases h : q = r
    · subst h
      obtain ⟨f, hf1, hf2⟩ := hD F[q.1] (List.getElem_mem _)
      rw [Subsingleton.elim q.2 0, hf2, mul_assoc, mul_assoc]
      have h3 := hpos _ (hmem q) 0
      nlinarith [mul_self_nonneg (v q), mul_nonneg h3.le (mul_self_nonneg (v q))]
    · rw [hB F[q.1] (List.getElem_mem _) F[r.1] (List.getElem_mem _) (hne q r h), Subsingleton.elim q.2 0, Subsingleton.elim r.2 0]

/-- for positive definite matrices and diagonals from `CalcScalModDiag` all diagonal blocks are invertible -/
theorem detOK_of_posDef {P : PD} (hP : P.WF) {A : ℕ → CSR (Blk 1)} (hA : GSymm P A) (hpd : ModDiag.PosDef P A) {p : ℕ} (hp : p < P.np) {M : CSR (Blk 1)} {G : Option (CSR (Blk 1))}
    (hMG : LocalSpec P A p M G) {md : Option (ℕ → ℝ)} {free : Option (ℕ → Bool)}
    (hmd : ∀ d < P.ndof p, P.owner (P.glob p d) = p → inSubset free d = true → ∃ f : ℝ, 1 ≤ f ∧ mdE (toScal M) md d d = f * gop P A (P.glob p d) (P.glob p d) 0 0) :
    DetOK (toScal M) md (maf P p free) := by
  intro i _ _ _
  have hn : (classOf (toScal M) (freeB (maf P p free)) i).Nodup := List.Nodup.filter _ List.nodup_range
  have hF : ∀ d ∈ classOf (toScal M) (freeB (maf P p free)) i, mast P p d ∧ inSubset free d = true := by
    intro d hd
    obtain ⟨h1, h2⟩ := List.mem_filter.1 hd
    rw [List.mem_range, show (toScal M).height = M.height from rfl, hMG.dimM.1] at h1
    simp only [Bool.and_eq_true, freeB, maf, Option.map_some, Option.getD_some] at h2
    exact ⟨⟨h1, (isMaster_iff hp h1).1 h2.1.1⟩, h2.1.2⟩
  refine (Matrix.isUnit_iff_isUnit_det _).1 (class_posDef hP hA hpd hp hn (fun d hd => (hF d hd).1.1) _ ?_ ?_).isUnit
  · intro a ha b hb hab
    have h1 := hMG.entryM a (hF a ha).1.1 b (hF b hb).1.1
    rw [if_pos ⟨(hF a ha).1.2, (hF b hb).1.2⟩] at h1
    rw [← h1]
    ext c d
    rw [denseMd_apply, Subsingleton.elim c 0, Subsingleton.elim d 0, ← toScal_entry]
    cases md with
    | none => rfl
    | some x => rw [mdE, if_neg hab]
  · intro a ha
    obtain ⟨f, h1, h2⟩ := hmd a (hF a ha).1.1 (hF a ha).1.2 (hF a ha).2
    exact ⟨f, h1, by rw [denseMd_apply, h2]⟩

theorem classBlock_symm {P : PD} {A : ℕ → CSR (Blk 1)} (hA : GSymm P A) (md : ℕ → Option (ℕ → ℝ)) (omega : ℝ) (p : ℕ) (F : List ℕ) :
    (classBlock P A md omega p F).2ᵀ = (classBlock P A md omega p F).2 := by
  have key : ∀ B : ℕ → ℕ → Blk 1, (∀ i j, B i j = (B j i)ᵀ) → (diagBlock B F)ᵀ = diagBlock B F := by
    intro B hB
    ext s t
    show B F[t.1] F[s.1] t.2 s.2 = B F[s.1] F[t.1] s.2 t.2
    rw [hB F[s.1] F[t.1]]; rfl
  rw [classBlock]
  show (omega • (diagBlock _ F)⁻¹)ᵀ = omega • (diagBlock _ F)⁻¹
  rw [transpose_smul, Matrix.transpose_nonsing_inv, key]
  intro i j
  cases h : md p with
  | none => exact hA _ _
  | some d =>
    show (if i = j then sc (d i) else _) = (if j = i then sc (d j) else _)ᵀ
    by_cases hij : i = j
    · subst hij
      simp only [if_true]
      ext a b
      rfl
    · rw [if_neg hij, if_neg (Ne.symm hij)]; exact hA _ _

/-- **C84**: with at most one local step, the backward smoother is the adjoint of the forward smoother -/
theorem hybridDyn_adjoint {P : PD} (hP : P.WF) (A : ℕ → CSR (Blk 1)) (hA : GSymm P A) {M : ℕ → CSR (Blk 1)} {G : ℕ → Option (CSR (Blk 1))}
    (hMG : ∀ p < P.np, LocalSpec P A p (M p) (G p)) {md : ℕ → Option (ℕ → ℝ)} {omega : ℝ} {free : ℕ → Option (ℕ → Bool)} {Fs : ℕ → List (List ℕ)} {ord : ℕ → ℕ → List (SBlock 1)}
    (hg : ClassGroups P A (fun p => toScal (M p)) md omega free Fs ord) {nls : ℤ} (hn : nls ≤ 1) (b c : ℕ → Fin 1 → ℝ) :
    gip P (bsX P A ord false false nls 0 b) c = gip P b (bsX P A ord false true nls 0 c) := by
  refine bsX_adjoint hP A hA hMG ord false false true _ (fun p _ => allBlocks_reverse _ hn) ?_ b c
  intro p hp B hB
  obtain ⟨i, hi, hBi⟩ := mem_allBlocks hB
  obtain ⟨F, -, rfl, h⟩ := hg.dofs (fun p hp => (hMG p hp).dimM.1) hp hi hBi
  exact ⟨fun d hd => (h d hd).1, classBlock_symm hA md omega p F⟩

/-- a solution is a fixed point of the hybrid smoothers with blocks -/
theorem bsX_fixed {P : PD} (hP : P.WF) (A : ℕ → CSR (Blk 1)) (ord : ℕ → ℕ → List (SBlock 1)) (hd : ∀ p < P.np, ∀ i < 3, ∀ B ∈ ord p i, ∀ d ∈ B.1, mast P p d) (bw : Bool) (nls : ℤ)
    (x : ℕ → Fin 1 → ℝ) {g : ℕ} (hg : g ∈ allDofs P) : bsX P A ord false bw nls x (gmul P A x) g = x g := by
  obtain ⟨p, hp, d, hd', rfl⟩ := mem_allDofs.1 hg
  have ho := owner_spec hp (shares_glob hd')
  have hop : P.owner (P.glob p d) < P.np := by omega
  have hl := loc_spec ho.1
  set q := P.owner (P.glob p d) with hq
  rw [bsX, ← hq]
  have hrhs : blockSweep (P.ndof q) (blockOp P A q) (allBlocks (ord q) false bw nls) (fun d => x (P.glob q d))
      (fun d => gmul P A x (P.glob q d) - ∑ h ∈ allDofs P, if P.owner (P.glob q d) = P.owner h then 0 else gop P A (P.glob q d) h *ᵥ x h) =
      blockSweep (P.ndof q) (blockOp P A q) (allBlocks (ord q) false bw nls) (fun d => x (P.glob q d)) (mulBlock (P.ndof q) (blockOp P A q) fun d => x (P.glob q d)) := by
    refine blockSweep_rhs _ _ _ _ _ _ ?_
    intro B hB i hi
    obtain ⟨t, ht, hBt⟩ := mem_allBlocks hB
    have hm := hd q hop t ht B hBt i hi
    have h1 : gmul P A x (P.glob q i) - (∑ h ∈ allDofs P, if P.owner (P.glob q i) = P.owner h then 0 else gop P A (P.glob q i) h *ᵥ x h) =
        ∑ h ∈ allDofs P, if P.owner h = q then gop P A (P.glob q i) h *ᵥ x h else 0 := by
      rw [gmul, ← Finset.sum_sub_distrib]
      refine Finset.sum_congr rfl fun h _ => ?_
      rw [hm.2]
      by_cases hh : q = P.owner h
      · rw [if_pos hh, if_pos hh.symm, sub_zero]
      · rw [if_neg hh, if_neg (Ne.symm hh), sub_self]
    rw [h1, sum_owner hP (fun h => gop P A (P.glob q i) h *ᵥ x h) hop, mulBlock]
    refine Finset.sum_congr rfl fun j hj => ?_
    rw [Finset.mem_range] at hj
    rw [blockOp]
    by_cases hj' : P.owner (P.glob q j) = q
    · rw [if_pos hj', if_pos ⟨hm, hj, hj'⟩]
    · rw [if_neg hj', if_neg fun h => hj' h.2.2, zero_mulVec]
  rw [hrhs, blockSweep_fixed]
  exact congrArg x hl.2

end NgsAMG.HybDyn
