import Verif.Props.CtrMap5

/-! C87, second part: prolongation, restriction and Galerkin projection commute with the swap. -/

namespace NgsAMG.Ctr
open NgsAMG.DCC NgsAMG.HybSm NgsAMG.HybMat Finset NgsAMG.Exch NgsAMG.SparseMM Matrix NgsAMG.Hybrid

variable {C : Ctr} {P Pc Pcc : PD} {k : ℕ}

/-- `Aᵀ x` -/
def transMult (A : CSR (Blk k)) (x : BVec k) : BVec k := fun c => ∑ d ∈ range A.height, (A.entry d c)ᵀ *ᵥ x d

theorem mid_WF {E : Type} [AddCommMonoid E] (h : CtrOK C P Pc) {R : ℕ → CSR E} (hR : ProlOK C Pc Pcc R) (hW : Pcc.WF) : (midPD C P Pcc R).WF := by
  have hs := swapped_ok h hR
  have key : ∀ gi < C.ng, ∀ kp < (C.group gi).length, ∀ d < (midPD C P Pcc R).ndof (C.rank gi kp), ∃ c, (newDmap (R gi) (C.map gi kp))[d]? = some c ∧ c < Pcc.ndof gi ∧
      (midPD C P Pcc R).glob (C.rank gi kp) d = Pcc.glob gi c := by
    intro gi hi kp hk d hd
    have hd' := hd
    rw [(mid_ndof h R hi hk).1] at hd
    refine ⟨_, List.getElem?_eq_getElem hd, (hR.wf gi hi).2.2 ▸ newDmap_lt (List.getElem_mem hd), ?_⟩
    rw [(mid_ndof h R hi hk).2 d, List.getElem?_eq_getElem hd]
    rfl
  have hlt : ∀ gi kp (a b x y : ℕ), (newDmap (R gi) (C.map gi kp))[a]? = some x → (newDmap (R gi) (C.map gi kp))[b]? = some y → (a < b ↔ x < y) := by
    intro gi kp a b x y hx hy
    obtain ⟨ha, rfl⟩ := List.getElem?_eq_some_iff.1 hx
    obtain ⟨hb, rfl⟩ := List.getElem?_eq_some_iff.1 hy
    have hp := List.pairwise_iff_getElem.1 (newDmap_sorted (R gi) (C.map gi kp))
    constructor
    · exact hp a b ha hb
    · intro hxy
      by_contra hn
      rcases Nat.lt_or_eq_of_le (Nat.not_lt.1 hn) with h1 | h1
      · have := hp b a hb ha h1
        omega
      · subst h1
        omega
  constructor
  · intro p hp d hd e he hg
    obtain ⟨gi, hi, kp, hkp, -, rfl⟩ := h.index (show p < P.np from hp)
    obtain ⟨x, hx, x1, x2⟩ := key gi hi kp hkp d hd
    obtain ⟨y, hy, y1, y2⟩ := key gi hi kp hkp e he
    have := hW.inj gi (hR.np.symm ▸ hi) x x1 y y1 (by rw [← x2, ← y2, hg])
    subst this
    have a1 := hlt gi kp d e x x hx hy
    have a2 := hlt gi kp e d x x hy hx
    omega
  · intro p hp q hq d hd d' hd' e he e' he' h1 h2 hl
    obtain ⟨gi, hi, kp, hkp, -, rfl⟩ := h.index (show p < P.np from hp)
    obtain ⟨gj, hj, kq, hkq, -, rfl⟩ := h.index (show q < P.np from hq)
    obtain ⟨x, hx, x1, x2⟩ := key gi hi kp hkp d hd
    obtain ⟨x', hx', x1', x2'⟩ := key gi hi kp hkp d' hd'
    obtain ⟨y, hy, y1, y2⟩ := key gj hj kq hkq e he
    obtain ⟨y', hy', y1', y2'⟩ := key gj hj kq hkq e' he'
    rw [hlt gj kq e e' y y' hy hy']
    exact hW.mono gi (hR.np.symm ▸ hi) gj (hR.np.symm ▸ hj) x x1 x' x1' y y1 y' y1' (by rw [← x2, ← y2, h1]) (by rw [← x2', ← y2', h2]) ((hlt gi kp d d' x x' hx hx').1 hl)

/-- an entry of the old prolongation from those of the new one -/
theorem entry_split {E : Type} [AddCommMonoid E] {R Q : ℕ → CSR E} (hQ : SwapRes C P R Q) {gi kp : ℕ} (hi : gi < C.ng) (hk : kp < (C.group gi).length) {j r : ℕ}
    (hj : (C.map gi kp)[j]? = some r) (c : ℕ) : (R gi).entry r c =
      ∑ i ∈ range ((C.swapped R).map gi kp).length, if (((C.swapped R).map gi kp)[i]?).getD 0 = c then (Q (C.rank gi kp)).entry j i else 0 := by
  rw [← colSum_mrow (hQ.wf gi hi kp hk).1 (hQ.wf gi hi kp hk).2.2, hQ.row gi hi kp hk j r hj]
  rfl

/-- **C87** (prolongation): contracted vectors brought to all processes and then prolongated by each process are the vectors prolongated by the masters and then brought to all processes. -/
theorem prol_commutes (h : CtrOK C P Pc) {R Q : ℕ → CSR (Blk k)} (hR : ProlOK C Pc Pcc R) (hQ : SwapRes C P R Q) (y : ℕ → BVec k) {v v' : ℕ → VS k}
    (hv : ∀ gi < C.ng, (v (C.master gi)).coarse = multRow (R gi) (y gi)) (hv' : ∀ gi < C.ng, (v' (C.master gi)).coarse = y gi)
    {n n' : ℕ} {s s' : St (VS k) (List (Fin k → ℝ))} (hr : Reach P.np [c2fPhase C P none] v n s) (hf : Final P.np [c2fPhase C P none] s)
    (hr' : Reach P.np [c2fPhase (C.swapped R) (midPD C P Pcc R) none] v' n' s') (hf' : Final P.np [c2fPhase (C.swapped R) (midPD C P Pcc R) none] s') :
    ∀ p < P.np, (s'.vec p).ok = (v' p).ok ∧ ∀ d < P.ndof p, multRow (Q p) (s'.vec p).fine d = (s.vec p).fine d := by
  intro p hp
  obtain ⟨gi, hi, kp, hk, -, rfl⟩ := h.index hp
  have h2 := c2f_spec (swapped_ok h hR) none (show Reach (midPD C P Pcc R).np _ v' n' s' from hr') hf' gi hi kp hk
  refine ⟨h2.1, fun d hd => ?_⟩
  have h1 := (c2f_spec h none hr hf gi hi kp hk).2 d hd
  dsimp only at h1
  rw [h1, hv gi hi, multRow, multRow]
  obtain ⟨e1, -⟩ := h.mapAt hi hk hd
  have h2' : ∀ j < ((C.swapped R).map gi kp).length, (s'.vec (C.rank gi kp)).fine j = y gi ((((C.swapped R).map gi kp)[j]?).getD 0) := by
    intro j hj
    rw [swapped_map] at hj
    refine (h2.2 j ?_).trans ?_
    · show j < (midPD C P Pcc R).ndof (C.rank gi kp)
      rw [(mid_ndof h R hi hk).1]
      exact hj
    · dsimp only
      show (v' (C.master gi)).coarse _ = _
      rw [hv' gi hi]
  rw [rowTimesVector, rowTimesVector, ← hQ.row gi hi kp hk d _ e1, mrow, List.foldl_map]
  refine List.foldl_ext _ _ _ fun z e he => ?_
  have hlt : e.1 < ((C.swapped R).map gi kp).length := by
    rw [← (hQ.wf gi hi kp hk).2.2]
    exact (hQ.wf gi hi kp hk).1.inRange d e he
  rw [h2' e.1 hlt]

/-- **C87** (restriction): restricting on every process and then collecting at the masters gives what restricting at the masters after collecting gives. -/
theorem restr_commutes (h : CtrOK C P Pc) {R Q : ℕ → CSR (Blk k)} (hR : ProlOK C Pc Pcc R) (hQ : SwapRes C P R Q) (x : ℕ → BVec k) {arr arr' : ℕ → List ℕ}
    (ha : ∀ gi < C.ng, (arr (C.master gi)).Perm (C.active gi)) (ha' : ∀ gi < C.ng, (arr' (C.master gi)).Perm ((C.swapped R).active gi))
    {n n' : ℕ} {s s' : St (VS k) (List (Fin k → ℝ))} (hr : Reach P.np [addF2CPhase C P 1 arr] (fun p => ⟨x p, 0, true⟩) n s) (hf : Final P.np [addF2CPhase C P 1 arr] s)
    (hr' : Reach P.np [addF2CPhase (C.swapped R) (midPD C P Pcc R) 1 arr'] (fun p => ⟨transMult (Q p) (x p), 0, true⟩) n' s')
    (hf' : Final P.np [addF2CPhase (C.swapped R) (midPD C P Pcc R) 1 arr'] s') :
    (∀ p < P.np, (s'.vec p).ok = true) ∧ ∀ gi < C.ng, ∀ c, (s'.vec (C.master gi)).coarse c = transMult (R gi) (s.vec (C.master gi)).coarse c := by
  have hs' := f2c_spec (swapped_ok h hR) 1 ha' (show Reach (midPD C P Pcc R).np _ _ n' s' from hr') hf'
  have hs := f2c_spec h 1 ha hr hf
  refine ⟨fun p hp => (hs'.1 p hp).1, fun gi hi c => ?_⟩
  refine (hs'.2 gi hi c).trans ?_
  dsimp only
  rw [Pi.zero_apply, zero_add, transMult]
  have e1 : ∀ r, (s.vec (C.master gi)).coarse r = ∑ kp ∈ range (C.group gi).length, ∑ j ∈ range (C.map gi kp).length, if ((C.map gi kp)[j]?).getD 0 = r then x (C.rank gi kp) j else 0 := by
    intro r
    rw [hs.2 gi hi r]
    dsimp only
    rw [Pi.zero_apply, zero_add]
    simp only [one_smul]
  simp only [e1, one_smul]
  have e2 : ∀ r, ((R gi).entry r c)ᵀ *ᵥ (∑ kp ∈ range (C.group gi).length, ∑ j ∈ range (C.map gi kp).length, if ((C.map gi kp)[j]?).getD 0 = r then x (C.rank gi kp) j else 0) =
      ∑ kp ∈ range (C.group gi).length, ∑ j ∈ range (C.map gi kp).length, if ((C.map gi kp)[j]?).getD 0 = r then ((R gi).entry r c)ᵀ *ᵥ x (C.rank gi kp) j else 0 := by
    intro r
    rw [Matrix.mulVec_sum]
    refine sum_congr rfl fun kp _ => ?_
    rw [Matrix.mulVec_sum]
    refine sum_congr rfl fun j _ => ?_
    split
    · rfl
    · exact Matrix.mulVec_zero _
  simp only [e2]
  rw [sum_comm]
  refine sum_congr rfl fun kp hkp => ?_
  have hkp' : kp < (C.group gi).length := mem_range.1 hkp
  have hsz := h.size gi hi kp _ (h.rank_mem hkp').2
  rw [sum_comm, hsz]
  have e3 : ∀ j ∈ range (P.ndof (C.rank gi kp)), (∑ r ∈ range (R gi).height, if ((C.map gi kp)[j]?).getD 0 = r then ((R gi).entry r c)ᵀ *ᵥ x (C.rank gi kp) j else 0) =
      ((R gi).entry (((C.map gi kp)[j]?).getD 0) c)ᵀ *ᵥ x (C.rank gi kp) j := by
    intro j hj
    obtain ⟨-, b1, -⟩ := h.mapAt hi hkp' (mem_range.1 hj)
    rw [sum_ite_eq, if_pos (by rw [mem_range, (hR.wf gi hi).2.1]; exact b1)]
  rw [sum_congr rfl e3]
  have e4 : ∀ j ∈ range (P.ndof (C.rank gi kp)), ((R gi).entry (((C.map gi kp)[j]?).getD 0) c)ᵀ *ᵥ x (C.rank gi kp) j =
      ∑ i ∈ range ((C.swapped R).map gi kp).length, if (((C.swapped R).map gi kp)[i]?).getD 0 = c then ((Q (C.rank gi kp)).entry j i)ᵀ *ᵥ x (C.rank gi kp) j else 0 := by
    intro j hj
    obtain ⟨a1, -⟩ := h.mapAt hi hkp' (mem_range.1 hj)
    rw [entry_split hQ hi hkp' a1, Matrix.transpose_sum, Matrix.sum_mulVec]
    refine sum_congr rfl fun i _ => ?_
    split
    · rfl
    · rw [Matrix.transpose_zero, Matrix.zero_mulVec]
  rw [sum_congr rfl e4, sum_comm]
  refine sum_congr rfl fun i _ => ?_
  split
  · show transMult (Q (C.rank gi kp)) (x (C.rank gi kp)) i = _
    rw [transMult, (hQ.wf gi hi kp hkp').2.1]
  · simp

/-- the Galerkin projection of one process -/
def galerkin (Q A : CSR (Blk k)) (i j : ℕ) : Blk k := ∑ a ∈ range Q.height, ∑ b ∈ range Q.height, (Q.entry a i)ᵀ * A.entry a b * Q.entry b j

/-- **C87** (matrix): the Galerkin projections of all processes, contracted, are the Galerkin projections of the contracted matrices. -/
theorem galerkin_commutes (hP : P.WF) (hW : Pcc.WF) (h : CtrOK C P Pc) {R Q A A' : ℕ → CSR (Blk k)} (hR : ProlOK C Pc Pcc R) (hQ : SwapRes C P R Q)
    (hA : ∀ p < P.np, (A p).WF ∧ (A p).height = P.ndof p ∧ (A p).width = P.ndof p)
    (hA' : ∀ p < P.np, (A' p).WF ∧ (A' p).height = (Q p).width ∧ (A' p).width = (Q p).width ∧ ∀ i < (Q p).width, ∀ j < (Q p).width, (A' p).entry i j = galerkin (Q p) (A p) i j)
    (hn : ∀ gi < C.ng, ∀ c < Pc.ndof gi, 2 * c ≤ MergeArrays.intMax) (hn' : ∀ gi < C.ng, ∀ c < Pcc.ndof gi, 2 * c ≤ MergeArrays.intMax)
    {sortI : SortI} (hs : SortIOK sortI) (mjunk mjunk' : ℕ → ℕ → ℕ → ℕ × ℕ) (junk junk' : ℕ → ℕ → ℕ → Blk k) {n n' : ℕ} {s s' : St (CSR (Blk k) × Option (CSR (Blk k))) (CSR (Blk k))}
    (hr : Reach P.np [assemblePhase C Pc sortI mjunk junk] (fun p => (A p, none)) n s) (hf : Final P.np [assemblePhase C Pc sortI mjunk junk] s)
    (hr' : Reach P.np [assemblePhase (C.swapped R) Pcc sortI mjunk' junk'] (fun p => (A' p, none)) n' s') (hf' : Final P.np [assemblePhase (C.swapped R) Pcc sortI mjunk' junk'] s') :
    ∀ gi < C.ng, ∃ B B', (s.vec (C.master gi)).2 = some B ∧ (s'.vec (C.master gi)).2 = some B' ∧ B'.WF ∧ B'.height = Pcc.ndof gi ∧ B'.width = Pcc.ndof gi ∧
      ∀ c c', B'.entry c c' = galerkin (R gi) B c c' := by
  obtain ⟨B, hB1, -, -, -, hB2⟩ := assemble_correct hP h hA hn hs mjunk junk hr hf
  have hQw : ∀ p < P.np, (Q p).width = (midPD C P Pcc R).ndof p := by
    intro p hp
    obtain ⟨gi, hi, kp, hk, -, rfl⟩ := h.index hp
    rw [(hQ.wf gi hi kp hk).2.2, swapped_map, (mid_ndof h R hi hk).1]
  obtain ⟨B', hB1', -, -, -, hB2'⟩ := assemble_correct (mid_WF h hR hW) (swapped_ok h hR) (A := A')
    (fun p hp => ⟨(hA' p hp).1, (hQw p hp) ▸ (hA' p hp).2.1, (hQw p hp) ▸ (hA' p hp).2.2.1⟩) hn' hs mjunk' junk' (show Reach (midPD C P Pcc R).np _ _ n' s' from hr') hf'
  intro gi hi
  refine ⟨B gi, B' gi, (hB1 gi hi).1, (hB1' gi hi).1, (hB1' gi hi).2.1, (hB1' gi hi).2.2.1, (hB1' gi hi).2.2.2, fun c c' => ?_⟩
  rw [hB2' gi hi, galerkin, (hR.wf gi hi).2.1]
  -- both sides over the members
  have e1 : ∀ r r', ((R gi).entry r c)ᵀ * (B gi).entry r r' * (R gi).entry r' c' = ∑ kp ∈ range (C.group gi).length, ∑ j ∈ range (P.ndof (C.rank gi kp)), ∑ i ∈ range (P.ndof (C.rank gi kp)),
      if ((C.map gi kp)[j]?).getD 0 = r ∧ ((C.map gi kp)[i]?).getD 0 = r' then ((R gi).entry r c)ᵀ * (A (C.rank gi kp)).entry j i * (R gi).entry r' c' else 0 := by
    intro r r'
    rw [hB2 gi hi, Finset.mul_sum, Finset.sum_mul]
    refine sum_congr rfl fun kp _ => ?_
    rw [Finset.mul_sum, Finset.sum_mul]
    refine sum_congr rfl fun j _ => ?_
    rw [Finset.mul_sum, Finset.sum_mul]
    refine sum_congr rfl fun i _ => ?_
    split <;> simp
  simp only [e1]
  have e2 : ∀ r, ∑ r' ∈ range (Pc.ndof gi), ∑ kp ∈ range (C.group gi).length, ∑ j ∈ range (P.ndof (C.rank gi kp)), ∑ i ∈ range (P.ndof (C.rank gi kp)),
      (if ((C.map gi kp)[j]?).getD 0 = r ∧ ((C.map gi kp)[i]?).getD 0 = r' then ((R gi).entry r c)ᵀ * (A (C.rank gi kp)).entry j i * (R gi).entry r' c' else 0) =
      ∑ kp ∈ range (C.group gi).length, ∑ j ∈ range (P.ndof (C.rank gi kp)), ∑ i ∈ range (P.ndof (C.rank gi kp)), ∑ r' ∈ range (Pc.ndof gi),
      (if ((C.map gi kp)[j]?).getD 0 = r ∧ ((C.map gi kp)[i]?).getD 0 = r' then ((R gi).entry r c)ᵀ * (A (C.rank gi kp)).entry j i * (R gi).entry r' c' else 0) := by
    intro r
    rw [sum_comm]
    refine sum_congr rfl fun kp _ => ?_
    rw [sum_comm]
    refine sum_congr rfl fun j _ => ?_
    rw [sum_comm]
  simp only [e2]
  rw [sum_comm (s := range (Pc.ndof gi))]
  refine sum_congr rfl fun kp hkp => ?_
  have hk : kp < (C.group gi).length := mem_range.1 hkp
  rw [sum_comm (s := range (Pc.ndof gi))]
  have e3 : ∀ j ∈ range (P.ndof (C.rank gi kp)), (∑ r ∈ range (Pc.ndof gi), ∑ i ∈ range (P.ndof (C.rank gi kp)), ∑ r' ∈ range (Pc.ndof gi),
      (if ((C.map gi kp)[j]?).getD 0 = r ∧ ((C.map gi kp)[i]?).getD 0 = r' then ((R gi).entry r c)ᵀ * (A (C.rank gi kp)).entry j i * (R gi).entry r' c' else 0)) =
      ∑ i ∈ range (P.ndof (C.rank gi kp)), ((R gi).entry (((C.map gi kp)[j]?).getD 0) c)ᵀ * (A (C.rank gi kp)).entry j i * (R gi).entry (((C.map gi kp)[i]?).getD 0) c' := by
    intro j hj
    obtain ⟨-, b1, -⟩ := h.mapAt hi hk (mem_range.1 hj)
    rw [sum_comm]
    refine sum_congr rfl fun i hi' => ?_
    obtain ⟨-, b2, -⟩ := h.mapAt hi hk (mem_range.1 hi')
    rw [sum_eq_single (((C.map gi kp)[j]?).getD 0), sum_eq_single (((C.map gi kp)[i]?).getD 0)]
    · simp
    · intro r' _ hne
      simp [Ne.symm hne]
    · intro hne
      exact absurd (mem_range.2 b2) hne
    · intro r _ hne
      exact sum_eq_zero fun r' _ => by simp [Ne.symm hne]
    · intro hne
      exact absurd (mem_range.2 b1) hne
  rw [sum_congr rfl e3]
  show ∑ j ∈ range ((midPD C P Pcc R).ndof (C.rank gi kp)), ∑ i ∈ range ((midPD C P Pcc R).ndof (C.rank gi kp)),
    (if (((C.swapped R).map gi kp)[j]?).getD 0 = c ∧ (((C.swapped R).map gi kp)[i]?).getD 0 = c' then (A' (C.rank gi kp)).entry j i else 0) = _
  have hlt := h.rank_lt hi hk
  have hlen : ((C.swapped R).map gi kp).length = (midPD C P Pcc R).ndof (C.rank gi kp) := by rw [swapped_map, (mid_ndof h R hi hk).1]
  have e4 : ∀ j ∈ range ((midPD C P Pcc R).ndof (C.rank gi kp)), ∀ i ∈ range ((midPD C P Pcc R).ndof (C.rank gi kp)),
      (if (((C.swapped R).map gi kp)[j]?).getD 0 = c ∧ (((C.swapped R).map gi kp)[i]?).getD 0 = c' then (A' (C.rank gi kp)).entry j i else 0) =
      ∑ a ∈ range (P.ndof (C.rank gi kp)), ∑ b ∈ range (P.ndof (C.rank gi kp)), (if (((C.swapped R).map gi kp)[j]?).getD 0 = c then (Q (C.rank gi kp)).entry a j else 0)ᵀ *
        (A (C.rank gi kp)).entry a b * (if (((C.swapped R).map gi kp)[i]?).getD 0 = c' then (Q (C.rank gi kp)).entry b i else 0) := by
    intro j hj i hi'
    rw [mem_range, ← hQw _ hlt] at hj hi'
    rw [(hA' _ hlt).2.2.2 j hj i hi', galerkin, (hQ.wf gi hi kp hk).2.1]
    by_cases h1 : (((C.swapped R).map gi kp)[j]?).getD 0 = c
    · by_cases h2 : (((C.swapped R).map gi kp)[i]?).getD 0 = c'
      · rw [if_pos ⟨h1, h2⟩]
        simp only [if_pos h1, if_pos h2]
      · rw [if_neg (fun hh => h2 hh.2)]
        simp only [if_neg h2]
        simp
    · rw [if_neg (fun hh => h1 hh.1)]
      simp only [if_neg h1]
      simp
  rw [sum_congr rfl fun j hj => sum_congr rfl (e4 j hj)]
  have e5 : ∀ a ∈ range (P.ndof (C.rank gi kp)), ∀ b ∈ range (P.ndof (C.rank gi kp)),
      ((R gi).entry (((C.map gi kp)[a]?).getD 0) c)ᵀ * (A (C.rank gi kp)).entry a b * (R gi).entry (((C.map gi kp)[b]?).getD 0) c' =
      ∑ j ∈ range ((midPD C P Pcc R).ndof (C.rank gi kp)), ∑ i ∈ range ((midPD C P Pcc R).ndof (C.rank gi kp)), (if (((C.swapped R).map gi kp)[j]?).getD 0 = c then (Q (C.rank gi kp)).entry a j else 0)ᵀ *
        (A (C.rank gi kp)).entry a b * (if (((C.swapped R).map gi kp)[i]?).getD 0 = c' then (Q (C.rank gi kp)).entry b i else 0) := by
    intro a ha b hb
    obtain ⟨a1, -⟩ := h.mapAt hi hk (mem_range.1 ha)
    obtain ⟨b1, -⟩ := h.mapAt hi hk (mem_range.1 hb)
    rw [entry_split hQ hi hk a1, entry_split hQ hi hk b1, hlen, Matrix.transpose_sum, Finset.sum_mul, Finset.sum_mul]
    refine sum_congr rfl fun j _ => ?_
    rw [Finset.mul_sum]
  rw [sum_congr rfl fun a ha => sum_congr rfl (e5 a ha)]
  -- exchange the sums
  have e6 : ∀ (F : ℕ → ℕ → ℕ → ℕ → Blk k) (m l : ℕ), ∑ j ∈ range m, ∑ i ∈ range m, ∑ a ∈ range l, ∑ b ∈ range l, F j i a b = ∑ a ∈ range l, ∑ b ∈ range l, ∑ j ∈ range m, ∑ i ∈ range m, F j i a b := by
    intro F m l
    have : ∀ j, ∑ i ∈ range m, ∑ a ∈ range l, ∑ b ∈ range l, F j i a b = ∑ a ∈ range l, ∑ b ∈ range l, ∑ i ∈ range m, F j i a b := by
      intro j
      rw [sum_comm]
      refine sum_congr rfl fun a _ => ?_
      rw [sum_comm]
    simp only [this]
    rw [sum_comm]
    refine sum_congr rfl fun a _ => ?_
    rw [sum_comm]
  exact e6 _ _ _

end NgsAMG.Ctr
