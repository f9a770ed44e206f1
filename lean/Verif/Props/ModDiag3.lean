import Verif.Props.ModDiag2

/-! C52: a concrete scalar case, and a concrete case with blocks in which the energy of the error increases. -/

namespace NgsAMG.ModDiag

open NgsAMG.DCC NgsAMG.Hybrid NgsAMG.Exch NgsAMG.GS NgsAMG.HybSm NgsAMG.Spec Matrix

variable {k : ℕ} {P : PD}

/-- the energy is the sum of the energies of the process-local matrices -/
theorem genergy_local (A : ℕ → CSR (Blk k)) (e : ℕ → Fin k → ℝ) : genergy P A e =
    ∑ p ∈ Finset.range P.np, ∑ d ∈ Finset.range (P.ndof p), ∑ c ∈ Finset.range (P.ndof p),
      e (P.glob p d) ⬝ᵥ (A p).entry d c *ᵥ e (P.glob p c) := by
  have h1 : genergy P A e = ∑ g ∈ allDofs P, ∑ h ∈ allDofs P, ∑ p ∈ Finset.range P.np, ∑ d ∈ Finset.range (P.ndof p),
      ∑ c ∈ Finset.range (P.ndof p), if P.glob p d = g then (if P.glob p c = h then
        e (P.glob p d) ⬝ᵥ (A p).entry d c *ᵥ e (P.glob p c) else 0) else 0 := by
    rw [genergy, gip]
    apply Finset.sum_congr rfl; intro g _
    rw [gmul, dotProduct_comm, dotProduct_sum]
    apply Finset.sum_congr rfl; intro h _
    rw [gop, sum_mulVec', dotProduct_sum]
    apply Finset.sum_congr rfl; intro p _
    rw [sum_mulVec', dotProduct_sum]
    apply Finset.sum_congr rfl; intro d _
    rw [sum_mulVec', dotProduct_sum]
    apply Finset.sum_congr rfl; intro c _
    by_cases h1 : P.glob p d = g
    · by_cases h2 : P.glob p c = h
      · simp [h1, h2]
      · simp [h2]
    · simp [h1]
  have h2 : ∀ g, (∑ h ∈ allDofs P, ∑ p ∈ Finset.range P.np, ∑ d ∈ Finset.range (P.ndof p),
      ∑ c ∈ Finset.range (P.ndof p), if P.glob p d = g then (if P.glob p c = h then
        e (P.glob p d) ⬝ᵥ (A p).entry d c *ᵥ e (P.glob p c) else 0) else 0) =
      ∑ p ∈ Finset.range P.np, ∑ d ∈ Finset.range (P.ndof p), ∑ c ∈ Finset.range (P.ndof p), if P.glob p d = g then
        e (P.glob p d) ⬝ᵥ (A p).entry d c *ᵥ e (P.glob p c) else 0 := by
    intro g
    rw [Finset.sum_comm]
    apply Finset.sum_congr rfl; intro p hp
    rw [Finset.sum_comm]
    apply Finset.sum_congr rfl; intro d _
    rw [Finset.sum_comm]
    apply Finset.sum_congr rfl; intro c hc
    by_cases h1 : P.glob p d = g
    · simp only [if_pos h1]
      rw [Finset.sum_ite_eq, if_pos (glob_mem (Finset.mem_range.1 hp) (Finset.mem_range.1 hc))]
    · simp only [if_neg h1, Finset.sum_const_zero]
  rw [h1]
  simp only [h2]
  rw [Finset.sum_comm]
  apply Finset.sum_congr rfl; intro p hp
  rw [Finset.sum_comm]
  apply Finset.sum_congr rfl; intro d hd
  rw [Finset.sum_comm]
  apply Finset.sum_congr rfl; intro c _
  rw [Finset.sum_ite_eq, if_pos (glob_mem (Finset.mem_range.1 hp) (Finset.mem_range.1 hd))]

theorem four_apply : (4 : Blk 1) 0 0 = 4 := by
  have : (4 : Blk 1) = ((4 : ℕ) : Blk 1) := by norm_cast
  rw [this, Matrix.natCast_apply]; simp

/-- the three processes of `exS` have a positive definite matrix -/
theorem exS_posDef : PosDef exPD exS := by
  rintro e ⟨g, hg, hne⟩
  have hloc : ∀ p, (∑ d ∈ Finset.range (exPD.ndof p), ∑ c ∈ Finset.range (exPD.ndof p),
      e (exPD.glob p d) ⬝ᵥ (exS p).entry d c *ᵥ e (exPD.glob p c)) =
      3 * (e (exPD.glob p 0) 0 ^ 2 + e (exPD.glob p 1) 0 ^ 2 + e (exPD.glob p 2) 0 ^ 2) +
        (e (exPD.glob p 0) 0 + e (exPD.glob p 1) 0 + e (exPD.glob p 2) 0) ^ 2 := by
    intro p
    show (∑ d ∈ Finset.range 3, ∑ c ∈ Finset.range 3, _) = _
    simp only [Finset.sum_range_succ, Finset.sum_range_zero, exS_entry]
    simp [dotProduct, Matrix.mulVec, four_apply]
    ring
  rw [genergy_local]
  simp only [hloc]
  obtain ⟨p, hp, d, hd, rfl⟩ := mem_allDofs.1 hg
  refine Finset.sum_pos' (fun q _ => by positivity) ⟨p, Finset.mem_range.2 hp, ?_⟩
  have h0 : e (exPD.glob p d) 0 ≠ 0 := fun h => hne (by funext l; rw [Subsingleton.elim l 0, h]; rfl)
  have hd' : d < 3 := hd
  interval_cases d <;> positivity

/-- the hypotheses of `hybridGS_energy_scalar` are met: matrices split by the code, a complete run of `calcModDiag` -/
example : ∃ (M : ℕ → CSR (Blk 1)) (G : ℕ → Option (CSR (Blk 1))) (n : ℕ) (s : St (Vars 1) (Msg 1)) (md : ℕ → ℕ → Blk 1),
    GSymm exPD exS ∧ PosDef exPD exS ∧ (∀ p < exPD.np, LocalSpec exPD exS p (M p) (G p)) ∧
    Reach exPD.np (calcModDiag exPD G fun _ => none) (start M) n s ∧ Final exPD.np (calcModDiag exPD G fun _ => none) s ∧
    ∀ p < exPD.np, usedDiag exPD M p (s.vec p) = some (md p) := by
  obtain ⟨M, G, h⟩ := exS_split
  obtain ⟨n, s, hr, hf⟩ := exists_final (matched_calcModDiag (P := exPD) G fun _ => none) (start M)
  have := calcModDiag_correct exPD_WF h (fun _ => none) (fun _ => true) (fun _ _ _ _ => rfl) hr hf
  choose! md hmd _ using this
  exact ⟨M, G, n, s, md, exS_symm, exS_posDef, h, hr, hf, hmd⟩

/-! ### blocks -/

/-- three processes, the last one has all three DOFs, the others one each; each DOF has another master -/
def blkPD : PD where
  np := 3
  ndof p := if p = 2 then 3 else 1
  glob p d := if p = 2 then d else p

theorem blkPD_WF : blkPD.WF where
  inj := by decide
  mono := by
    intro p hp q hq d hd d' hd' e he e' he' h h' hlt
    simp only [blkPD] at *
    split_ifs at * <;> omega

/-- diagonal blocks `[[1, 1/2], [1/2, 1]]` -/
noncomputable def blkD : Blk 2 := !![1, 1/2; 1/2, 1]
/-- off-diagonal blocks -/
noncomputable def blkC : Blk 2 := !![1/5, -1/5; -1/5, 1/5]

/-- the process matrices: only the last process has entries -/
noncomputable def blkA (p : ℕ) : CSR (Blk 2) := if p = 2 then
    ⟨3, 3, fun i => if i < 3 then [(0, if i = 0 then blkD else blkC), (1, if i = 1 then blkD else blkC), (2, if i = 2 then blkD else blkC)] else []⟩
  else ⟨1, 1, fun _ => []⟩

theorem blkA_fits : Fits blkPD blkA := by
  intro p hp
  by_cases h : p = 2
  · subst h
    refine ⟨⟨?_, ?_, ?_⟩, rfl, rfl⟩
    · intro i
      by_cases hi : i < 3 <;> simp [blkA, hi]
    · intro i e he
      by_cases hi : i < 3
      · simp only [blkA, hi, if_true, List.mem_cons, List.not_mem_nil, or_false] at he
        rcases he with rfl | rfl | rfl <;> simp [blkA]
      · simp [blkA, hi] at he
    · intro i hi
      have : ¬ i < 3 := by simpa [blkA] using hi
      simp [blkA, this]
  · refine ⟨⟨?_, ?_, ?_⟩, by simp [blkA, blkPD, h], by simp [blkA, blkPD, h]⟩ <;> simp [blkA, h]

theorem blk_gop (g h : ℕ) (hg : g < 3) (hh : h < 3) : gop blkPD blkA g h = if g = h then blkD else blkC := by
  interval_cases g <;> interval_cases h <;>
    simp [gop, blkPD, Finset.sum_range_succ, blkA, CSR.entry]

theorem blk_gop_out (g h : ℕ) (h' : ¬ (g < 3 ∧ h < 3)) : gop blkPD blkA g h = 0 := by
  have lt : ∀ p < 3, ∀ d < blkPD.ndof p, blkPD.glob p d < 3 := by decide
  rw [gop]
  refine Finset.sum_eq_zero fun p hp => Finset.sum_eq_zero fun d hd => Finset.sum_eq_zero fun e he => if_neg ?_
  rw [Finset.mem_range] at hp hd he
  rintro ⟨rfl, rfl⟩
  exact h' ⟨lt p hp d hd, lt p hp e he⟩

theorem blk_symm : GSymm blkPD blkA := by
  intro g h
  by_cases h' : g < 3 ∧ h < 3
  · rw [blk_gop g h h'.1 h'.2, blk_gop h g h'.2 h'.1]
    have tD : blkDᵀ = blkD := by ext i j; fin_cases i <;> fin_cases j <;> rfl
    have tC : blkCᵀ = blkC := by ext i j; fin_cases i <;> fin_cases j <;> rfl
    by_cases e : g = h
    · rw [if_pos e, if_pos e.symm, tD]
    · rw [if_neg e, if_neg (Ne.symm e), tC]
  · rw [blk_gop_out g h h', blk_gop_out h g (fun h2 => h' ⟨h2.2, h2.1⟩), Matrix.transpose_zero]

theorem blk_energy (e : ℕ → Fin 2 → ℝ) : genergy blkPD blkA e =
    3 / 4 * ((e 0 0 + e 0 1) ^ 2 + (e 1 0 + e 1 1) ^ 2 + (e 2 0 + e 2 1) ^ 2) +
    1 / 20 * ((e 0 0 - e 0 1) ^ 2 + (e 1 0 - e 1 1) ^ 2 + (e 2 0 - e 2 1) ^ 2) +
    1 / 5 * ((e 0 0 - e 0 1) + (e 1 0 - e 1 1) + (e 2 0 - e 2 1)) ^ 2 := by
  rw [genergy_local]
  simp [blkPD, Finset.sum_range_succ, blkA, CSR.entry, blkD, blkC, dotProduct, Matrix.mulVec, Fin.sum_univ_two]
  ring

theorem blk_allDofs : allDofs blkPD = {0, 1, 2} := by decide

theorem blk_posDef : PosDef blkPD blkA := by
  rintro e ⟨g, hg, hne⟩
  rw [blk_energy]
  rw [blk_allDofs] at hg
  have h2 : e g 0 + e g 1 ≠ 0 ∨ e g 0 - e g 1 ≠ 0 := by
    by_contra hc
    push Not at hc
    apply hne
    funext l
    fin_cases l
    · show e g 0 = 0; linarith
    · show e g 1 = 0; linarith
  simp only [Finset.mem_insert, Finset.mem_singleton] at hg
  rcases hg with rfl | rfl | rfl <;> rcases h2 with h | h <;> positivity

theorem blk_strength (g : ℕ) (hg : g < 3) (l : Fin 2) : strength blkPD blkA g l = 4 / 5 := by
  have o0 : blkPD.owner 0 = 0 := by decide
  have o1 : blkPD.owner 1 = 1 := by decide
  have o2 : blkPD.owner 2 = 2 := by decide
  have hd : ∀ g < 3, ∀ l : Fin 2, gop blkPD blkA g g l l = 1 := by
    intro g hg l
    rw [blk_gop g g hg hg, if_pos rfl]
    fin_cases l <;> simp [blkD]
  have n0 : blkPD.np = 3 := rfl
  have n1 : blkPD.ndof 0 = 1 := rfl
  have n2 : blkPD.ndof 1 = 1 := rfl
  have n3 : blkPD.ndof 2 = 3 := rfl
  have g0 : ∀ d, blkPD.glob 0 d = 0 := fun _ => rfl
  have g1 : ∀ d, blkPD.glob 1 d = 1 := fun _ => rfl
  have g2 : ∀ d, blkPD.glob 2 d = d := fun _ => rfl
  rw [strength]
  interval_cases g <;> fin_cases l <;>
    simp [n0, n1, n2, n3, g0, g1, g2, Finset.sum_range_succ, blkA, CSR.entry, Fin.sum_univ_two, o0, o1, o2, hd 0, hd 1, hd 2, blkC] <;> norm_num

theorem blkD_inv : blkD⁻¹ = !![4 / 3, -2 / 3; -2 / 3, 4 / 3] := by
  apply Matrix.inv_eq_right_inv
  ext i j
  fin_cases i <;> fin_cases j <;> simp [blkD, Matrix.mul_apply, Fin.sum_univ_two] <;> norm_num

/-- **C52**, violated for blocks: three processes with a symmetric positive definite matrix of `2 x 2` blocks, split by the code, the
diagonals computed by the code in a complete run: for all settings of the constructor one call multiplies the energy of the error
by more than two, forward and backward. -/
theorem hybridGS_energy_blocks_wrong : ∃ (P : PD) (A M : ℕ → CSR (Blk 2)) (G : ℕ → Option (CSR (Blk 2))) (n : ℕ)
    (s : St (Vars 2) (Msg 2)) (md : ℕ → ℕ → Blk 2) (xs : ℕ → Fin 2 → ℝ), P.WF ∧ GSymm P A ∧ PosDef P A ∧
    (∀ p < P.np, LocalSpec P A p (M p) (G p)) ∧
    Reach P.np (calcModDiag P G fun _ => none) (start M) n s ∧ Final P.np (calcModDiag P G fun _ => none) s ∧
    (∀ p < P.np, usedDiag P M p (s.vec p) = some (md p)) ∧
    ∀ (overlap inThread : Bool) (nsteps : ℤ) (bw : Bool),
      2 * genergy P A (xs - 0) < genergy P A (xs - gsX P A (·⁻¹) md (fun _ => none) false bw
        (HybMat.hybridGSSmoother overlap inThread nsteps).numLocSteps 0 (gmul P A xs)) := by
  obtain ⟨n0, s0, hr0, hf0⟩ := exists_final (decompose_matched (P := blkPD)) (fun p => (blkA p, none))
  obtain ⟨M, G, -, hMG, -⟩ := decompose_correct blkPD_WF blkA blkA_fits hr0 hf0
  obtain ⟨n, s, hr, hf⟩ := exists_final (matched_calcModDiag (P := blkPD) G fun _ => none) (start M)
  have hc := calcModDiag_correct blkPD_WF hMG (fun _ => none) (fun _ => true) (fun _ _ _ _ => rfl) hr hf
  choose! md hmd1 hmd2 using hc
  refine ⟨blkPD, blkA, M, G, n, s, md, fun _ => ![1, -1], blkPD_WF, blk_symm, blk_posDef, hMG, hr, hf, hmd1, ?_⟩
  intro overlap inThread nsteps bw
  set nls := (HybMat.hybridGSSmoother overlap inThread nsteps).numLocSteps with hnls
  have hn : rounds nls = 0 := by have := gs_numLocSteps overlap inThread nsteps; rw [rounds]; omega
  have hfac : ∀ p < 3, ∀ d < blkPD.ndof p, blkPD.owner (blkPD.glob p d) = p → md p d = blkD := by
    intro p hp d hd ho
    have hg3 : blkPD.glob p d < 3 := (by decide : ∀ p < 3, ∀ d < blkPD.ndof p, blkPD.glob p d < 3) p hp d hd
    obtain ⟨f, h1, h2⟩ := hmd2 p hp d hd ho rfl
    have hf1 : f = 1 := by
      rcases h1.2.2 with h | ⟨l, h⟩
      · exact h
      · rw [blk_strength _ hg3] at h
        have := h1.1
        norm_num at h
        rw [h] at this
        norm_num at this
    rw [h2, hf1, one_smul, blk_gop _ _ hg3 hg3, if_pos rfl]
  have hmulv : ∀ g < 3, gmul blkPD blkA (fun _ => ![1, -1]) g = ![13 / 10, -13 / 10] := by
    intro g hg
    rw [gmul, blk_allDofs, Finset.sum_insert (by decide), Finset.sum_insert (by decide), Finset.sum_singleton,
      blk_gop g 0 hg (by omega), blk_gop g 1 hg (by omega), blk_gop g 2 hg (by omega)]
    interval_cases g <;> funext l <;> fin_cases l <;>
      simp [blkD, blkC] <;> norm_num
  have hX : ∀ g < 3, gsX blkPD blkA (·⁻¹) md (fun _ => none) false bw nls 0 (gmul blkPD blkA fun _ => ![1, -1]) g = ![13 / 5, -13 / 5] := by
    intro g hg
    have ho : blkPD.owner g = g := by interval_cases g <;> decide
    have hrows : allRows blkPD g (blkPD.ndof g) none false bw nls = [blkPD.loc g g] := by
      have : allRows blkPD g (blkPD.ndof g) none false bw 1 = [blkPD.loc g g] := by
        interval_cases g <;> cases bw <;> decide +kernel
      rw [← this, allRows, allRows, hn]; rfl
    have hgl : blkPD.glob g (blkPD.loc g g) = g := by interval_cases g <;> decide
    have hll : blkPD.loc g g < blkPD.ndof g := by interval_cases g <;> decide
    rw [gsX]
    simp only [ho, hrows, Pi.zero_apply, Matrix.mulVec_zero, ite_self, Finset.sum_const_zero, sub_zero]
    rw [gsSweep, List.foldl_cons, List.foldl_nil]
    rw [gsRow, if_pos rfl]
    simp only [mulBlock, Matrix.mulVec_zero, Finset.sum_const_zero, sub_zero, zero_add, hgl]
    rw [hfac g hg _ hll (by rw [hgl, ho]), hmulv g hg, blkD_inv]
    funext l; fin_cases l <;> simp [Matrix.mulVec, dotProduct, Fin.sum_univ_two] <;> norm_num
  rw [blk_energy, blk_energy]
  simp only [Pi.sub_apply, hX 0 (by omega), hX 1 (by omega), hX 2 (by omega), Pi.zero_apply]
  simp
  norm_num

end NgsAMG.ModDiag
