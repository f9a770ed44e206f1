import Verif.Model.HybridMatrix
import Verif.Props.HybridGS

/-! C48: the hybrid matrix as an operator. C49: settings of the hybrid smoothers. -/

namespace NgsAMG.HybMat

open NgsAMG.DCC NgsAMG.Hybrid NgsAMG.HybSm NgsAMG.Exch Matrix

variable {k : ℕ}

/-! ### specification -/

/-- the transposed of the global operator represented by process-local matrices, applied to a global vector -/
def gmulT (P : PD) (A : ℕ → CSR (Blk k)) (x : ℕ → Fin k → ℝ) (g : ℕ) : Fin k → ℝ := ∑ h ∈ allDofs P, (gop P A h g)ᵀ *ᵥ x h

/-! ### C48 -/

theorem cumulate_consistent {P : PD} {xDist : Bool} {x : ℕ → BVec k} {xh : ℕ → Fin k → ℝ} (h : Represents P xDist x xh) :
    Consistent P (cumulate P xDist x) xh := by
  intro p hp d hd
  cases xDist with
  | true => exact h _ (glob_mem hp hd)
  | false => exact h p hp d hd

theorem distributeIf_represents {P : PD} (hP : P.WF) {yDist : Bool} {y : ℕ → BVec k} {yh : ℕ → Fin k → ℝ} (h : Represents P yDist y yh) :
    Represents P true (distributeIf P yDist y) yh := by
  cases yDist with
  | true => exact h
  | false => exact distribute_rep hP fun p hp d hm => h p hp d hm.1

theorem spMultAdd_eq (s : ℝ) {B : CSR (Blk k)} (hB : B.WF) (x y : BVec k) : spMultAdd s B x y = y + s • multRow B x := by
  funext i
  rw [spMultAdd]
  split_ifs with h
  · rfl
  · simp [multRow, rowTimesVector, hB.outside i (not_lt.1 h)]

theorem ifG_multAdd (s : ℝ) {G : Option (CSR (Blk k))} (hG : (G.getD emptyM).WF) (x y : BVec k) :
    ifG (spMultAdd s) G x y = y + s • multRow (G.getD emptyM) x := by
  cases G with
  | some G => exact spMultAdd_eq s hG x y
  | none => funext i; simp [ifG, multRow, rowTimesVector, emptyM]

/-- the dense meaning of the transposed product of one process -/
def tmult (B : CSR (Blk k)) (n : ℕ) (x : BVec k) : BVec k := fun j => ∑ i ∈ Finset.range n, (B.entry i j)ᵀ *ᵥ x i

theorem spMultTransAdd_apply (s : ℝ) (B : CSR (Blk k)) (x y : BVec k) (j : ℕ) :
    spMultTransAdd s B x y j = y j + s • tmult B B.height x j := by
  have : ∀ n, (List.range n).foldl (fun y i => addRowTransToVector B i (s • x i) y) y j =
      y j + s • ∑ i ∈ Finset.range n, (B.entry i j)ᵀ *ᵥ x i := by
    intro n
    induction n with
    | zero => simp
    | succ n ih =>
      rw [List.range_succ, List.foldl_append, List.foldl_cons, List.foldl_nil, CSR.addRowTrans_apply, ih,
        Finset.sum_range_succ, smul_add, Matrix.mulVec_smul, add_assoc]
  exact this _

theorem spMultTransAdd_eq (s : ℝ) {B : CSR (Blk k)} (hB : B.WF) {n : ℕ} (hn : B.height ≤ n) (x y : BVec k) :
    spMultTransAdd s B x y = y + s • tmult B n x := by
  funext j
  rw [spMultTransAdd_apply]
  show _ = y j + s • tmult B n x j
  congr 2
  rw [tmult, tmult]
  apply Finset.sum_subset (Finset.range_mono hn)
  intro i _ hi
  rw [Finset.mem_range, not_lt] at hi
  rw [CSR.entry_outside _ hB (Or.inl hi), Matrix.transpose_zero, Matrix.zero_mulVec]

theorem ifG_multTransAdd (s : ℝ) {G : Option (CSR (Blk k))} (hG : (G.getD emptyM).WF) {n : ℕ} (hn : (G.getD emptyM).height ≤ n)
    (x y : BVec k) : ifG (spMultTransAdd s) G x y = y + s • tmult (G.getD emptyM) n x := by
  cases G with
  | some G => exact spMultTransAdd_eq s hG hn x y
  | none => funext i; simp [ifG, tmult, emptyM, CSR.entry]

theorem gsum_smul {P : PD} (s : ℝ) (u : ℕ → BVec k) (g : ℕ) : gsum P (fun p => s • u p) g = s • gsum P u g := by
  simp only [gsum, Finset.smul_sum]
  refine Finset.sum_congr rfl fun p _ => Finset.sum_congr rfl fun d _ => ?_
  split_ifs <;> simp

/-- local transposed products with a consistent vector represent the global transposed product -/
theorem gsum_tmult {P : PD} (B : ℕ → CSR (Blk k)) {x : ℕ → BVec k} {xh : ℕ → Fin k → ℝ} (hx : Consistent P x xh) (g : ℕ) :
    gsum P (fun p => tmult (B p) (P.ndof p) (x p)) g = gmulT P B xh g := by
  have h2 : gmulT P B xh g = ∑ p ∈ Finset.range P.np, ∑ e ∈ Finset.range (P.ndof p), ∑ d ∈ Finset.range (P.ndof p),
      if P.glob p e = g then ((B p).entry d e)ᵀ *ᵥ xh (P.glob p d) else 0 := by
    simp only [gmulT, gop, Matrix.transpose_sum, sum_mulVec']
    rw [Finset.sum_comm]
    apply Finset.sum_congr rfl; intro p hp
    rw [Finset.sum_comm]
    rw [Finset.sum_comm (s := Finset.range (P.ndof p)) (t := Finset.range (P.ndof p))]
    apply Finset.sum_congr rfl; intro d hd
    rw [Finset.sum_comm]
    apply Finset.sum_congr rfl; intro e he
    rw [Finset.mem_range] at hp hd he
    rw [Finset.sum_eq_single (P.glob p d)]
    · by_cases hg : P.glob p e = g <;> simp [hg]
    · intro h _ hne
      rw [if_neg (by rintro ⟨h2, _⟩; exact hne h2.symm), Matrix.transpose_zero, Matrix.zero_mulVec]
    · intro h
      exact absurd (mem_allDofs.2 ⟨p, hp, d, hd, rfl⟩) h
  rw [h2, gsum]
  apply Finset.sum_congr rfl; intro p hp
  apply Finset.sum_congr rfl; intro e he
  rw [Finset.mem_range] at hp
  by_cases hg : P.glob p e = g
  · simp only [hg, if_true]
    rw [tmult]
    apply Finset.sum_congr rfl; intro d hd
    rw [hx p hp d (Finset.mem_range.1 hd)]
  · simp [hg]

theorem gmulT_split {P : PD} (hP : P.WF) {A M : ℕ → CSR (Blk k)} {G : ℕ → Option (CSR (Blk k))}
    (hMG : ∀ p < P.np, LocalSpec P A p (M p) (G p)) (x : ℕ → Fin k → ℝ) (g : ℕ) :
    gmulT P M x g + gmulT P (fun p => (G p).getD emptyM) x g = gmulT P A x g := by
  simp only [gmulT, ← Finset.sum_add_distrib]
  apply Finset.sum_congr rfl; intro h _
  rw [← Matrix.add_mulVec, ← Matrix.transpose_add, gop_split hP A M G hMG]

variable {P : PD} {A M : ℕ → CSR (Blk k)} {G : ℕ → Option (CSR (Blk k))}

/-- **C48.** `MultAdd`: for every number of processes and sharing pattern, matrix, factor and parallel status of the vectors, the
result represents `y + s A x`, where `A` is the global operator that was given. -/
theorem multAdd_correct (hP : P.WF) (hMG : ∀ p < P.np, LocalSpec P A p (M p) (G p)) (s : ℝ) (xDist : Bool) (x : ℕ → BVec k)
    (xh : ℕ → Fin k → ℝ) (hx : Represents P xDist x xh) (yDist : Bool) (y : ℕ → BVec k) (yh : ℕ → Fin k → ℝ)
    (hy : Represents P yDist y yh) :
    Represents P true (multAdd P M G s xDist x yDist y) fun g => yh g + s • gmul P A xh g := by
  intro g hg
  have hc := cumulate_consistent hx
  have e : ∀ p < P.np, ∀ d < P.ndof p, multAdd P M G s xDist x yDist y p d = (distributeIf P yDist y p +
      s • multRow (M p) (cumulate P xDist x p) + s • multRow ((G p).getD emptyM) (cumulate P xDist x p)) d := by
    intro p hp d _
    show ifG (spMultAdd s) (G p) _ (spMultAdd s (M p) _ _) d = _
    rw [ifG_multAdd s (hMG p hp).wfG, spMultAdd_eq s (hMG p hp).wfM]
  rw [gsum_congr e]
  rw [gsum_add (fun p => distributeIf P yDist y p + s • multRow (M p) (cumulate P xDist x p)),
    gsum_add (fun p => distributeIf P yDist y p), gsum_smul, gsum_smul,
    gsum_mult M (fun p hp => ⟨(hMG p hp).wfM, (hMG p hp).dimM.2.le⟩) hc,
    gsum_mult (fun p => (G p).getD emptyM) (fun p hp => ⟨(hMG p hp).wfG, (hMG p hp).dimG.1⟩) hc,
    add_assoc, ← smul_add, gmul_split hP hMG]
  congr 1
  exact distributeIf_represents hP hy g hg

/-- **C48.** `MultTransAdd`: the result represents `y + s A^T x`. -/
theorem multTransAdd_correct (hP : P.WF) (hMG : ∀ p < P.np, LocalSpec P A p (M p) (G p)) (s : ℝ) (xDist : Bool) (x : ℕ → BVec k)
    (xh : ℕ → Fin k → ℝ) (hx : Represents P xDist x xh) (yDist : Bool) (y : ℕ → BVec k) (yh : ℕ → Fin k → ℝ)
    (hy : Represents P yDist y yh) :
    Represents P true (multTransAdd P M G s xDist x yDist y) fun g => yh g + s • gmulT P A xh g := by
  intro g hg
  have hc := cumulate_consistent hx
  have e : ∀ p < P.np, ∀ d < P.ndof p, multTransAdd P M G s xDist x yDist y p d = (distributeIf P yDist y p +
      s • tmult (M p) (P.ndof p) (cumulate P xDist x p) + s • tmult ((G p).getD emptyM) (P.ndof p) (cumulate P xDist x p)) d := by
    intro p hp d _
    show ifG (spMultTransAdd s) (G p) _ (spMultTransAdd s (M p) _ _) d = _
    rw [ifG_multTransAdd s (hMG p hp).wfG (hMG p hp).dimG.2, spMultTransAdd_eq s (hMG p hp).wfM (hMG p hp).dimM.1.le]
  rw [gsum_congr e]
  rw [gsum_add (fun p => distributeIf P yDist y p + s • tmult (M p) (P.ndof p) (cumulate P xDist x p)),
    gsum_add (fun p => distributeIf P yDist y p), gsum_smul, gsum_smul, gsum_tmult M hc,
    gsum_tmult (fun p => (G p).getD emptyM) hc, add_assoc, ← smul_add, gmulT_split hP hMG]
  congr 1
  exact distributeIf_represents hP hy g hg

theorem zero_represents : Represents P true (fun _ => (0 : BVec k)) fun _ => 0 := by
  intro g _
  rw [gsum]
  exact Finset.sum_eq_zero fun p _ => Finset.sum_eq_zero fun d _ => by simp

/-- **C48.** `Mult` and `MultTrans` overwrite the result with `A x` and `A^T x`. -/
theorem mult_correct (hP : P.WF) (hMG : ∀ p < P.np, LocalSpec P A p (M p) (G p)) (xDist : Bool) (x : ℕ → BVec k)
    (xh : ℕ → Fin k → ℝ) (hx : Represents P xDist x xh) :
    Represents P true (mult P M G xDist x) (gmul P A xh) ∧ Represents P true (multTrans P M G xDist x) (gmulT P A xh) := by
  constructor
  · have := multAdd_correct hP hMG 1 xDist x xh hx true (fun _ => 0) (fun _ => 0) zero_represents
    simp only [zero_add, one_smul] at this
    exact this
  · have := multTransAdd_correct hP hMG 1 xDist x xh hx true (fun _ => 0) (fun _ => 0) zero_represents
    simp only [zero_add, one_smul] at this
    exact this

/-- **C48**, end to end: in every schedule in which the constructors of all processes finish, the parts they computed give a matrix
whose products are those of the global operator. -/
theorem constructed_mult (hP : P.WF) (A : ℕ → CSR (Blk k)) (hA : Fits P A) {n : ℕ}
    {s : St (CSR (Blk k) × Option (CSR (Blk k) × Option (CSR (Blk k)))) (Option (Rows (Blk k)))}
    (hr : Reach P.np [decomposePhase P] (fun p => (A p, none)) n s) (hf : Final P.np [decomposePhase P] s) :
    ∃ (M : ℕ → CSR (Blk k)) (G : ℕ → Option (CSR (Blk k))), (∀ p < P.np, (s.vec p).2 = some (M p, G p)) ∧
      ∀ (xDist : Bool) (x : ℕ → BVec k) (xh : ℕ → Fin k → ℝ), Represents P xDist x xh →
        Represents P true (mult P M G xDist x) (gmul P A xh) ∧ Represents P true (multTrans P M G xDist x) (gmulT P A xh) := by
  obtain ⟨M, G, h1, h2, _⟩ := decompose_correct hP A hA hr hf
  exact ⟨M, G, h1, fun xDist x xh hx => mult_correct hP h2 xDist x xh hx⟩

theorem four_apply : (4 : Blk 1) 0 0 = 4 := by
  rw [show (4 : Blk 1) = ((4 : ℕ) : Blk 1) by norm_num, Matrix.natCast_apply]; simp

/-- a concrete case: three processes, a CUMULATED vector of ones -/
example : ∃ (M : ℕ → CSR (Blk 1)) (G : ℕ → Option (CSR (Blk 1))), (∀ p < exPD.np, LocalSpec exPD exS p (M p) (G p)) ∧
    Represents (k := 1) exPD false (fun _ _ _ => 1) (fun _ _ => 1) ∧ 7 ∈ allDofs exPD ∧ gmul exPD exS (fun _ _ => 1) 7 ≠ 0 := by
  obtain ⟨M, G, h⟩ := exS_split
  have h7 : 7 ∈ allDofs exPD := by rw [mem_allDofs]; exact ⟨0, by decide, 2, by decide, by decide⟩
  refine ⟨M, G, h, fun _ _ _ _ => rfl, h7, ?_⟩
  intro h0
  have h1 := congrFun h0 0
  rw [gmul, Finset.sum_apply] at h1
  have hpos : ∀ p h, 0 ≤ ((exS p).entry (exPD.loc p 7) h *ᵥ fun _ => (1 : ℝ)) 0 := by
    intro p h
    rw [exS_entry]
    split_ifs <;> simp [Matrix.mulVec, dotProduct, four_apply]
  have hpos' : ∀ h ∈ allDofs exPD, 0 ≤ (gop exPD exS 7 h *ᵥ fun _ => (1 : ℝ)) 0 := by
    intro h _
    rw [gop_at exPD_WF, sum_mulVec', Finset.sum_apply]
    refine Finset.sum_nonneg fun p _ => ?_
    split_ifs
    · exact hpos p _
    · simp
  have h2 := (Finset.sum_eq_zero_iff_of_nonneg hpos').1 h1 7 h7
  rw [gop_at exPD_WF, sum_mulVec', Finset.sum_apply] at h2
  have h3 := (Finset.sum_eq_zero_iff_of_nonneg (fun p _ => by
    split_ifs
    · exact hpos p _
    · simp)).1 h2 0 (by decide)
  have e1 : exPD.shares 0 7 = true := by decide
  have e2 : exPD.loc 0 7 = 2 := by decide
  rw [if_pos ⟨e1, e1⟩, e2, exS_entry, if_pos (by decide), if_pos rfl] at h3
  simp [Matrix.mulVec, dotProduct, four_apply] at h3

/-! ### C49 -/

/-- **C49**, violated: a hybrid matrix cannot be constructed from a matrix that is not parallel, whatever the matrix is: the
communicator is read from a null pointer. -/
theorem serial_constructor_undefined {E : Type} [Zero E] [Add E] (p : ℕ) (A : CSR E) (recv : ℕ → Option (Rows E)) (nzg : ℕ) :
    hybridMatrix none p A recv nzg = none := rfl

theorem count_loopRows (P : PD) (p H : ℕ) (subset : Option (ℕ → Bool)) (symmLoc bw : Bool) (n i : ℕ) :
    (loopRows P p H subset symmLoc bw n).count i = n * ((stageRows P p H subset symmLoc (p1 bw) bw).count i +
      (stageRows P p H subset symmLoc .ex bw).count i + (stageRows P p H subset symmLoc (p2 bw) bw).count i) := by
  induction n with
  | zero => simp [loopRows]
  | succ n ih => rw [loopRows, List.count_append, List.count_append, List.count_append, ih]; ring

/-- what the setting `numLocSteps` means: the process visits every row `numLocSteps` times as often as with one step (at least once) -/
theorem count_allRows (P : PD) (p H : ℕ) (subset : Option (ℕ → Bool)) (symmLoc bw : Bool) (n : ℤ) (i : ℕ) :
    (allRows P p H subset symmLoc bw n).count i = (max n 1).toNat * (allRows P p H subset symmLoc bw 1).count i := by
  have h0 : loopRows P p H subset symmLoc bw (rounds 1) = [] := rfl
  have hn : (max n 1).toNat = rounds n + 1 := by rw [rounds]; omega
  rw [allRows, allRows, h0, hn]
  simp only [List.count_append, List.append_nil, count_loopRows]
  ring

/-- **C49.** `HybridBS` hands its settings to the right members. -/
theorem hybridBS_settings (overlap inThread : Bool) (n : ℤ) :
    (hybridBS overlap inThread n).numLocSteps = n ∧ (hybridBS overlap inThread n).overlapComm = overlap ∧
      (hybridBS overlap inThread n).commInThread = inThread := ⟨rfl, rfl, rfl⟩

/-- **C49**, violated: `HybridGSSmoother` does the same sweep for every configured number of local steps (that of one step), on every
process, for every matrix and subset; whether it overlaps communication depends on the number of steps instead of on `overlap`. -/
theorem hybridGS_steps_ignored (overlap inThread : Bool) (n : ℤ) (P : PD) (p H : ℕ) (subset : Option (ℕ → Bool)) (symmLoc bw : Bool) :
    allRows P p H subset symmLoc bw (hybridGSSmoother overlap inThread n).numLocSteps = allRows P p H subset symmLoc bw 1 ∧
      ((hybridGSSmoother overlap inThread n).overlapComm = true ↔ n ≠ 0) := by
  constructor
  · cases overlap <;> rfl
  · simp [hybridGSSmoother, hybridSmoother, boolOfInt]

/-- **C49**, violated, for the result of a call: with the settings the constructor makes, whole calls give the same iterate for any two
configured numbers of local steps. -/
theorem hybridGS_result_ignores_steps (overlap inThread : Bool) (n m : ℤ) (P : PD) (A : ℕ → CSR (Blk k)) (inv : Blk k → Blk k)
    (md : ℕ → ℕ → Blk k) (subset : ℕ → Option (ℕ → Bool)) (symmLoc bw : Bool) (xh bh : ℕ → Fin k → ℝ) (g : ℕ) :
    gsX P A inv md subset symmLoc bw (hybridGSSmoother overlap inThread n).numLocSteps xh bh g =
      gsX P A inv md subset symmLoc bw (hybridGSSmoother overlap inThread m).numLocSteps xh bh g := rfl

/-- a concrete case in which the configured number matters: two steps visit a row twice, the smoother visits it once -/
theorem hybridGS_steps_wrong : ∃ (P : PD), P.WF ∧ ∃ i, (allRows P 0 (P.ndof 0) none false false 2).count i = 2 ∧
    (allRows P 0 (P.ndof 0) none false false (hybridGSSmoother true false 2).numLocSteps).count i = 1 := by
  refine ⟨exPD, exPD_WF, 0, ?_, ?_⟩
  · rw [count_allRows]
    decide +kernel
  · decide +kernel

/-- **C49**, violated: `HybridDISmoother` does not overlap communication if and only if it is told not to. -/
theorem hybridDI_overlap_ignored (overlap inThread : Bool) : (hybridDISmoother overlap inThread).overlapComm = true := by
  simp [hybridDISmoother, hybridSmoother, boolOfInt]

/-- **C48.** All processes agree whether the matrix has a part `G` at all: after the collective sum the flag of every process is set iff
NO process has one (so no process skips a communication step another one does). -/
theorem gZero_agrees {E : Type} (P : PD) (M : ℕ → CSR E) (G : ℕ → Option (CSR E)) (p : ℕ) (hp : p < P.np) :
    ∃ gz, setMG (some P) (M p) (G p) (∑ q ∈ (Finset.range P.np).erase p, if (G q).isSome then 1 else 0) = some (M p, G p, gz) ∧
      (gz = true ↔ ∀ q < P.np, G q = none) := by
  refine ⟨_, rfl, ?_⟩
  rw [add_comm, Finset.add_sum_erase (Finset.range P.np) (fun q => if (G q).isSome then 1 else 0) (Finset.mem_range.mpr hp)]
  rw [beq_iff_eq, Finset.sum_eq_zero_iff]
  constructor
  · intro h q hq
    have := h q (Finset.mem_range.mpr hq)
    cases hG : G q with
    | none => rfl
    | some g => rw [hG] at this; simp at this
  · intro h q hq
    rw [h q (Finset.mem_range.mp hq)]
    rfl

/-- non-vacuity: on the example pattern with two processes only one has a part `G` -/
example : (0 : ℕ) < exPD.np := by decide

end NgsAMG.HybMat
