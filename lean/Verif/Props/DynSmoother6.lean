import Verif.Props.DynSmoother5

/-! C83: empty rows, examples. -/

namespace NgsAMG.DynBlock
open Matrix NgsAMG.GS NgsAMG.Spec NgsAMG.BlkGS

theorem foldlM_none {σ : Type} (f : σ → ℕ → Option σ) (ks : List ℕ) (k : ℕ) (hk : k ∈ ks) (h : ∀ s, f s k = none) (s : σ) : ks.foldlM f s = none := by
  induction ks generalizing s with
  | nil => cases hk
  | cons a l ih =>
    rw [List.foldlM_cons]
    rcases List.mem_cons.1 hk with rfl | hm
    · rw [h s]
      rfl
    · cases hs : f s a with
      | none => rfl
      | some s' => exact ih hm s'

/-- **C83, excluded case.** Without free dofs, every sweep that keeps a residual multiplies a `0 × 0` matrix with the values of an empty row: the result is undefined as soon as the
matrix has one empty row (sweeps without residual skip such rows) -/
theorem dynSmooth_empty_undefined {inv : SInv} (hinv : Inverts inv) (A : CSR ℝ) (hA : A.WF) (hd : HasDiag A) (rb cb : Blocking) (hc : Consistent A rb cb)
    (order : List ℕ) (ho : SortedBy A rb order) (md : Option (ℕ → ℝ)) (hdet : DetOK A md none) (omega : ℝ) (i : ℕ) (hi : i < A.height) (he : cols A i = []) :
    ∃ D, finalize A rb cb order = some D ∧ ∀ dp0, ∃ S, mkDSm inv D md none omega dp0 = some S ∧ ∀ back x b res xz,
      dsmooth S back x b res true true xz = none ∧ dsmooth S back x b res false true true = none ∧ ∃ x', dsmooth S back x b res false false xz = some (x', res) := by
  obtain ⟨D, hD, hok⟩ := finalize_ok A hA rb cb hc order ho
  refine ⟨D, hD, fun dp0 => ?_⟩
  obtain ⟨S, hS, hSD, hobj⟩ := mkDSm_ok hinv hA hd hok md none hdet omega dp0
  refine ⟨S, hS, ?_⟩
  obtain ⟨blk, hb, hib⟩ := hok.cover i hi
  rw [← hSD] at hb
  obtain ⟨k, hk, hke⟩ := List.getElem_of_mem hb
  have hbl : S.A.blocks[k]? = some blk := by rw [List.getElem?_eq_getElem hk, hke]
  obtain ⟨bit, B, hB, hst, -⟩ := hobj.stored k blk hbl
  have hbok := hobj.blocks blk hb
  have hcols : S.A.scols blk = [] := by
    have := hbok.same i (by rw [hSD]; exact hib)
    rw [he] at this
    exact this.symm
  have hupd : ∀ s, updRes S k s = none := by
    intro s
    rw [updRes, hbl, Option.bind_some, hB, Option.bind_some]
    dsimp only
    rw [if_pos]
    refine .inr (.inl ?_)
    rw [show B.size = 0 from hst.size0 hcols]
    exact fun h => hbok.ne (List.eq_nil_of_length_eq_zero h.symm)
  have hres : ∀ back s, smoothRes S back s = none := by
    intro back s
    refine foldlM_none _ _ k ?_ hupd s
    have hv : visited S k = true := (visited_iff hobj hk).2 (.inl rfl)
    refine List.mem_filter.2 ⟨?_, hv⟩
    cases back
    · exact List.mem_range.2 hk
    · exact List.mem_reverse.2 (List.mem_range.2 hk)
  intro back x b res xz
  refine ⟨?_, ?_, ?_⟩
  · rw [dsmooth, if_pos rfl, if_neg (by simp), hres]
  · rw [dsmooth, if_pos rfl, if_pos (by rfl), if_neg (by simp), hres]
  · obtain ⟨x', h1, -⟩ := itRHS_spec hA hobj (List.range S.A.blocks.length) (fun k hk => List.mem_range.1 hk) back x b
    refine ⟨x', ?_⟩
    rw [dsmooth, if_neg (by simp), smoothRHS, h1]
    rfl

/-! ### examples -/

/-- rows 0, 1 and 3 have the columns 0, 1, 3, row 2 has one entry -/
def exR : CSR ℝ where
  height := 4
  width := 4
  row i := if i = 0 then [(0, 4), (1, 1), (3, 1)] else if i = 1 then [(0, 1), (1, 4), (3, 1)] else if i = 2 then [(2, 3)] else if i = 3 then [(0, 1), (1, 1), (3, 4)] else []

/-- columns of the example -/
def exCols (i : ℕ) : List ℕ := if i = 0 ∨ i = 1 ∨ i = 3 then [0, 1, 3] else if i = 2 then [2] else []

theorem exR_cols (i : ℕ) : cols exR i = exCols i := by
  simp only [cols, exR, exCols]
  split_ifs <;> first | rfl | omega

theorem exR_wf : exR.WF where
  sorted i := by
    show (cols exR i).Pairwise _
    rw [exR_cols, exCols]
    split_ifs <;> simp
  inRange i e he := by
    have : e.1 ∈ cols exR i := List.mem_map_of_mem he
    rw [exR_cols, exCols] at this
    show e.1 < 4
    split_ifs at this <;> simp at this <;> omega
  outside i hi := by
    have hi : 4 ≤ i := hi
    simp only [exR]
    rw [if_neg (by omega), if_neg (by omega), if_neg (by omega), if_neg (by omega)]

theorem exR_entry (i j : ℕ) : exR.entry i j = if i = 2 ∧ j = 2 then 3 else if (i = 0 ∨ i = 1 ∨ i = 3) ∧ (j = 0 ∨ j = 1 ∨ j = 3) then (if i = j then 4 else 1) else 0 := by
  by_cases h : j ∈ cols exR i
  · rw [exR_cols, exCols] at h
    simp only [CSR.entry, exR]
    split_ifs at h with h1 h2
    · rcases h1 with rfl | rfl | rfl <;> simp at h <;> rcases h with rfl | rfl | rfl <;> simp
    · subst h2
      simp at h
      subst h
      simp
    · simp at h
  · rw [entry_notmem exR h]
    rw [exR_cols, exCols] at h
    split_ifs at h with h1 h2
    · have : ¬ (j = 0 ∨ j = 1 ∨ j = 3) := by simpa using h
      rw [if_neg (by omega), if_neg (by tauto)]
    · have : j ≠ 2 := by simpa using h
      rw [if_neg (by omega), if_neg (by omega)]
    · rw [if_neg (by omega), if_neg (by omega)]

theorem exR_symm : SymmR exR := by
  refine ⟨rfl, fun i j => ?_⟩
  rw [exR_entry, exR_entry]
  split_ifs <;> first | rfl | omega

theorem exR_diag : HasDiag exR := by
  intro i hi
  rw [exR_cols, exCols] at hi ⊢
  split_ifs at hi ⊢ with h1 h2
  · rcases h1 with rfl | rfl | rfl <;> simp
  · simp [h2]
  · exact absurd rfl hi

theorem exR_spd : SPD exR.width (dense exR) := by
  rintro u ⟨i, hi, hu⟩
  have hi : i < 4 := hi
  have e : energy exR.width (dense exR) u = 3 * (u 0 0 ^ 2 + u 1 0 ^ 2 + u 3 0 ^ 2) + (u 0 0 + u 1 0 + u 3 0) ^ 2 + 3 * u 2 0 ^ 2 := by
    simp only [energy, ip, mulBlock, show exR.width = 4 from rfl, Finset.sum_range_succ, Finset.sum_range_zero, dense, exR_entry, mulVec, dotProduct, Fin.sum_univ_one, sc,
      Pi.add_apply, zero_add]
    simp
    ring
  rw [e]
  have h0 : u i 0 ≠ 0 := fun h => hu (funext fun c => by rw [Subsingleton.elim c 0]; exact h)
  have hp := sq_pos_of_ne_zero h0
  have hc : i = 0 ∨ i = 1 ∨ i = 2 ∨ i = 3 := by omega
  rcases hc with rfl | rfl | rfl | rfl <;>
    nlinarith [sq_nonneg (u 0 0), sq_nonneg (u 1 0), sq_nonneg (u 2 0), sq_nonneg (u 3 0), sq_nonneg (u 0 0 + u 1 0 + u 3 0)]

theorem exR_pattern : SymPattern exR := by
  intro i j
  rw [exR_cols, exR_cols, exCols, exCols]
  split_ifs <;> simp <;> omega

/-- unknown 1 is fixed -/
def exFree : Option (ℕ → Bool) := some fun i => i ≠ 1

theorem exR_classes : RowClasses exR (freeB exFree) [[2], [0, 3]] := by
  have hcl : ∀ i, colsOf exR i = exCols i := exR_cols
  have hc : ∀ i, classOf exR (freeB exFree) i = (List.range 4).filter fun j => decide (j ≠ 1) && decide (exCols j = exCols i) := by
    intro i
    simp only [classOf, hcl]
    rfl
  refine ⟨?_, ?_, ?_⟩
  · intro F hF
    simp only [List.mem_cons, List.not_mem_nil, or_false] at hF
    rcases hF with rfl | rfl
    · refine ⟨by simp, fun i hi => ?_⟩
      rw [hc, List.mem_singleton.1 hi]
      decide
    · refine ⟨by simp, fun i hi => ?_⟩
      rw [hc]
      rcases List.mem_cons.1 hi with rfl | hi
      · decide
      · rw [List.mem_singleton.1 hi]
        decide
  · intro i
    have : freeB exFree i = true ↔ i ≠ 1 := by simp [freeB, exFree]
    rw [hcl, this, show exR.height = 4 from rfl]
    simp only [List.mem_cons, List.not_mem_nil, or_false, exists_eq_or_imp, exists_eq_left, exCols]
    constructor
    · intro h
      refine ⟨by omega, by omega, ?_⟩
      split_ifs <;> first | omega | simp
    · rintro ⟨h1, h2, -⟩
      omega
  · simp only [List.pairwise_cons, List.mem_singleton, forall_eq, List.not_mem_nil, false_imp_iff, implies_true, List.Pairwise.nil, and_true]
    intro j hj
    rw [hcl, hcl]
    have : j = 0 ∨ j = 3 := by simpa using hj
    rcases this with rfl | rfl <;> left <;> decide

/-- the hypotheses of C83 are met by a matrix with a block of two free unknowns and a fixed one -/
example (b x res : ℕ → ℝ) (inv : SInv) (hinv : Inverts inv) (dp0 : ℕ → ℕ) : ∃ order D S x' res', SortedBy exR (rowBlocking exR) order ∧
    finalize exR (rowBlocking exR) (rowBlocking exR) order = some D ∧ mkDSm inv D none exFree (1 / 2) dp0 = some S ∧ dsmooth S true x b res false true false = some (x', res') ∧
    up1 x' = classSweep exR none (1 / 2) [[2], [0, 3]] true x b ∧ ∀ i < 4, res' i = b i - matVec exR x' i := by
  obtain ⟨order, ho⟩ := sortedBy_exists exR (rowBlocking exR)
  obtain ⟨D, Fs, hD, hcl, h⟩ := dynSmooth_correct_partial hinv exR exR_wf exR_symm exR_diag (rowBlocking exR) (rowBlocking exR) (rowBlocking_consistent exR rfl exR_pattern) order ho
    none exFree (detOK_of_spd exR_wf exR_symm exR_spd _) (1 / 2)
  obtain ⟨S, hS, h⟩ := h dp0
  obtain ⟨x', res', h1, h2, h3, -⟩ := h true x b res false true false ⟨by simp, by simp⟩ (fun h => by cases h)
  refine ⟨order, D, S, x', res', ho, hD, hS, h1, ?_, h3 rfl⟩
  rw [h2, rowClasses_unique hcl exR_classes]

/-- the hypotheses of the energy estimate are met -/
example (x xs : ℕ → ℝ) : energy 4 (dense exR) (up1 xs - classSweep exR none (3 / 2) [[2], [0, 3]] false x (matVec exR xs)) ≤ energy 4 (dense exR) (up1 xs - up1 x) :=
  dynSmooth_energy exR_wf exR_symm exR_spd exR_classes (by norm_num) (by norm_num) false x xs

/-- a matrix with an empty row -/
def exE : CSR ℝ where
  height := 2
  width := 2
  row i := if i = 0 then [(0, 1)] else []

theorem exE_cols (i : ℕ) : cols exE i = if i = 0 then [0] else [] := by
  simp only [cols, exE]
  split_ifs <;> rfl

/-- the excluded case exists -/
example : ∃ (order : List ℕ) (D : Dyn ℝ) (S : DSm), finalize exE (rowBlocking exE) (rowBlocking exE) order = some D ∧
    mkDSm (fun _ M => M⁻¹) D none none 1 (fun _ => 0) = some S ∧ dsmooth S false 0 0 0 true true true = none := by
  have hwf : exE.WF := by
    refine ⟨fun i => ?_, fun i e he => ?_, fun i hi => ?_⟩
    · show (cols exE i).Pairwise _
      rw [exE_cols]
      split_ifs <;> simp
    · have : e.1 ∈ cols exE i := List.mem_map_of_mem he
      rw [exE_cols] at this
      show e.1 < 2
      split_ifs at this <;> simp at this
      omega
    · have hi : 2 ≤ i := hi
      simp only [exE]
      rw [if_neg (by omega)]
  have hpat : SymPattern exE := by
    intro i j
    rw [exE_cols, exE_cols]
    split_ifs <;> simp <;> omega
  have hdg : HasDiag exE := by
    intro i hi
    rw [exE_cols] at hi ⊢
    split_ifs at hi ⊢ with h
    · simp [h]
    · exact absurd rfl hi
  obtain ⟨order, ho⟩ := sortedBy_exists exE (rowBlocking exE)
  have hdet : DetOK exE none none := by
    intro i hi _ hc
    have hi0 : i = 0 := by
      by_contra h0
      refine hc ?_
      show cols exE i = []
      rw [exE_cols, if_neg h0]
    have hcl : classOf exE (freeB none) i = [0] := by
      have hcl' : ∀ j, colsOf exE j = if j = 0 then [0] else [] := exE_cols
      simp only [classOf, hcl']
      subst hi0
      decide
    rw [hcl, Matrix.det_eq_elem_of_subsingleton _ ((0 : Fin 1), (0 : Fin 1))]
    refine isUnit_iff_ne_zero.2 ?_
    show sc (exE.entry 0 0) 0 0 ≠ 0
    simp [sc, CSR.entry, exE]
  obtain ⟨D, hD, h⟩ := dynSmooth_empty_undefined (inv := fun _ M => M⁻¹) (fun _ _ _ => rfl) exE hwf hdg (rowBlocking exE) (rowBlocking exE) (rowBlocking_consistent exE rfl hpat)
    order ho none hdet 1 1 (by show 1 < 2; omega) (by rw [exE_cols, if_neg (by omega)])
  obtain ⟨S, hS, h⟩ := h fun _ => 0
  exact ⟨order, D, S, hD, hS, (h false 0 0 0 true).1⟩

end NgsAMG.DynBlock
