import Verif.Props.AMGPC4
import Mathlib.Tactic.IntervalCases

/-! C92: W cycle with overlapping blocks is not symmetric; concrete cases. -/

namespace NgsAMG.PC
open Matrix Sm NgsAMG.GS NgsAMG.Spec Sweep SparseMM AMG

/-- inverses where there are some, zero otherwise -/
noncomputable def exInv (k : ℕ) : Inverses k where
  inv1 M := open Classical in if M.PosDef then M⁻¹ else 0
  inv _ M := open Classical in if M.PosDef then M⁻¹ else 0

theorem pinv_ex {ι : Type*} [Fintype ι] [DecidableEq ι] (M : Matrix ι ι ℝ) : PInv M (open Classical in if M.PosDef then M⁻¹ else 0) := by
  by_cases h : M.PosDef
  · rw [if_pos h]
    have hdet : IsUnit M.det := (Matrix.isUnit_iff_isUnit_det M).1 h.isUnit
    refine ⟨?_, ?_, fun v => ?_, fun _ => rfl⟩
    · have := h.isHermitian.inv
      rwa [IsHermitian, conjTranspose_eq_transpose_of_trivial] at this
    · rw [Matrix.nonsing_inv_mul _ hdet, one_mul]
    · simpa using h.inv.posSemidef.dotProduct_mulVec_nonneg v
  · rw [if_neg h]
    exact ⟨by simp, by simp, by simp, fun h' => absurd h' h⟩

theorem exInv_ok (k : ℕ) : InvsOK (exInv k) := ⟨fun M _ => pinv_ex M, fun _ M _ => pinv_ex M⟩

/-- prolongation of the constant -/
def exP1 : CSR (Mt 1 1 ℝ) where
  height := 3
  width := 1
  row i := if i < 3 then [(0, sc 1)] else []

theorem exP1_wf : exP1.WF where
  sorted i := by unfold exP1; dsimp only; split_ifs <;> simp
  inRange i e h := by
    unfold exP1 at h ⊢; dsimp only at h ⊢
    split_ifs at h
    · simp at h; simp [h]
    · simp at h
  outside i h := by
    have h' : 3 ≤ i := h
    have : ¬ i < 3 := by omega
    simp [exP1, this]

theorem exP1_entry (i j : ℕ) : exP1.entry i j = if i < 3 ∧ j = 0 then sc 1 else 0 := by
  unfold CSR.entry exP1
  dsimp only
  by_cases hi : i < 3 <;> by_cases hj : j = 0 <;> simp [hi, hj, eq_comm]

/-- two levels: the tridiagonal matrix, blocks `[0,1]` and `[1,2]` or `[0,1]` and `[2]` -/
def exX (blocks : List (List ℕ)) : Input (fun _ => 1) where
  n := 2
  A0 := BlkGS.exM
  P _ := exP1
  free _ := none
  blocks _ := blocks
  crsMap _ := true

theorem exX_ok (blocks : List (List ℕ)) : InOK (exX blocks) (fun l => if l = 0 then 3 else 1) where
  fine := ⟨BlkGS.exM_wf, rfl, rfl, BlkGS.exM_symm.2, fun u => by
    by_cases h : ∃ i < 3, u i ≠ 0
    · exact (BlkGS.exM_spd u h).le
    · push Not at h
      have : energy 3 BlkGS.exM.entry u = 0 := by
        unfold energy ip
        refine Finset.sum_eq_zero fun i hi => ?_
        rw [h i (Finset.mem_range.1 hi), dotProduct_zero]
      exact this.ge⟩
  small l _ := by split_ifs <;> norm_num
  pwf l _ := exP1_wf
  height l hl := by
    have : l = 0 := by have : l + 1 < 2 := hl; omega
    subst this; rfl
  width l hl := by simp [exX, exP1]

/-- options: block Gauss-Seidel -/
def exO (cycle : ℤ) (clevInv : Bool) : Opts where
  smType _ := .bgs
  symm _ := false
  steps _ := 1
  cycle := cycle
  clevInv := clevInv

/-- the coarse solver of the example: the coarse matrix is `2` -/
noncomputable def exC : ∀ l : ℕ, BVec 1 → BVec 1 := fun _ b i _ => if i = 0 then b 0 0 / 2 else 0

theorem exX_coarse (nhash : ℕ → ℕ) (junk mjunk : ℕ → ℕ → ℕ × ℕ) (blocks : List (List ℕ)) (l : ℕ) (A : CSR (Blk 1)) (hl : l + 1 = (exX blocks).n)
    (hA : mats nhash junk mjunk (exX blocks) l = some A) : CoarseSolve (if l = 0 then 3 else 1) A.entry (fun i => isFree ((exX blocks).free l) i = true) (exC l) := by
  have : l = 1 := by have : l + 1 = 2 := hl; omega
  subst this
  obtain ⟨C, hC, -, -, -, hE⟩ := restrictMatrix_correct nhash junk mjunk BlkGS.exM exP1 BlkGS.exM_wf exP1_wf rfl rfl (by show 3 ≤ 2 ^ 30; norm_num) (by show 1 ≤ 2 ^ 30; norm_num)
  have hA' : mats nhash junk mjunk (exX blocks) 1 = some C := hC
  rw [hA] at hA'
  obtain rfl := Option.some.inj hA'
  have h0 : A.entry 0 0 0 0 = 2 := by
    rw [hE]
    rw [show exP1.height = 3 from rfl]
    simp [Finset.sum_range_succ, exP1_entry, BlkGS.exM_entry, sc, Matrix.mul_apply]
    norm_num
  refine ⟨fun u v => ?_, fun s u => ?_, fun r i hi => ?_, fun r i hi _ => ?_⟩
  · funext i c; simp only [exC, Pi.add_apply]; split_ifs <;> ring
  · funext i c; simp only [exC, Pi.smul_apply, smul_eq_mul]; split_ifs <;> ring
  · have : i ≠ 0 := by
      rcases hi with h | h
      · exact absurd rfl h
      · have : (1 : ℕ) ≤ i := h
        omega
    funext c; simp [exC, this]
  · have h1 : i = 0 := by have : i < 1 := hi; omega
    subst h1
    funext c
    have : c = 0 := Subsingleton.elim _ _
    subst this
    show (∑ j ∈ Finset.range 1, A.entry 0 j *ᵥ exC 1 r j) 0 = r 0 0
    simp [mulVec, dotProduct, h0, exC]
    ring

/-- the hypotheses of `pc_spd_partial` hold: W cycle with the blocks `[0,1]`, `[2]` -/
example (nhash : ℕ → ℕ) (junk mjunk : ℕ → ℕ → ℕ × ℕ) : ∃ m, build nhash junk mjunk (fun _ => exInv 1) (exO 1 true) (exX [[0, 1], [2]]) exC = some m ∧
    ∃ M : BVec 1 →ₗ[ℝ] BVec 1, (∀ w b x, (mult m 1 w b x).map Prod.fst = some (M b)) ∧ ∀ b : BVec 1, (∃ j < 3, b j ≠ 0) → 0 < ip 3 b (M b) := by
  obtain ⟨m, hm, M, h1, -, -, -, h5⟩ := pc_spd_partial nhash junk mjunk (fun _ => exInv 1) (exO 1 true) (exX [[0, 1], [2]]) exC (fun l => if l = 0 then 3 else 1) (exX_ok _)
    (le_refl 2) (fun _ _ => exInv_ok 1) (Or.inr (Or.inl rfl))
    (fun l A hl _ => by
      have : l = 0 := by have : l + 1 < 2 := hl; omega
      subst this
      refine Or.inr (Or.inl ⟨rfl, ?_, Or.inr ?_⟩)
      · show ∀ dofs ∈ [[0, 1], [2]], dofs.Nodup ∧ ∀ d ∈ dofs, d < 3
        decide
      · show ∀ j < 3, [[0, 1], [2]].countP (j ∈ ·) = 1
        decide)
    (fun _ l A hl hA => exX_coarse nhash junk mjunk _ l A hl hA)
  refine ⟨m, hm, M, h1, fun b hb => (h5 ?_).1 b ?_⟩
  · intro u _ hu; exact BlkGS.exM_spd u hu
  · obtain ⟨j, hj, hbj⟩ := hb
    refine ⟨j, hj, ?_, hbj⟩
    show ∃ dofs ∈ [[0, 1], [2]], j ∈ dofs
    clear hbj; revert j; decide

/-! ### the W cycle with overlapping blocks -/

/-- W cycle with two levels and without coarse solver -/
theorem w_two {V : ℕ → Type*} [∀ l, AddCommGroup (V l)] [∀ l, Module ℝ (V l)] (m : Mat V) (hn : m.n = 2) (hc : m.hasCrsInv = false) (w : Mem V) (b x : V 0) :
    (mult m 1 w b x).map Prod.fst = some
      (let t1 := m.F 0 0 b b true true true
       let t2 := m.B 0 t1.1 b t1.2 false true false
       let t3 := m.F 0 t2.1 b t2.2 true true false
       (m.B 0 t3.1 b t3.2 false false false).1) := by
  obtain ⟨n, F, B, R, P, hci, ci⟩ := m
  dsimp only at hn hc
  subst hn hc
  simp [mult, smooth, smoothW, smit, wHalf, coarse, getX, getB, putX, putRes, putRhs]

/-- vector with three entries -/
def vec3 (a b c : ℝ) : BVec 1 := fun i _ => if i = 0 then a else if i = 1 then b else if i = 2 then c else 0

theorem exM_mul (a b c : ℝ) : mulBlock 3 BlkGS.exM.entry (vec3 a b c) = vec3 (2 * a - b) (-a + 2 * b - c) (-b + 2 * c) := by
  funext i p
  unfold mulBlock
  by_cases h : i < 3
  · interval_cases i <;> simp [Finset.sum_range_succ, BlkGS.exM_entry, vec3, sc, mulVec, dotProduct] <;> ring
  · have h0 : i ≠ 0 := by omega
    have h1 : i ≠ 1 := by omega
    have h2 : i ≠ 2 := by omega
    simp [BlkGS.exM_entry, vec3, h, h0, h1, h2]

theorem exM_block_inv (i j : ℕ) (h : (i = 0 ∧ j = 1) ∨ (i = 1 ∧ j = 2)) : (exInv 1).inv _ (diagBlock BlkGS.exM.entry [i, j]) = fun p q => if p.1.val = q.1.val then 2 / 3 else 1 / 3 := by
  have hpd : (diagBlock BlkGS.exM.entry [i, j]).PosDef := BlkGS.posDef_block BlkGS.exM BlkGS.exM_wf BlkGS.exM_symm BlkGS.exM_spd
    (by rcases h with ⟨rfl, rfl⟩ | ⟨rfl, rfl⟩ <;> decide) (by show ∀ d ∈ [i, j], d < 3; rcases h with ⟨rfl, rfl⟩ | ⟨rfl, rfl⟩ <;> decide)
  show (open Classical in if (diagBlock BlkGS.exM.entry [i, j]).PosDef then _ else _) = _
  rw [if_pos hpd]
  refine Matrix.inv_eq_right_inv ?_
  rcases h with ⟨rfl, rfl⟩ | ⟨rfl, rfl⟩
  all_goals
    ext ⟨p, c⟩ ⟨q, d⟩
    have hc : c = d := Subsingleton.elim _ _
    subst hc
    refine Matrix.mul_apply.trans ?_
    rw [Fintype.sum_prod_type]
    revert p q
    show ∀ p q : Fin 2, ∑ _ : Fin 2, _ = _
    intro p q
    rw [Fin.sum_univ_two]
    fin_cases p <;> fin_cases q <;> simp [diagBlock, BlkGS.exM_entry, sc, Matrix.one_apply] <;> norm_num

theorem exM_block01 (a b c p q r : ℝ) : blockRow 3 BlkGS.exM.entry [0, 1] (fun p q => if p.1.val = q.1.val then 2 / 3 else 1 / 3) (vec3 p q r) (vec3 a b c) =
    vec3 ((2 * p + q + c) / 3) ((p + 2 * q + 2 * c) / 3) c := by
  funext j d
  have hd : d = 0 := Subsingleton.elim _ _
  subst hd
  unfold blockRow
  rw [exM_mul]
  show _ + ∑ p : Fin 2, _ = _
  rw [Fin.sum_univ_two]
  by_cases h0 : j = 0
  · subst h0; simp [Fintype.sum_prod_type, vec3]; ring
  · by_cases h1 : j = 1
    · subst h1; simp [Fintype.sum_prod_type, vec3]; ring
    · simp [vec3, h0, h1, Ne.symm h0, Ne.symm h1]

theorem exM_block12 (a b c p q r : ℝ) : blockRow 3 BlkGS.exM.entry [1, 2] (fun p q => if p.1.val = q.1.val then 2 / 3 else 1 / 3) (vec3 p q r) (vec3 a b c) =
    vec3 a ((2 * q + 2 * a + r) / 3) ((q + a + 2 * r) / 3) := by
  funext j d
  have hd : d = 0 := Subsingleton.elim _ _
  subst hd
  unfold blockRow
  rw [exM_mul]
  show _ + ∑ p : Fin 2, _ = _
  rw [Fin.sum_univ_two]
  by_cases h1 : j = 1
  · subst h1; simp [Fintype.sum_prod_type, vec3]; ring
  · by_cases h2 : j = 2
    · subst h2; simp [Fintype.sum_prod_type, vec3]; ring
    · simp [vec3, h1, h2, Ne.symm h1, Ne.symm h2]

theorem specBlock_ex (i j : ℕ) (h : (i = 0 ∧ j = 1) ∨ (i = 1 ∧ j = 2)) :
    BlkGS.specBlock (exInv 1).inv BlkGS.exM none [i, j] = ⟨[i, j], fun p q => if p.1.val = q.1.val then 2 / 3 else 1 / 3⟩ := by
  have hs : [i, j].insertionSort (· ≤ ·) = [i, j] := by rcases h with ⟨rfl, rfl⟩ | ⟨rfl, rfl⟩ <;> decide
  unfold BlkGS.specBlock
  rw [hs]
  exact congrArg (Sigma.mk [i, j]) (exM_block_inv i j h)

/-- forward sweep over the two blocks -/
theorem ex_fwd (a b c p q r : ℝ) : blockSweep 3 BlkGS.exM.entry
    (List.replicate 1 (BlkGS.sweepOrder ([[[0, 1], [1, 2]]].flatten.map (BlkGS.specBlock (exInv 1).inv BlkGS.exM none)) false false)).flatten (vec3 a b c) (vec3 p q r) =
    vec3 ((2 * p + q + c) / 3) ((2 * q + 2 * ((2 * p + q + c) / 3) + r) / 3) ((q + (2 * p + q + c) / 3 + 2 * r) / 3) := by
  simp only [List.flatten_cons, List.flatten_nil, List.append_nil, List.map_cons, List.map_nil, specBlock_ex 0 1 (Or.inl ⟨rfl, rfl⟩), specBlock_ex 1 2 (Or.inr ⟨rfl, rfl⟩)]
  simp only [BlkGS.sweepOrder, List.replicate_one, Bool.false_eq_true, if_false, List.append_nil, List.flatten_cons, List.flatten_nil]
  simp only [blockSweep, List.foldl_cons, List.foldl_nil, exM_block01, exM_block12]

/-- backward -/
theorem ex_bwd (a b c p q r : ℝ) : blockSweep 3 BlkGS.exM.entry
    (List.replicate 1 (BlkGS.sweepOrder ([[[0, 1], [1, 2]]].flatten.map (BlkGS.specBlock (exInv 1).inv BlkGS.exM none)) true false)).flatten (vec3 a b c) (vec3 p q r) =
    vec3 ((2 * p + q + (q + a + 2 * r) / 3) / 3) ((p + 2 * q + 2 * ((q + a + 2 * r) / 3)) / 3) ((q + a + 2 * r) / 3) := by
  simp only [List.flatten_cons, List.flatten_nil, List.append_nil, List.map_cons, List.map_nil, specBlock_ex 0 1 (Or.inl ⟨rfl, rfl⟩), specBlock_ex 1 2 (Or.inr ⟨rfl, rfl⟩)]
  simp only [BlkGS.sweepOrder, List.replicate_one, if_true, Bool.false_eq_true, if_false, List.append_nil, List.flatten_cons, List.flatten_nil, List.reverse_cons, List.reverse_nil,
    List.nil_append, List.cons_append]
  simp only [blockSweep, List.foldl_cons, List.foldl_nil, exM_block01, exM_block12]

/-- with a given residual the right hand side is not used -/
theorem smooth2_rhs {k : ℕ} {S : BlkGS.LSm k} (hno : S.no = false) (rev : Bool) (x b b' res : BVec k) (xz : Bool) :
    BlkGS.smooth2 S 1 rev false x b res 0 0 true true xz = BlkGS.smooth2 S 1 rev false x b' res 0 0 true true xz := by
  simp [BlkGS.smooth2, hno, BlkGS.smoothWO]

/-- the residual that is computed if none is given -/
theorem smooth2_resid (inv : BlkGS.Inverter k) (A : CSR (Blk k)) (hA : A.WF) (blocks : List (List ℕ)) (hb : ∀ dofs ∈ blocks, dofs.Nodup)
    {S : BlkGS.LSm k} (hS : BlkGS.mkLSm inv A [blocks] false none = some S) (bw : Bool) (x b res : BVec k) {x' res' : BVec k} {xz : Bool}
    (h : BlkGS.smooth2 S 1 bw false x b res 0 0 false true xz = some (x', res')) :
    res' = fun j => b j - (blocks.countP (j ∈ ·) : ℝ) • mulBlock A.width A.entry x' j := by
  obtain ⟨S', hS', hno, hG, hbl⟩ := BlkGS.mkLSm_grouped inv A [blocks] none
  rw [hS] at hS'
  obtain rfl := Option.some.inj hS'
  rw [BlkGS.smooth2, if_neg (by rw [hno]; simp), BlkGS.smoothWO] at h
  simp only [Bool.false_and, Bool.false_eq_true, if_false, if_true, Option.map_eq_some_iff, Prod.mk.injEq] at h
  obtain ⟨y, _, rfl, rfl⟩ := h
  have hfl : ([blocks] : List (List (List ℕ))).flatten = blocks := by simp
  rw [hfl] at hbl
  have hr : ∀ B ∈ S.blocks, B.Repr A := by
    intro B hB
    rw [hbl] at hB
    obtain ⟨dofs, hd, rfl⟩ := List.mem_map.1 hB
    exact BlkGS.setFrom_repr inv A hA none dofs (hb dofs hd)
  funext j
  rw [BlkGS.multAddSys_apply hr]
  have h7 : S.mult j = blocks.countP (j ∈ ·) := by
    rw [BlkGS.LSm.mult, hbl, List.countP_map]
    refine List.countP_congr fun dofs _ => ?_
    have : j ∈ (BlkGS.setFrom inv A none dofs).dofs ↔ j ∈ dofs := List.mem_insertionSort (r := (· ≤ ·))
    simp [this]
  rw [h7, ← multRow_eq A hA, neg_smul, one_smul, smul_neg, ← sub_eq_add_neg]
  rfl

/-- the W cycle in the example -/
theorem ex_cycle {S : BlkGS.LSm 1} (hS : BlkGS.mkLSm (exInv 1).inv BlkGS.exM [[[0, 1], [1, 2]]] false none = some S) (p q : ℝ) :
    (let F := (Smoother.bgs S).step false
     let B := (Smoother.bgs S).step true
     let b := vec3 p q 0
     let t1 := F 0 b b true true true
     let t2 := B t1.1 b t1.2 false true false
     let t3 := F t2.1 b t2.2 true true false
     (B t3.1 b t3.2 false false false).1) = vec3 ((182 * p + 112 * q) / 243) ((121 * p + 224 * q) / 243) ((60 * p + 93 * q) / 243) := by
  have hno : S.no = false := by
    obtain ⟨S', hS', hno, -⟩ := BlkGS.mkLSm_grouped (exInv 1).inv BlkGS.exM [[[0, 1], [1, 2]]] none
    rw [hS] at hS'
    obtain rfl := Option.some.inj hS'
    exact hno
  have hb : ∀ dofs ∈ [[[0, 1], [1, 2]]].flatten, dofs.Nodup ∧ ∀ d ∈ dofs, d < BlkGS.exM.height := by
    show ∀ dofs ∈ [[0, 1], [1, 2]], dofs.Nodup ∧ ∀ d ∈ dofs, d < 3
    decide
  have key : ∀ (rev : Bool) (x b res : BVec 1) (ru ur xz : Bool), Truthful 3 BlkGS.exM.entry x b res ru xz → ∃ res',
      BlkGS.smooth2 S 1 rev false x b res 0 0 ru ur xz = some (blockSweep 3 BlkGS.exM.entry
        (List.replicate 1 (BlkGS.sweepOrder ([[[0, 1], [1, 2]]].flatten.map (BlkGS.specBlock (exInv 1).inv BlkGS.exM none)) rev false)).flatten x b, res') := by
    intro rev x b res ru ur xz ht
    obtain ⟨S', hS', res', h1, -⟩ := BlkGS.smooth2_correct_partial (exInv 1).inv BlkGS.exM BlkGS.exM_wf BlkGS.exM_symm [[[0, 1], [1, 2]]] none hb 1 rev false x b res 0 0 ru ur xz ht
    rw [hS] at hS'
    obtain rfl := Option.some.inj hS'
    exact ⟨res', h1⟩
  have h0 : (0 : BVec 1) = vec3 0 0 0 := by funext i c; simp [vec3]
  have step : ∀ (back : Bool) (x b res x' res' : BVec 1) (ru ur xz : Bool), BlkGS.smooth2 S 1 back false x b res 0 0 ru ur xz = some (x', res') →
      (Smoother.bgs S).step back x b res ru ur xz = (x', res') := by
    intro back x b res x' res' ru ur xz h
    show (BlkGS.smooth2 S 1 back false x b res 0 0 ru ur xz).getD (x, res) = _
    rw [h]; rfl
  obtain ⟨r1, e1⟩ := key false (vec3 0 0 0) (vec3 p q 0) (vec3 p q 0) true true true
    ⟨fun _ => by rw [exM_mul]; funext i c; simp [vec3], fun _ => h0.symm⟩
  rw [ex_fwd] at e1
  obtain ⟨r2, e2⟩ := key true (vec3 ((2 * p + q + 0) / 3) ((2 * q + 2 * ((2 * p + q + 0) / 3) + 0) / 3) ((q + (2 * p + q + 0) / 3 + 2 * 0) / 3)) (vec3 p q 0) r1 false true false
    ⟨fun h => by simp at h, fun h => by simp at h⟩
  have e2' := smooth2_resid (exInv 1).inv BlkGS.exM BlkGS.exM_wf [[0, 1], [1, 2]] (by decide) hS true _ _ _ e2
  rw [ex_bwd] at e2 e2'
  rw [show BlkGS.exM.width = 3 from rfl, exM_mul] at e2'
  have e2'' : r2 = vec3 0 (-q) ((p + 2 * q) / 27) := by
    rw [e2']
    funext j c
    by_cases h0 : j = 0
    · subst h0
      have : [[0, 1], [1, 2]].countP (0 ∈ ·) = 1 := by decide
      rw [this]; simp [vec3]; ring
    by_cases h1 : j = 1
    · subst h1
      have : [[0, 1], [1, 2]].countP (1 ∈ ·) = 2 := by decide
      rw [this]; simp [vec3]; ring
    by_cases h2 : j = 2
    · subst h2
      have : [[0, 1], [1, 2]].countP (2 ∈ ·) = 1 := by decide
      rw [this]; simp [vec3]; ring
    simp [vec3, h0, h1, h2]
  clear e2'
  subst e2''
  have e2a : vec3 ((2 * p + q + (q + (2 * p + q + 0) / 3 + 2 * 0) / 3) / 3) ((p + 2 * q + 2 * ((q + (2 * p + q + 0) / 3 + 2 * 0) / 3)) / 3) ((q + (2 * p + q + 0) / 3 + 2 * 0) / 3) =
      vec3 ((20 * p + 13 * q) / 27) ((13 * p + 26 * q) / 27) ((2 * p + 4 * q) / 9) := by congr 1 <;> ring
  rw [e2a] at e2
  obtain ⟨r3, e3⟩ := key false (vec3 ((20 * p + 13 * q) / 27) ((13 * p + 26 * q) / 27) ((2 * p + 4 * q) / 9)) (vec3 p 0 0) (vec3 0 (-q) ((p + 2 * q) / 27)) true true false
    ⟨fun _ => by
      rw [exM_mul]
      funext j c
      simp only [vec3, Pi.sub_apply]
      split_ifs <;> ring, fun h => by simp at h⟩
  rw [ex_fwd, smooth2_rhs hno false _ (vec3 p 0 0) (vec3 p q 0)] at e3
  obtain ⟨r4, e4⟩ := key true (vec3 ((2 * p + 0 + (2 * p + 4 * q) / 9) / 3) ((2 * 0 + 2 * ((2 * p + 0 + (2 * p + 4 * q) / 9) / 3) + 0) / 3)
    ((0 + (2 * p + 0 + (2 * p + 4 * q) / 9) / 3 + 2 * 0) / 3)) (vec3 p q 0) r3 false false false ⟨fun h => by simp at h, fun h => by simp at h⟩
  rw [ex_bwd] at e4
  dsimp only
  rw [h0, step _ _ _ _ _ _ _ _ _ e1]
  dsimp only
  rw [step _ _ _ _ _ _ _ _ _ e2]
  dsimp only
  rw [step _ _ _ _ _ _ _ _ _ e3]
  dsimp only
  rw [step _ _ _ _ _ _ _ _ _ e4]
  dsimp only
  congr 1 <;> ring

/-- **C92 (violation).** With the W cycle and overlapping blocks `[0,1]`, `[1,2]` the preconditioner is not symmetric -/
theorem pc_w_refuted (nhash : ℕ → ℕ) (junk mjunk : ℕ → ℕ → ℕ × ℕ) : ∃ m, build nhash junk mjunk (fun _ => exInv 1) (exO 1 false) (exX [[0, 1], [1, 2]]) exC = some m ∧
    ∀ w x, ∃ y z : BVec 1, (mult m 1 w (vec3 1 0 0) x).map Prod.fst = some y ∧ (mult m 1 w (vec3 0 1 0) x).map Prod.fst = some z ∧
      ip 3 y (vec3 0 1 0) = 121 / 243 ∧ ip 3 (vec3 1 0 0) z = 112 / 243 := by
  obtain ⟨m, hm, -⟩ := pc_spd_partial nhash junk mjunk (fun _ => exInv 1) (exO 0 false) (exX [[0, 1], [1, 2]]) exC (fun l => if l = 0 then 3 else 1) (exX_ok _)
    (le_refl 2) (fun _ _ => exInv_ok 1) (Or.inl rfl)
    (fun l A hl _ => by
      have : l = 0 := by have : l + 1 < 2 := hl; omega
      subst this
      refine Or.inr (Or.inl ⟨rfl, ?_, Or.inl rfl⟩)
      show ∀ dofs ∈ [[0, 1], [1, 2]], dofs.Nodup ∧ ∀ d ∈ dofs, d < 3
      decide)
    (fun h => by cases h)
  have hm1 : build nhash junk mjunk (fun _ => exInv 1) (exO 1 false) (exX [[0, 1], [1, 2]]) exC = some m := hm
  refine ⟨m, hm1, ?_⟩
  obtain ⟨S, hS, -⟩ := BlkGS.mkLSm_grouped (exInv 1).inv BlkGS.exM [[[0, 1], [1, 2]]] none
  have hsm : smootherOf nhash junk mjunk (fun _ => exInv 1) (exO 1 false) (exX [[0, 1], [1, 2]]) 0 = some (.bgs S) := by
    show (BlkGS.mkLSm (exInv 1).inv BlkGS.exM [[[0, 1], [1, 2]]] false none).map Smoother.bgs = _
    rw [hS]; rfl
  unfold build at hm1
  split at hm1
  swap
  · cases hm1
  have em := (Option.some.inj hm1).symm
  have eF : m.F 0 = (Smoother.bgs S).step false := by rw [em]; dsimp only; rw [hsm]; rfl
  have eB : m.B 0 = (Smoother.bgs S).step true := by rw [em]; dsimp only; rw [hsm]; rfl
  have en : m.n = 2 := by rw [em]; rfl
  have ec : m.hasCrsInv = false := by rw [em]; rfl
  intro w x
  refine ⟨_, _, w_two m en ec w (vec3 1 0 0) x, w_two m en ec w (vec3 0 1 0) x, ?_, ?_⟩
  · rw [eF, eB]
    have := ex_cycle hS 1 0
    dsimp only at this ⊢
    rw [this]
    simp [ip, Finset.sum_range_succ, vec3, dotProduct]
  · rw [eF, eB]
    have := ex_cycle hS 0 1
    dsimp only at this ⊢
    rw [this]
    simp [ip, Finset.sum_range_succ, vec3, dotProduct]

/-! ### Jacobi with too little damping -/

/-- V cycle with two levels and without coarse solver -/
theorem v_two {V : ℕ → Type*} [∀ l, AddCommGroup (V l)] [∀ l, Module ℝ (V l)] (m : Mat V) (hn : m.n = 2) (hc : m.hasCrsInv = false) (w : Mem V) (b x : V 0) :
    (mult m 0 w b x).map Prod.fst = some
      (let t1 := m.F 0 0 b b true true true
       (m.B 0 t1.1 b t1.2 false false false).1) := by
  obtain ⟨n, F, B, R, P, hci, ci⟩ := m
  dsimp only at hn hc
  subst hn hc
  simp [mult, smooth, smoothV, pre, post, coarse, getX, getB, putX, putRes, putRhs]

/-- symmetric positive definite matrix with diagonal 1 and all other entries 0.9 -/
noncomputable def exJ : CSR (Blk 1) where
  height := 3
  width := 3
  row i := if i = 0 then [(0, sc 1), (1, sc (9 / 10)), (2, sc (9 / 10))] else if i = 1 then [(0, sc (9 / 10)), (1, sc 1), (2, sc (9 / 10))]
    else if i = 2 then [(0, sc (9 / 10)), (1, sc (9 / 10)), (2, sc 1)] else []

theorem exJ_wf : exJ.WF where
  sorted i := by unfold exJ; dsimp only; split_ifs <;> simp
  inRange i e h := by unfold exJ at h ⊢; dsimp only at h ⊢; split_ifs at h <;> simp at h <;> rcases h with h | h | h <;> simp_all
  outside i h := by
    have h' : 3 ≤ i := h
    have a : i ≠ 0 := by omega
    have b : i ≠ 1 := by omega
    have c : i ≠ 2 := by omega
    simp [exJ, a, b, c]

theorem exJ_mul (a b c : ℝ) : exJ.lin (vec3 a b c) = vec3 (a + 9 / 10 * b + 9 / 10 * c) (9 / 10 * a + b + 9 / 10 * c) (9 / 10 * a + 9 / 10 * b + c) := by
  funext i p
  show rowTimesVector exJ i (vec3 a b c) p = _
  by_cases h : i < 3
  · interval_cases i <;> simp [rowTimesVector, exJ, vec3, sc, mulVec, dotProduct]
  · have h0 : i ≠ 0 := by omega
    have h1 : i ≠ 1 := by omega
    have h2 : i ≠ 2 := by omega
    simp [rowTimesVector, exJ, vec3, h0, h1, h2]

theorem exJ_symm : Symm exJ := by
  refine ⟨rfl, fun i j => ?_⟩
  have out : ∀ i j : ℕ, ¬ (i < 3 ∧ j < 3) → exJ.entry i j = 0 := fun i j h => CSR.entry_outside exJ exJ_wf (by
    show 3 ≤ i ∨ 3 ≤ j
    omega)
  by_cases h : i < 3 ∧ j < 3
  · obtain ⟨hi, hj⟩ := h
    interval_cases i <;> interval_cases j <;> (unfold CSR.entry exJ; simp [sc]; try rfl)
  · rw [out i j h, out j i (by omega), transpose_zero]

theorem exJ_energy (u : BVec 1) : energy 3 exJ.entry u = 1 / 10 * (u 0 0 ^ 2 + u 1 0 ^ 2 + u 2 0 ^ 2) + 9 / 10 * (u 0 0 + u 1 0 + u 2 0) ^ 2 := by
  have h : ip 3 (exJ.lin u) u = energy 3 exJ.entry u := (energy_lin exJ exJ_wf u).symm
  rw [← h]
  have e : ∀ i, exJ.lin u i = rowTimesVector exJ i u := fun _ => rfl
  simp only [ip, Finset.sum_range_succ, Finset.sum_range_zero, e]
  simp [rowTimesVector, exJ, sc, mulVec, dotProduct]
  ring

/-- input and options: Jacobi -/
noncomputable def exXJ : Input (fun _ => 1) := { exX [] with A0 := exJ }
def exOJ : Opts := { exO 0 false with smType := fun _ => .jacobi }

/-- **C92 (violation).** The Jacobi smoother has the fixed damping 0.9. For the symmetric positive definite matrix `exJ` the preconditioner is not positive -/
theorem pc_jacobi_refuted (nhash : ℕ → ℕ) (junk mjunk : ℕ → ℕ → ℕ × ℕ) :
    (∀ u : BVec 1, (∃ i < 3, u i ≠ 0) → 0 < energy 3 exJ.entry u) ∧
    ∃ m, build nhash junk mjunk (fun _ => exInv 1) exOJ exXJ exC = some m ∧
      ∀ w x, ∃ y : BVec 1, (mult m 0 w (vec3 1 1 1) x).map Prod.fst = some y ∧ ip 3 (vec3 1 1 1) y < 0 := by
  have hpos : ∀ u : BVec 1, (∃ i < 3, u i ≠ 0) → 0 < energy 3 exJ.entry u := by
    intro u ⟨i, hi, hu⟩
    rw [exJ_energy]
    have h1 : u i 0 ≠ 0 := fun h => hu (by funext c; rw [Subsingleton.elim c 0, h]; rfl)
    have h2 := sq_nonneg (u 0 0 + u 1 0 + u 2 0)
    have h3 : 0 < u 0 0 ^ 2 + u 1 0 ^ 2 + u 2 0 ^ 2 := by
      interval_cases i
      · nlinarith [sq_pos_of_ne_zero h1, sq_nonneg (u 1 0), sq_nonneg (u 2 0)]
      · nlinarith [sq_pos_of_ne_zero h1, sq_nonneg (u 0 0), sq_nonneg (u 2 0)]
      · nlinarith [sq_pos_of_ne_zero h1, sq_nonneg (u 1 0), sq_nonneg (u 0 0)]
    nlinarith
  refine ⟨hpos, ?_⟩
  have hin : InOK exXJ (fun l => if l = 0 then 3 else 1) := by
    have h := exX_ok []
    refine ⟨⟨exJ_wf, rfl, rfl, exJ_symm.2, fun u => ?_⟩, h.small, h.pwf, h.height, h.width⟩
    show 0 ≤ energy 3 exJ.entry u
    rw [exJ_energy]; positivity
  obtain ⟨A1, hA1, -⟩ := mats_ok nhash junk mjunk hin 1 (by show 1 < 2; norm_num)
  have hd : ∀ i < 3, (exInv 1).inv1 (exJ.lookup i i) = sc 1 := by
    intro i hi
    have e : exJ.lookup i i = 1 := by
      interval_cases i <;> (simp [CSR.lookup, exJ]; ext a b; rw [Subsingleton.elim a b]; simp [sc])
    rw [e]
    show (open Classical in if (1 : Blk 1).PosDef then _ else _) = _
    rw [if_pos (Matrix.PosDef.of_dotProduct_mulVec_pos isHermitian_one fun v hv => by
      have h0 : v 0 ≠ 0 := fun h => hv (by funext c; rw [Subsingleton.elim c 0, h]; rfl)
      rw [one_mulVec]
      simpa [dotProduct] using h0), inv_one]
    ext a b; rw [Subsingleton.elim a b]; simp [sc]
  obtain ⟨m, hm⟩ : ∃ m, build nhash junk mjunk (fun _ => exInv 1) exOJ exXJ exC = some m := by
    unfold build
    rw [if_pos]
    · exact ⟨_, rfl⟩
    · have h0 : mats nhash junk mjunk exXJ 0 = some exJ := rfl
      have hs0 : smootherOf nhash junk mjunk (fun _ => exInv 1) exOJ exXJ 0 = some (.jacobi exJ fun i => if isFree none i then (exInv 1).inv1 (exJ.lookup i i) else 0) := rfl
      have hn : exXJ.n = 2 := rfl
      rw [hn]
      simp [List.range_succ, h0, hA1, hs0]
  refine ⟨m, hm, ?_⟩
  unfold build at hm
  split at hm
  swap
  · cases hm
  have em := (Option.some.inj hm).symm
  have hs0 : smootherOf nhash junk mjunk (fun _ => exInv 1) exOJ exXJ 0 = some (.jacobi exJ fun i => if isFree none i then (exInv 1).inv1 (exJ.lookup i i) else 0) := rfl
  have hr : ∀ b : Bool, (if b then m.B 0 else m.F 0) = richardson exJ.lin (diagLin (fun i => if isFree none i then (exInv 1).inv1 (exJ.lookup i i) else 0) 3) 0.9 := by
    intro b
    rw [em]; dsimp only; rw [hs0]
    cases b <;> rfl
  have eF : m.F 0 = _ := hr false
  have eB : m.B 0 = _ := hr true
  have en : m.n = 2 := by rw [em]; rfl
  have ec : m.hasCrsInv = false := by rw [em]; rfl
  intro w x
  refine ⟨_, v_two m en ec w (vec3 1 1 1) x, ?_⟩
  have hdl : ∀ a b c, diagLin (fun i => if isFree none i then (exInv 1).inv1 (exJ.lookup i i) else 0) 3 (vec3 a b c) = vec3 a b c := by
    intro a b c
    funext i p
    show (if i < 3 then (if isFree none i then (exInv 1).inv1 (exJ.lookup i i) else 0) *ᵥ vec3 a b c i else 0) p = _
    by_cases hi : i < 3
    · rw [if_pos hi, if_pos (by rfl), hd i hi]
      have : p = 0 := Subsingleton.elim _ _
      subst this
      simp [sc, mulVec, dotProduct]
    · have h0 : i ≠ 0 := by omega
      have h1 : i ≠ 1 := by omega
      have h2 : i ≠ 2 := by omega
      simp [hi, vec3, h0, h1, h2]
  have hadd : ∀ a b c d e f : ℝ, vec3 a b c + vec3 d e f = vec3 (a + d) (b + e) (c + f) := by
    intro a b c d e f; funext i p; simp only [vec3, Pi.add_apply]; split_ifs <;> simp
  have hsub : ∀ a b c d e f : ℝ, vec3 a b c - vec3 d e f = vec3 (a - d) (b - e) (c - f) := by
    intro a b c d e f; funext i p; simp only [vec3, Pi.sub_apply]; split_ifs <;> simp
  have hsm : ∀ s a b c : ℝ, s • vec3 a b c = vec3 (s * a) (s * b) (s * c) := by
    intro s a b c; funext i p; simp only [vec3, Pi.smul_apply, smul_eq_mul]; split_ifs <;> simp
  have h0 : (0 : BVec 1) = vec3 0 0 0 := by funext i c; simp [vec3]
  dsimp only
  rw [eF, eB, h0]
  simp only [richardson, Bool.not_true, Bool.not_false, Bool.false_and, Bool.and_false, Bool.false_eq_true, if_false, if_true, hdl, hsm, hadd, exJ_mul, hsub]
  simp [ip, Finset.sum_range_succ, vec3, dotProduct]
  norm_num

/-- **C92 (no level is skipped).** If a preconditioner is built, every level but the coarsest has a smoother: if one cannot be set up the construction fails, no level is left without one -/
theorem pc_all_smoothers {k : ℕ → ℕ} (nhash : ℕ → ℕ) (junk mjunk : ℕ → ℕ → ℕ × ℕ) (I : ∀ l, Inverses (k l)) (O : Opts) (X : Input k) (cinv : ∀ l, BVec (k l) → BVec (k l)) {m}
    (h : build nhash junk mjunk I O X cinv = some m) {l : ℕ} (hl : l + 1 < X.n) :
    ∃ A S, mats nhash junk mjunk X l = some A ∧ buildSmoother (I l) (selectSmoother (O.smType l) (X.crsMap l)) ⟨A, X.free l, X.blocks l⟩ = some S ∧
      m.F l = proxied O l S false ∧ m.B l = proxied O l S true := by
  unfold build at h
  split at h
  · rename_i hc
    rw [Bool.and_eq_true, List.all_eq_true, List.all_eq_true] at hc
    have h1 := hc.1 l (List.mem_range.2 (by omega))
    have h2 := hc.2 l (List.mem_range.2 (by omega))
    obtain ⟨A, hA⟩ := Option.isSome_iff_exists.1 h1
    obtain ⟨S, hS⟩ := Option.isSome_iff_exists.1 h2
    obtain rfl := Option.some.inj h
    refine ⟨A, S, hA, ?_, ?_, ?_⟩
    · unfold smootherOf at hS
      rw [hA] at hS
      exact hS
    · dsimp only; rw [hS]; rfl
    · dsimp only; rw [hS]; rfl
  · exact absurd h (by simp)

/-- the hypotheses hold: the preconditioner of `pc_jacobi_refuted` is built, and has a smoother on level 0 -/
example (nhash : ℕ → ℕ) (junk mjunk : ℕ → ℕ → ℕ × ℕ) : ∃ m S, build nhash junk mjunk (fun _ => exInv 1) exOJ exXJ exC = some m ∧
    buildSmoother (exInv 1) .jacobi ⟨exJ, none, []⟩ = some S ∧ m.F 0 = proxied exOJ 0 S false := by
  obtain ⟨-, m, hm, -⟩ := pc_jacobi_refuted nhash junk mjunk
  obtain ⟨A, S, hA, hS, hF, -⟩ := pc_all_smoothers nhash junk mjunk _ _ _ _ hm (l := 0) (by decide)
  obtain rfl : exJ = A := Option.some.inj hA
  exact ⟨m, S, hm, hS, hF⟩

end NgsAMG.PC
