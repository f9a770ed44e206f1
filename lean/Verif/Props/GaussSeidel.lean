import Verif.Model.GaussSeidel
import Verif.Spec.DenseGS
import Verif.Lib.Sweep
import Mathlib.LinearAlgebra.Matrix.PosDef
import Mathlib.LinearAlgebra.Matrix.NonsingularInverse
import Mathlib.Data.Matrix.Basic

/-! C31-C35: Gauss-Seidel. -/

namespace NgsAMG
open Matrix

/-! ### sparse rows versus dense rows -/
namespace CSR
variable {k : ℕ}

theorem foldl_add_eq {E M : Type*} [AddCommMonoid M] (f : E → M) (l : List E) (s : M) :
    l.foldl (fun s e => s + f e) s = s + (l.map f).sum := by
  induction l generalizing s with
  | nil => simp
  | cons a l ih => simp [ih, add_assoc]

theorem rowTimesVector_eq_sum (A : CSR (Blk k)) (i : ℕ) (x : BVec k) :
    rowTimesVector A i x = ((A.row i).map (fun e => e.2 *ᵥ x e.1)).sum := by
  simp [rowTimesVector, foldl_add_eq (fun e : ℕ × Blk k => e.2 *ᵥ x e.1)]

theorem list_dense (l : List (ℕ × Blk k)) (n : ℕ) (h : ∀ e ∈ l, e.1 < n) (x : BVec k) :
    (l.map (fun e => e.2 *ᵥ x e.1)).sum =
      ∑ j ∈ Finset.range n, ((l.filter (fun e => e.1 = j)).map Prod.snd).sum *ᵥ x j := by
  induction l with
  | nil => simp
  | cons a l ih =>
    rw [List.map_cons, List.sum_cons, ih (fun e he => h e (List.mem_cons_of_mem _ he))]
    have : ∀ j, (((a :: l).filter (fun e => e.1 = j)).map Prod.snd).sum *ᵥ x j =
        (if j = a.1 then a.2 *ᵥ x a.1 else 0) + ((l.filter (fun e => e.1 = j)).map Prod.snd).sum *ᵥ x j := by
      intro j
      by_cases hj : a.1 = j
      · subst hj; simp [Matrix.add_mulVec]
      · simp [hj, Ne.symm hj]
    simp only [this, Finset.sum_add_distrib]
    congr 1
    simp [h a List.mem_cons_self]

/-- **sparse row product = dense row product** -/
theorem rowTimesVector_dense (A : CSR (Blk k)) (hA : A.WF) (i : ℕ) (x : BVec k) :
    rowTimesVector A i x = ∑ j ∈ Finset.range A.width, A.entry i j *ᵥ x j := by
  rw [rowTimesVector_eq_sum, list_dense _ _ (hA.inRange i)]
  rfl

theorem addRowTrans_apply (A : CSR (Blk k)) (i : ℕ) (w : Fin k → ℝ) (r : BVec k) (j : ℕ) :
    addRowTransToVector A i w r j = r j + (A.entry i j)ᵀ *ᵥ w := by
  unfold addRowTransToVector entry
  induction A.row i generalizing r with
  | nil => simp
  | cons a l ih =>
    rw [List.foldl_cons, ih]
    by_cases hj : a.1 = j
    · subst hj; simp [Matrix.transpose_add, Matrix.add_mulVec, add_assoc]
    · simp [hj, Function.update_of_ne (Ne.symm hj)]

theorem lookup_eq_entry (A : CSR (Blk k)) (hA : A.WF) (i j : ℕ) : A.lookup i j = A.entry i j := by
  unfold lookup entry
  have hs := hA.sorted i
  revert hs
  induction A.row i with
  | nil => simp
  | cons a l ih =>
    intro hs
    rw [List.map_cons, List.pairwise_cons] at hs
    by_cases hj : a.1 = j
    · have : l.filter (fun e => decide (e.1 = j)) = [] := by
        rw [List.filter_eq_nil_iff]
        intro e he
        have := hs.1 e.1 (List.mem_map_of_mem he)
        simp; omega
      simp [hj, this]
    · simpa [hj] using ih hs.2

theorem entry_outside (A : CSR (Blk k)) (hA : A.WF) {i j : ℕ} (h : A.height ≤ i ∨ A.width ≤ j) : A.entry i j = 0 := by
  unfold entry
  rcases h with h | h
  · simp [hA.outside i h]
  · have : (A.row i).filter (fun e => decide (e.1 = j)) = [] := by
      rw [List.filter_eq_nil_iff]
      intro e he
      have := hA.inRange i e he
      simp; omega
    simp [this]

/-- the matrix as a linear map on vectors -/
def lin (A : CSR (Blk k)) : BVec k →ₗ[ℝ] BVec k where
  toFun x := multRow A x
  map_add' x y := by
    funext i
    simp only [multRow, rowTimesVector_eq_sum, Pi.add_apply, Matrix.mulVec_add]
    induction A.row i with
    | nil => simp
    | cons a l ih => simp only [List.map_cons, List.sum_cons, ih]; abel
  map_smul' s x := by
    funext i
    simp only [multRow, rowTimesVector_eq_sum, Pi.smul_apply, Matrix.mulVec_smul, RingHom.id_apply]
    induction A.row i with
    | nil => simp
    | cons a l ih => simp only [List.map_cons, List.sum_cons, ih, smul_add]

end CSR

namespace GS
open Spec
variable {k : ℕ}

/-- block-symmetric square matrix -/
def Symm (A : CSR (Blk k)) : Prop := A.height = A.width ∧ ∀ i j, A.entry i j = (A.entry j i)ᵀ

theorem multRow_eq (A : CSR (Blk k)) (hA : A.WF) (x : BVec k) : multRow A x = mulBlock A.width A.entry x := by
  funext i; exact CSR.rowTimesVector_dense A hA i x

/-! ### the order of visiting -/

theorem numSet_zero {n : ℕ} {f : ℕ → Bool} (h : numSet n f = 0) : ∀ i < n, f i = false := by
  intro i hi
  have := List.filter_eq_nil_iff.1 (List.length_eq_zero_iff.1 h) i (List.mem_range.2 hi)
  simpa using this

theorem numSet_full {n : ℕ} {f : ℕ → Bool} (h : numSet n f = n) : ∀ i < n, f i = true := by
  intro i hi
  have : (List.range n).filter f = List.range n := by
    apply List.Sublist.eq_of_length List.filter_sublist
    rw [List.length_range]; exact h
  have := List.filter_eq_self.1 this i (List.mem_range.2 hi)
  exact this

theorem scanUp_le (n : ℕ) (f : ℕ → Bool) (c : ℕ) : ∀ i, c ≤ i → i < n → f i = true → scanUp n f c ≤ i := by
  fun_induction scanUp n f c with
  | case1 c h hf => intro i hi _ _; exact hi
  | case2 c h hf ih =>
    intro i hi hn hfi
    rcases Nat.eq_or_lt_of_le hi with rfl | h'
    · exact absurd hfi hf
    · exact ih i h' hn hfi
  | case3 c h => intro i hi hn _; omega

theorem scanDown_gt (f : ℕ → Bool) (dflt c : ℕ) : ∀ i < c, f i = true → i < scanDown f dflt c := by
  induction c with
  | zero => intro i hi; omega
  | succ c ih =>
    intro i hi hf
    rw [scanDown]
    split_ifs with h
    · omega
    · rcases Nat.eq_or_lt_of_le (Nat.lt_succ_iff.1 hi) with rfl | h'
      · exact absurd hf h
      · exact ih i h' hf

theorem scanDown_le (f : ℕ → Bool) (n c : ℕ) (hc : c ≤ n) : scanDown f n c ≤ n := by
  induction c with
  | zero => simp [scanDown]
  | succ c ih =>
    rw [scanDown]
    split_ifs
    · exact hc
    · exact ih (by omega)

/-- `first_free`/`next_free` enclose all free rows, and stay in range -/
theorem setUpRange_spec (H : ℕ) (free : Option (ℕ → Bool)) :
    (∀ i < H, isFree free i = true → (setUpRange H free).1 ≤ i ∧ i < (setUpRange H free).2) ∧
      (setUpRange H free).2 ≤ H := by
  rcases free with _ | f
  · simp only [setUpRange]; exact ⟨fun i hi _ => ⟨Nat.zero_le _, hi⟩, le_rfl⟩
  · simp only [setUpRange, isFree]
    split_ifs with h1 h2
    · refine ⟨fun i hi hf => ?_, by simp⟩
      rw [numSet_zero h1 i hi] at hf; simp at hf
    rotate_left
    · exact ⟨fun i hi _ => ⟨Nat.zero_le _, hi⟩, le_rfl⟩
    · refine ⟨fun i hi hf => ⟨scanUp_le H f 0 i (by omega) hi hf, scanDown_gt f H H i hi hf⟩, scanDown_le f H H le_rfl⟩

theorem downTo_eq (lo c : ℕ) : downTo lo c = ((List.range c).drop lo).reverse := by
  induction c with
  | zero => simp [downTo]
  | succ c ih =>
    rw [downTo]
    split_ifs with h
    · rw [List.range_succ, List.drop_append_of_le_length (by simpa using h), List.reverse_append, ih]; rfl
    · rw [List.drop_eq_nil_of_le (by simp; omega)]; rfl

theorem range_drop (n a : ℕ) : (List.range n).drop a = (List.range n).filter (fun i => a ≤ i) := by
  induction n with
  | zero => simp
  | succ n ih =>
    rw [List.range_succ, List.filter_append]
    by_cases h : a ≤ n
    · rw [List.drop_append_of_le_length (by simpa using h), ih]; simp [h]
    · rw [List.drop_eq_nil_of_le (by simp; omega)]
      simp only [List.filter_cons, h, decide_false, List.filter_nil]
      symm; simp
      intro i hi; omega

theorem range_filter_lt (H n : ℕ) (h : n ≤ H) : List.range n = (List.range H).filter (fun i => i < n) := by
  induction H with
  | zero => have : n = 0 := by omega
            subst this; simp
  | succ H ih =>
    rw [List.range_succ, List.filter_append]
    rcases Nat.eq_or_lt_of_le h with rfl | h'
    · rw [List.range_succ]
      congr 1
      · symm; rw [List.filter_eq_self]; intro a ha; simp at ha ⊢; omega
      · simp
    · rw [← ih (by omega)]; simp; omega

/-- what `visited` lists, in both directions -/
theorem visited_eq (g : GSS3 k) (H : ℕ)
    (h1 : ∀ i < H, isFree g.free i = true → g.firstFree ≤ i ∧ i < g.nextFree) (h2 : g.nextFree ≤ H)
    (first next : ℕ) (bw : Bool) :
    visited g first next bw =
      if bw then (freeRows H first next (fun i => isFree g.free i = true)).reverse
      else freeRows H first next (fun i => isFree g.free i = true) := by
  have key : ((List.range (min next g.nextFree)).drop (max first g.firstFree)).filter (isFree g.free) =
      freeRows H first next (fun i => isFree g.free i = true) := by
    rw [range_drop, range_filter_lt H _ (by omega), List.filter_filter, List.filter_filter, freeRows]
    apply List.filter_congr
    intro i hi
    have hi' := List.mem_range.1 hi
    by_cases hf : isFree g.free i = true
    · have := h1 i hi' hf
      simp only [hf, Bool.true_and, and_true]
      by_cases ha : first ≤ i <;> by_cases hb : i < next <;> simp [ha, hb] <;> omega
    · simp [hf]
  unfold visited
  rcases bw with _ | _
  · simp only [Bool.false_eq_true, if_false]
    split_ifs with h
    · exact key
    · rw [← key, List.drop_eq_nil_of_le (by simp; omega)]; rfl
  · simp only [if_true]
    rw [← key, downTo_eq]
    split_ifs with h hf
    · rw [← List.filter_reverse]
      have : (List.range (min next g.nextFree)).drop (max first g.firstFree) =
          max first g.firstFree :: (List.range (min next g.nextFree)).drop (max first g.firstFree + 1) := by
        rw [List.drop_eq_getElem_cons (by simpa using h)]; simp
      rw [this, List.reverse_cons, List.filter_append]; simp [hf]
    · rw [← List.filter_reverse]
      have : (List.range (min next g.nextFree)).drop (max first g.firstFree) =
          max first g.firstFree :: (List.range (min next g.nextFree)).drop (max first g.firstFree + 1) := by
        rw [List.drop_eq_getElem_cons (by simpa using h)]; simp
      rw [this, List.reverse_cons, List.filter_append]; simp [hf]
    · rw [List.drop_eq_nil_of_le (by simp; omega), List.drop_eq_nil_of_le (by simp; omega)]; rfl

theorem visited_mk' (inv : Blk k → Blk k) (A : CSR (Blk k)) (rd : Option (ℕ → Blk k)) (free : Option (ℕ → Bool))
    (first next : ℕ) (bw : Bool) :
    visited (GSS3.mk' inv A rd free) first next bw =
      if bw then (freeRows A.height first next (fun i => isFree free i = true)).reverse
      else freeRows A.height first next (fun i => isFree free i = true) := by
  have h := setUpRange_spec A.height free
  exact visited_eq (GSS3.mk' inv A rd free) A.height h.1 h.2 first next bw

/-! ### refinement to sweeps -/

/-- local correction `P_i r = e_i d_i r_i` -/
def locCorr (d : ℕ → Blk k) (i : ℕ) : BVec k →ₗ[ℝ] BVec k where
  toFun r := fun j => if j = i then d i *ᵥ r i else 0
  map_add' x y := by funext j; by_cases h : j = i <;> simp [h, Matrix.mulVec_add]
  map_smul' s x := by funext j; by_cases h : j = i <;> simp [h, Matrix.mulVec_smul]

theorem updateRow_eq_corr (A : CSR (Blk k)) (d : ℕ → Blk k) (b x : BVec k) (i : ℕ) :
    updateRow A d b x i = Sweep.corr A.lin (locCorr d i) x b := by
  funext j
  unfold updateRow Sweep.corr locCorr
  by_cases h : j = i
  · subst h; simp; rfl
  · simp [h, Function.update_of_ne h]

theorem foldl_updateRow (A : CSR (Blk k)) (d : ℕ → Blk k) (L : List ℕ) (x b : BVec k) :
    L.foldl (updateRow A d b) x = Sweep.sweep A.lin (locCorr d) L x b := by
  have : updateRow A d b = fun x i => Sweep.corr A.lin (locCorr d i) x b := by
    funext x i; exact updateRow_eq_corr A d b x i
  rw [this]; rfl

theorem gsSweep_eq (A : CSR (Blk k)) (hA : A.WF) (d : ℕ → Blk k) (L : List ℕ) (x b : BVec k) :
    gsSweep A.width A.entry d L x b = L.foldl (updateRow A d b) x := by
  have : updateRow A d b = gsRow A.width A.entry d b := by
    funext x i j
    unfold updateRow gsRow
    rw [← multRow_eq A hA]
    by_cases h : j = i
    · subst h; simp [multRow]
    · simp [h, Function.update_of_ne h]
  rw [this]; rfl

/-- **C32 (order, exactness).** A sweep of the Gauss-Seidel smoother built for matrix `A`, with or without replaced
diagonal and with any free set, is textbook Gauss-Seidel over exactly the free rows in `[first,next)`, in increasing
order forwards and in decreasing order backwards. -/
theorem smoothRHS_correct (inv : Blk k → Blk k) (A : CSR (Blk k)) (hA : A.WF) (rd : Option (ℕ → Blk k))
    (free : Option (ℕ → Bool)) (first next : ℕ) (x b : BVec k) :
    let d : ℕ → Blk k := fun i => if isFree free i then inv ((rd.map (· i)).getD (A.entry i i)) else 0
    let rows := freeRows A.height first next (fun i => isFree free i = true)
    (GSS3.mk' inv A rd free).smoothRHS first next x b false = gsSweep A.width A.entry d rows x b ∧
    (GSS3.mk' inv A rd free).smoothRHS first next x b true = gsSweep A.width A.entry d rows.reverse x b := by
  intro d rows
  have hd : (GSS3.mk' inv A rd free).dinv = d := by
    funext i
    simp only [GSS3.mk', d]
    rcases rd with _ | r
    · simp [CSR.lookup_eq_entry A hA]
    · simp
  have hm : (GSS3.mk' inv A rd free).mat = A := rfl
  constructor
  · rw [gsSweep_eq A hA, GSS3.smoothRHS, visited_mk', hm, hd]; rfl
  · rw [gsSweep_eq A hA, GSS3.smoothRHS, visited_mk', hm, hd]; rfl

theorem foldl_updateRow_outside (A : CSR (Blk k)) (d : ℕ → Blk k) (L : List ℕ) (x b : BVec k) (j : ℕ) (hj : j ∉ L) :
    L.foldl (updateRow A d b) x j = x j := by
  induction L generalizing x with
  | nil => rfl
  | cons i L ih =>
    rw [List.foldl_cons, ih _ (fun h => hj (List.mem_cons_of_mem _ h)), updateRow,
      Function.update_of_ne (fun h => hj (by simp [h]))]

theorem foldl_upRow_outside (A : CSR (Blk k)) (d : ℕ → Blk k) (L : List ℕ) (s : BVec k × BVec k) (j : ℕ)
    (hj : j ∉ L) : (L.foldl (upRow A d) s).1 j = s.1 j := by
  induction L generalizing s with
  | nil => rfl
  | cons i L ih =>
    rw [List.foldl_cons, ih _ (fun h => hj (List.mem_cons_of_mem _ h))]
    simp only [upRow]
    rw [Function.update_of_ne (fun h => hj (by simp [h]))]

/-- **C32 (frame).** No entry outside of the free set, or outside of `[first,next)`, or behind the matrix is changed,
in either variant and direction. -/
theorem smooth_frame (inv : Blk k → Blk k) (A : CSR (Blk k)) (rd : Option (ℕ → Blk k))
    (free : Option (ℕ → Bool)) (first next : ℕ) (x v : BVec k) (bw : Bool) (j : ℕ)
    (hj : ¬ (first ≤ j ∧ j < next ∧ j < A.height ∧ isFree free j = true)) :
    (GSS3.mk' inv A rd free).smoothRHS first next x v bw j = x j ∧
    ((GSS3.mk' inv A rd free).smoothRES first next x v bw).1 j = x j := by
  have : j ∉ visited (GSS3.mk' inv A rd free) first next bw := by
    rw [visited_mk']
    rcases bw with _ | _ <;> simp only [Bool.false_eq_true, if_false, if_true, List.mem_reverse, freeRows, List.mem_filter, List.mem_range, decide_eq_true_eq] <;> tauto
  exact ⟨foldl_updateRow_outside _ _ _ _ _ _ this, foldl_upRow_outside _ _ _ _ _ this⟩

/-! ### C31 -/

theorem upRow_invariant (A : CSR (Blk k)) (hA : A.WF) (hs : Symm A) (d : ℕ → Blk k) (b x : BVec k) (i : ℕ) :
    upRow A d (x, b - multRow A x) i = (updateRow A d b x i, b - multRow A (updateRow A d b x i)) := by
  have hx : (upRow A d (x, b - multRow A x) i).1 = updateRow A d b x i := by
    simp only [upRow, updateRow, sub_neg_eq_add]; rfl
  refine Prod.ext hx ?_
  funext j
  simp only [upRow, CSR.addRowTrans_apply]
  have h1 : (A.entry i j)ᵀ = A.entry j i := (hs.2 j i).symm
  rw [h1, updateRow_eq_corr, Pi.sub_apply b (multRow A (Sweep.corr A.lin (locCorr d i) x b))]
  have h2 : multRow A (Sweep.corr A.lin (locCorr d i) x b) j =
      multRow A x j + multRow A (locCorr d i (b - multRow A x)) j := by
    change A.lin (x + _) j = _
    rw [map_add]; rfl
  have h3 : multRow A (locCorr d i (b - multRow A x)) j = A.entry j i *ᵥ (d i *ᵥ (b - multRow A x) i) := by
    change rowTimesVector A j _ = _
    rw [CSR.rowTimesVector_dense A hA]
    by_cases hi : i < A.width
    · rw [Finset.sum_eq_single i]
      · simp [locCorr]
      · intro m _ hm; simp [locCorr, hm]
      · intro h; exact absurd (Finset.mem_range.2 hi) h
    · rw [CSR.entry_outside A hA (Or.inr (Nat.le_of_not_lt hi)), Matrix.zero_mulVec]
      apply Finset.sum_eq_zero
      intro m hm
      have : m ≠ i := by have := Finset.mem_range.1 hm; omega
      simp [locCorr, this]
  rw [h2, h3]
  simp only [Pi.sub_apply, Matrix.mulVec_neg]
  abel

theorem foldl_upRow (A : CSR (Blk k)) (hA : A.WF) (hs : Symm A) (d : ℕ → Blk k) (L : List ℕ) (b x : BVec k) :
    L.foldl (upRow A d) (x, b - multRow A x) =
      (L.foldl (updateRow A d b) x, b - multRow A (L.foldl (updateRow A d b) x)) := by
  induction L generalizing x with
  | nil => rfl
  | cons i L ih => rw [List.foldl_cons, List.foldl_cons, upRow_invariant A hA hs, ih]

/-- **C31.** Residual-based and right-hand-side-based sweeps agree, and the residual stays `b - A x`, for any range,
direction and free set. -/
theorem smoothRES_eq_smoothRHS (inv : Blk k → Blk k) (A : CSR (Blk k)) (hA : A.WF) (hs : Symm A)
    (rd : Option (ℕ → Blk k)) (free : Option (ℕ → Bool)) (first next : ℕ) (x b : BVec k) (bw : Bool) :
    let g := GSS3.mk' inv A rd free
    let x' := g.smoothRHS first next x b bw
    g.smoothRES first next x (b - mulBlock A.width A.entry x) bw = (x', b - mulBlock A.width A.entry x') := by
  intro g x'
  rw [← multRow_eq A hA, ← multRow_eq A hA]
  exact foldl_upRow A hA hs _ _ b x

/-- The flags handed to a smoother are truthful: `resUpdated` means `res = b - A x`, `xZero` means `x = 0`. -/
def Truthful (n : ℕ) (A : ℕ → ℕ → Blk k) (x b res : BVec k) (resUpdated xZero : Bool) : Prop :=
  (resUpdated = true → res = b - mulBlock n A x) ∧ (xZero = true → x = 0)

/-- **C31/C28 for the Gauss-Seidel smoother.** For truthful flags every flag combination computes the same iterate
(textbook Gauss-Seidel) and, if asked for, the residual afterwards is `b - A x`. -/
theorem smooth_contract (inv : Blk k → Blk k) (A : CSR (Blk k)) (hA : A.WF) (hs : Symm A)
    (rd : Option (ℕ → Blk k)) (free : Option (ℕ → Bool)) (x b res : BVec k) (bw ru ur xz : Bool)
    (ht : Truthful A.width A.entry x b res ru xz) :
    let g := GSS3.mk' inv A rd free
    let out := g.smooth bw x b res ru ur xz
    let rows := freeRows A.height 0 A.height (fun i => isFree free i = true)
    let d : ℕ → Blk k := fun i => if isFree free i then inv ((rd.map (· i)).getD (A.entry i i)) else 0
    out.1 = gsSweep A.width A.entry d (if bw then rows.reverse else rows) x b ∧
    (ur = true → out.2 = b - mulBlock A.width A.entry out.1) := by
  intro g out rows d
  have hcalc : calcResiduum A x b xz = b - mulBlock A.width A.entry x := by
    unfold calcResiduum
    split_ifs with h
    · rw [ht.2 h, ← multRow_eq A hA]
      have : multRow A (0 : BVec k) = 0 := map_zero A.lin
      rw [this, sub_zero]
    · rw [multRow_eq A hA]
  have h := smoothRES_eq_smoothRHS inv A hA hs rd free 0 A.height x b bw
  have hr := smoothRHS_correct inv A hA rd free 0 A.height x b
  have hx : g.smoothRHS 0 A.height x b bw = gsSweep A.width A.entry d (if bw then rows.reverse else rows) x b := by
    rcases bw with _ | _
    · exact hr.1
    · exact hr.2
  have hgm : g.mat = A := rfl
  rcases ur with _ | _
  · have : out = (g.smoothRHS 0 A.height x b bw, res) := by
      simp only [out, GSS3.smooth, hgm]; rcases ru with _ | _ <;> rfl
    rw [this]; exact ⟨hx, by simp⟩
  · have : out = (g.smoothRHS 0 A.height x b bw, b - mulBlock A.width A.entry (g.smoothRHS 0 A.height x b bw)) := by
      simp only [out, GSS3.smooth, hgm, if_true]
      rcases ru with _ | _
      · simp only [Bool.false_eq_true, if_false, hcalc]; exact h
      · simp only [if_true, ht.1 rfl]; exact h
    rw [this]; exact ⟨hx, fun _ => rfl⟩

/-! ### C33, C34 -/

/-- inner product as bilinear form -/
def ipForm (n : ℕ) : LinearMap.BilinForm ℝ (BVec k) :=
  LinearMap.mk₂ ℝ (ip n)
    (fun u v w => by simp [ip, add_dotProduct, Finset.sum_add_distrib])
    (fun c u v => by simp [ip, Finset.mul_sum])
    (fun u v w => by simp [ip, dotProduct_add, Finset.sum_add_distrib])
    (fun c u v => by simp [ip, Finset.mul_sum])

@[simp] theorem ipForm_apply (n : ℕ) (u v : BVec k) : ipForm n u v = ip n u v := rfl

theorem ip_symm (n : ℕ) (u v : BVec k) : ip n u v = ip n v u := by
  simp [ip, dotProduct_comm]

theorem mulBlock_selfadj (n : ℕ) (A : ℕ → ℕ → Blk k) (hs : ∀ i j, A i j = (A j i)ᵀ) (u v : BVec k) :
    ip n (mulBlock n A u) v = ip n u (mulBlock n A v) := by
  simp only [ip, mulBlock, sum_dotProduct, dotProduct_sum]
  rw [Finset.sum_comm]
  refine Finset.sum_congr rfl fun i _ => Finset.sum_congr rfl fun j _ => ?_
  rw [hs j i, Matrix.mulVec_transpose, ← Matrix.dotProduct_mulVec]

theorem lin_selfadj (A : CSR (Blk k)) (hA : A.WF) (hs : Symm A) (u v : BVec k) :
    ip A.width (A.lin u) v = ip A.width u (A.lin v) := by
  change ip _ (multRow A u) v = ip _ u (multRow A v)
  rw [multRow_eq A hA, multRow_eq A hA]
  exact mulBlock_selfadj _ _ hs.2 u v

theorem locCorr_selfadj (n : ℕ) (d : ℕ → Blk k) (i : ℕ) (hd : (d i)ᵀ = d i) (u v : BVec k) :
    ip n (locCorr d i u) v = ip n u (locCorr d i v) := by
  simp only [ip, locCorr, LinearMap.coe_mk, AddHom.coe_mk]
  refine Finset.sum_congr rfl fun j _ => ?_
  by_cases h : j = i
  · subst h
    simp only [if_true]
    conv_lhs => rw [← hd]
    rw [Matrix.mulVec_transpose, ← Matrix.dotProduct_mulVec]
  · simp [h]

/-- The inverse diagonals are admissible for `A`: symmetric, and `⟨A_ii d v, d v⟩ ≤ 2 ⟨d v, v⟩`. This holds for exact
inverses and pseudo inverses of positive semi-definite diagonals, and for replaced diagonals `D` with `A_ii ≤ 2 D`. -/
def DiagOK (A d : Blk k) : Prop := dᵀ = d ∧ ∀ v, A *ᵥ (d *ᵥ v) ⬝ᵥ (d *ᵥ v) ≤ 2 * (v ⬝ᵥ (d *ᵥ v))

theorem diagOK_zero (A : Blk k) : DiagOK A 0 := by simp [DiagOK]

/-- exact (`d = A⁻¹`) or pseudo (`d A d = d`) inverses that are positive semi-definite are admissible -/
theorem diagOK_of_pinv (A d : Blk k) (hsym : dᵀ = d) (hpinv : d * A * d = d) (hpos : ∀ v, 0 ≤ v ⬝ᵥ (d *ᵥ v)) :
    DiagOK A d := by
  refine ⟨hsym, fun v => ?_⟩
  have : A *ᵥ (d *ᵥ v) ⬝ᵥ (d *ᵥ v) = v ⬝ᵥ (d *ᵥ v) := by
    rw [Matrix.dotProduct_mulVec, ← Matrix.mulVec_transpose, hsym, Matrix.mulVec_mulVec, Matrix.mulVec_mulVec,
      hpinv, dotProduct_comm]
  rw [this]
  have := hpos v
  linarith

theorem diagOK_inv (A : Blk k) (hA : A.PosDef) : DiagOK A A⁻¹ := by
  have hu : IsUnit A.det := (Matrix.isUnit_iff_isUnit_det A).1 hA.isUnit
  have hsym : Aᵀ = A := by have := hA.1; rwa [Matrix.IsHermitian, Matrix.conjTranspose_eq_transpose_of_trivial] at this
  apply diagOK_of_pinv
  · rw [Matrix.transpose_nonsing_inv, hsym]
  · rw [Matrix.nonsing_inv_mul A hu, Matrix.one_mul]
  · intro v
    have := hA.inv.posSemidef
    have := this.dotProduct_mulVec_nonneg v
    simpa using this

theorem locCorr_energy (A : CSR (Blk k)) (hA : A.WF) (d : ℕ → Blk k) (i : ℕ) (hd : DiagOK (A.entry i i) (d i))
    (r : BVec k) :
    ip A.width (A.lin (locCorr d i r)) (locCorr d i r) ≤ 2 * ip A.width r (locCorr d i r) := by
  by_cases hi : i < A.width
  · have h1 : ip A.width (A.lin (locCorr d i r)) (locCorr d i r) = (A.entry i i *ᵥ (d i *ᵥ r i)) ⬝ᵥ (d i *ᵥ r i) := by
      rw [ip, Finset.sum_eq_single i]
      · have : A.lin (locCorr d i r) i = A.entry i i *ᵥ (d i *ᵥ r i) := by
          change rowTimesVector A i _ = _
          rw [CSR.rowTimesVector_dense A hA, Finset.sum_eq_single i]
          · simp [locCorr]
          · intro m _ hm; simp [locCorr, hm]
          · intro h; exact absurd (Finset.mem_range.2 hi) h
        rw [this]; simp [locCorr]
      · intro m _ hm; simp [locCorr, hm]
      · intro h; exact absurd (Finset.mem_range.2 hi) h
    have h2 : ip A.width r (locCorr d i r) = r i ⬝ᵥ (d i *ᵥ r i) := by
      rw [ip, Finset.sum_eq_single i]
      · simp [locCorr]
      · intro m _ hm; simp [locCorr, hm]
      · intro h; exact absurd (Finset.mem_range.2 hi) h
    rw [h1, h2]; exact hd.2 (r i)
  · have : ∀ u, ip A.width u (locCorr d i r) = 0 := by
      intro u
      apply Finset.sum_eq_zero
      intro m hm
      have : m ≠ i := by have := Finset.mem_range.1 hm; omega
      simp [locCorr, this]
    rw [this, this]; simp

/-- admissibility of the object's inverse diagonals: on free rows -/
def DiagsOK (inv : Blk k → Blk k) (A : CSR (Blk k)) (rd : Option (ℕ → Blk k)) (free : Option (ℕ → Bool)) : Prop :=
  ∀ i < A.height, isFree free i = true → DiagOK (A.entry i i) (inv ((rd.map (· i)).getD (A.entry i i)))

theorem dinv_mk' (inv : Blk k → Blk k) (A : CSR (Blk k)) (hA : A.WF) (rd : Option (ℕ → Blk k))
    (free : Option (ℕ → Bool)) (i : ℕ) :
    (GSS3.mk' inv A rd free).dinv i = if isFree free i then inv ((rd.map (· i)).getD (A.entry i i)) else 0 := by
  simp only [GSS3.mk']
  rcases rd with _ | r
  · simp [CSR.lookup_eq_entry A hA]
  · simp

theorem mem_visited (inv : Blk k → Blk k) (A : CSR (Blk k)) (rd : Option (ℕ → Blk k))
    (free : Option (ℕ → Bool)) (first next i : ℕ) (bw : Bool)
    (h : i ∈ visited (GSS3.mk' inv A rd free) first next bw) : i < A.height ∧ isFree free i = true := by
  rw [visited_mk'] at h
  rcases bw with _ | _ <;> simp [freeRows] at h <;> exact ⟨h.1, h.2.2.2⟩

/-- **C33.** For a symmetric matrix with admissible inverse diagonals (exact inverse of positive definite diagonals, see
`diagOK_inv`; pseudo inverse of semi-definite ones, `diagOK_of_pinv`), a Gauss-Seidel sweep over any range, in any
direction, does not increase the energy of the error `xs - x` where `A xs = b`. -/
theorem smooth_energy (inv : Blk k → Blk k) (A : CSR (Blk k)) (hA : A.WF) (hs : Symm A)
    (rd : Option (ℕ → Blk k)) (free : Option (ℕ → Bool)) (hd : DiagsOK inv A rd free)
    (first next : ℕ) (x xs : BVec k) (bw : Bool) :
    energy A.width A.entry
      (xs - (GSS3.mk' inv A rd free).smoothRHS first next x (mulBlock A.width A.entry xs) bw) ≤
    energy A.width A.entry (xs - x) := by
  unfold energy
  rw [← multRow_eq A hA, ← multRow_eq A hA, ← multRow_eq A hA]
  unfold GSS3.smoothRHS
  rw [foldl_updateRow]
  refine Sweep.sweep_energy (ipForm A.width) (A := A.lin) (fun u v => lin_selfadj A hA hs u v)
    (fun u v => ip_symm _ u v) _ ?_ x xs
  intro i hi r
  obtain ⟨h1, h2⟩ := mem_visited _ _ _ _ _ _ _ _ hi
  apply locCorr_energy A hA
  rw [dinv_mk' inv A hA, if_pos h2]
  exact hd i h1 h2

/-- **C33 (fixed point).** A solution of the system is not changed by a sweep. -/
theorem smooth_fixed (inv : Blk k → Blk k) (A : CSR (Blk k)) (hA : A.WF)
    (rd : Option (ℕ → Blk k)) (free : Option (ℕ → Bool)) (first next : ℕ) (xs : BVec k) (bw : Bool) :
    (GSS3.mk' inv A rd free).smoothRHS first next xs (mulBlock A.width A.entry xs) bw = xs := by
  rw [← multRow_eq A hA]
  unfold GSS3.smoothRHS
  rw [foldl_updateRow]
  exact Sweep.sweep_fixed _ _

/-- **C34.** With symmetric inverse diagonals, the backward sweep is the adjoint of the forward sweep (as maps from the
right hand side to the update from zero), for any range and free set. -/
theorem smoothBack_adjoint (inv : Blk k → Blk k) (A : CSR (Blk k)) (hA : A.WF) (hs : Symm A)
    (rd : Option (ℕ → Blk k)) (free : Option (ℕ → Bool))
    (hd : ∀ i < A.height, isFree free i = true →
      (inv ((rd.map (· i)).getD (A.entry i i)))ᵀ = inv ((rd.map (· i)).getD (A.entry i i)))
    (first next : ℕ) (b c : BVec k) :
    ip A.width ((GSS3.mk' inv A rd free).smoothRHS first next 0 b false) c =
    ip A.width b ((GSS3.mk' inv A rd free).smoothRHS first next 0 c true) := by
  unfold GSS3.smoothRHS
  rw [foldl_updateRow, foldl_updateRow]
  set d := (GSS3.mk' inv A rd free).dinv with hdd
  -- restrict the diagonals to the visited rows, such that symmetry holds for all indices
  have hsymd : ∀ i ∈ visited (GSS3.mk' inv A rd free) first next false, (d i)ᵀ = d i := by
    intro i hi
    obtain ⟨h1, h2⟩ := mem_visited _ _ _ _ _ _ _ _ hi
    rw [hdd, dinv_mk' inv A hA, if_pos h2]; exact hd i h1 h2
  have hrev : visited (GSS3.mk' inv A rd free) first next true =
      (visited (GSS3.mk' inv A rd free) first next false).reverse := by
    rw [visited_mk', visited_mk']; rfl
  have hm : (GSS3.mk' inv A rd free).mat = A := rfl
  rw [hrev, hm]
  generalize visited (GSS3.mk' inv A rd free) first next false = L at *
  clear hrev
  let d' : ℕ → Blk k := fun i => if i ∈ L then d i else 0
  have hloc : ∀ M : List ℕ, (∀ i ∈ M, i ∈ L) → ∀ x b : BVec k,
      Sweep.sweep A.lin (locCorr d) M x b = Sweep.sweep A.lin (locCorr d') M x b := by
    intro M hM x b
    induction M generalizing x with
    | nil => rfl
    | cons i M ih =>
      have : locCorr d i = locCorr d' i := by
        ext r j : 2
        simp [locCorr, d', hM i List.mem_cons_self]
      rw [Sweep.sweep_cons, Sweep.sweep_cons, this, ih (fun j hj => hM j (List.mem_cons_of_mem _ hj))]
  rw [hloc L (fun _ h => h), hloc L.reverse (fun _ h => List.mem_reverse.1 h)]
  refine Sweep.sweep_adjoint (ipForm A.width) (fun u v => lin_selfadj A hA hs u v) (fun i u v => ?_) L b c
  apply locCorr_selfadj
  by_cases h : i ∈ L
  · simp [d', h, hsymd i h]
  · simp [d', h]

/-- **C34 (symmetrized sweep).** Forward then backward from zero is a symmetric map of the right hand side. -/
theorem smoothSymm_symmetric (inv : Blk k → Blk k) (A : CSR (Blk k)) (hA : A.WF) (hs : Symm A)
    (rd : Option (ℕ → Blk k)) (free : Option (ℕ → Bool))
    (hd : ∀ i < A.height, isFree free i = true →
      (inv ((rd.map (· i)).getD (A.entry i i)))ᵀ = inv ((rd.map (· i)).getD (A.entry i i)))
    (first next : ℕ) (b c : BVec k) :
    let g := GSS3.mk' inv A rd free
    let S : BVec k → BVec k := fun b => g.smoothRHS first next (g.smoothRHS first next 0 b false) b true
    ip A.width (S b) c = ip A.width b (S c) := by
  intro g S
  have hadj := smoothBack_adjoint inv A hA hs rd free hd first next
  have hS : ∀ b, S b = g.smoothRHS first next 0 b false +
      g.smoothRHS first next 0 (b - A.lin (g.smoothRHS first next 0 b false)) true := by
    intro b
    change (visited g first next true).foldl _ _ = _ + (visited g first next true).foldl _ _
    rw [foldl_updateRow, foldl_updateRow]
    exact Sweep.sweep_shift _ _ _
  have add1 : ∀ u v w : BVec k, ip A.width (u + v) w = ip A.width u w + ip A.width v w :=
    fun u v w => LinearMap.map_add₂ (ipForm A.width) u v w
  have add2 : ∀ u v w : BVec k, ip A.width u (v + w) = ip A.width u v + ip A.width u w :=
    fun u v w => by simpa using ((ipForm A.width) u).map_add v w
  have sub1 : ∀ u v w : BVec k, ip A.width (u - v) w = ip A.width u w - ip A.width v w :=
    fun u v w => LinearMap.map_sub₂ (ipForm A.width) u v w
  have sub2 : ∀ u v w : BVec k, ip A.width u (v - w) = ip A.width u v - ip A.width u w :=
    fun u v w => by simpa using ((ipForm A.width) u).map_sub v w
  rw [hS b, hS c, add1, add2]
  have e1 : ip A.width (g.smoothRHS first next 0 (b - A.lin (g.smoothRHS first next 0 b false)) true) c =
      ip A.width (b - A.lin (g.smoothRHS first next 0 b false)) (g.smoothRHS first next 0 c false) := by
    rw [ip_symm, ← hadj c, ip_symm]
  have e2 : ip A.width b (g.smoothRHS first next 0 (c - A.lin (g.smoothRHS first next 0 c false)) true) =
      ip A.width (g.smoothRHS first next 0 b false) (c - A.lin (g.smoothRHS first next 0 c false)) := by
    rw [← hadj]
  rw [e1, e2, sub1, sub2, lin_selfadj A hA hs]
  ring

end GS
end NgsAMG
