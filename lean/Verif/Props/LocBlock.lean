import Verif.Model.LocBlock
import Verif.Props.BlockGS2

/-!
# C80: one block of `BSmoother2`
-/

namespace NgsAMG.BlkGS
open Matrix NgsAMG.GS NgsAMG.Spec

variable {k : ℕ}

/-- the block `B` holds the rows of `A` that belong to its unknowns -/
structure LBlock.Repr (A : CSR (Blk k)) (B : LBlock k) : Prop where
  nodup : B.dofs.Nodup
  rows : ∀ j : Fin B.dofs.length, (A.row B.dofs[j]).Perm (B.low j ++ B.up j ++ (A.row B.dofs[j]).filter fun e => e.1 ∈ B.dofs)
  diag : B.diag = diagBlock A.entry B.dofs

/-- unknowns and inverse, as they are used by the other block smoother -/
def LBlock.toB (B : LBlock k) : BBlock k := ⟨B.dofs, B.dinv⟩

/-- unknowns and inverse, as the specification has them -/
def LBlock.toSpec (B : LBlock k) : (dofs : List ℕ) × Matrix (Fin dofs.length × Fin k) (Fin dofs.length × Fin k) ℝ := ⟨B.dofs, B.dinv⟩

theorem setFrom_repr (inv : Inverter k) (A : CSR (Blk k)) (hA : A.WF) (md : Option (ℕ → Blk k)) (dofs0 : List ℕ) (hn : dofs0.Nodup) :
    (setFrom inv A md dofs0).Repr A := by
  have hp : (dofs0.insertionSort (· ≤ ·)).Perm dofs0 := List.perm_insertionSort _ _
  have hn' : (dofs0.insertionSort (· ≤ ·)).Nodup := hp.nodup_iff.2 hn
  have hs : (dofs0.insertionSort (· ≤ ·)).Pairwise (· < ·) := by
    have h1 := List.pairwise_insertionSort (· ≤ ·) dofs0
    exact (h1.and hn').imp fun h => lt_of_le_of_ne h.1 h.2
  refine ⟨hn', fun j => ?_, ?_⟩
  · show (A.row _).Perm (((A.row _).filter _ ++ []) ++ (A.row _).filter _)
    rw [List.append_nil]
    have h2 := List.filter_append_perm (fun e : ℕ × Blk k => decide (SortedArray.find e.1 (dofs0.insertionSort (· ≤ ·)) = some .sentinel))
      (A.row (dofs0.insertionSort (· ≤ ·))[j])
    refine h2.symm.trans (List.Perm.append (List.Perm.refl _) (List.Perm.of_eq (List.filter_congr fun e _ => ?_)))
    obtain ⟨r, hr, h3, h4⟩ := SortedArray.find_correct e.1 _ hs
    by_cases hm : e.1 ∈ dofs0.insertionSort (· ≤ ·)
    · obtain ⟨i, rfl, _⟩ := h3 hm
      have : ¬ SortedArray.find e.1 (dofs0.insertionSort (· ≤ ·)) = some .sentinel := by rw [hr]; simp
      have hm' : e.1 ∈ (setFrom inv A md dofs0).dofs := hm
      rw [decide_eq_false this, decide_eq_true hm']; rfl
    · have : SortedArray.find e.1 (dofs0.insertionSort (· ≤ ·)) = some .sentinel := by rw [hr, h4 hm]
      have hm' : ¬ e.1 ∈ (setFrom inv A md dofs0).dofs := hm
      rw [decide_eq_true this, decide_eq_false hm']; rfl
  · exact diagOf_none A hA _

/-- `d2b` tells for each unknown the number of the block it is in -/
theorem setLU_repr (inv : Inverter k) (A : CSR (Blk k)) (hA : A.WF) (nr : ℕ) (d2b : ℕ → Option ℕ) (dofs0 : List ℕ) (hn : dofs0.Nodup)
    (hd : ∀ d, d2b d = some nr ↔ d ∈ dofs0) : (setLU inv nr d2b A dofs0).Repr A := by
  have hp : (dofs0.insertionSort (· ≤ ·)).Perm dofs0 := List.perm_insertionSort _ _
  have hn' : (dofs0.insertionSort (· ≤ ·)).Nodup := hp.nodup_iff.2 hn
  refine ⟨hn', fun j => ?_, diagOf_none A hA _⟩
  show (A.row _).Perm (((A.row _).filter _ ++ (A.row _).filter _) ++ (A.row _).filter _)
  have h1 := List.filter_append_perm (fun e : ℕ × Blk k => match d2b e.1 with | none => true | some q => decide (q < nr)) (A.row (dofs0.insertionSort (· ≤ ·))[j])
  refine h1.symm.trans ?_
  rw [List.append_assoc]
  refine List.Perm.append (List.Perm.refl _) ?_
  have h2 := List.filter_append_perm (fun e : ℕ × Blk k => match d2b e.1 with | none => false | some q => decide (nr < q))
    ((A.row (dofs0.insertionSort (· ≤ ·))[j]).filter fun e => !(match d2b e.1 with | none => true | some q => decide (q < nr)))
  refine h2.symm.trans ?_
  rw [List.filter_filter, List.filter_filter]
  refine List.Perm.append (List.Perm.of_eq (List.filter_congr fun e _ => ?_)) (List.Perm.of_eq (List.filter_congr fun e _ => ?_))
  · cases h : d2b e.1 with
    | none => simp
    | some q =>
      simp only [Bool.and_eq_left_iff_imp, decide_eq_true_eq, Bool.not_eq_true', decide_eq_false_iff_not]
      omega
  · have hm : e.1 ∈ (setLU inv nr d2b A dofs0).dofs ↔ d2b e.1 = some nr := by
      rw [hd]; exact hp.mem_iff
    cases h : d2b e.1 with
    | none =>
      have : ¬ e.1 ∈ (setLU inv nr d2b A dofs0).dofs := by rw [hm, h]; simp
      simp [this]
    | some q =>
      by_cases hq : q = nr
      · have : e.1 ∈ (setLU inv nr d2b A dofs0).dofs := by rw [hm, h, hq]
        simp [this, hq]
      · have : ¬ e.1 ∈ (setLU inv nr d2b A dofs0).dofs := by rw [hm, h]; simpa using hq
        simp [this]
        omega

/-- a sum over the entries with column in `dofs`, column by column -/
theorem sum_cols {M E : Type*} [AddCommMonoid M] [AddCommMonoid E] {dofs : List ℕ} (hn : dofs.Nodup) (g : ℕ → E →+ M) (l : List (ℕ × E)) :
    ((l.filter fun e => e.1 ∈ dofs).map fun e => g e.1 e.2).sum = ∑ q : Fin dofs.length, g dofs[q] (((l.filter fun e => e.1 = dofs[q]).map Prod.snd).sum) := by
  induction l with
  | nil => simp
  | cons e l ih =>
    by_cases h : e.1 ∈ dofs
    · rw [List.filter_cons_of_pos (by simpa using h), List.map_cons, List.sum_cons, ih]
      obtain ⟨q, hq⟩ := List.get_of_mem h
      have hq' : dofs[q] = e.1 := hq
      have h3 : ∀ q' : Fin dofs.length, g dofs[q'] ((((e :: l).filter fun e => e.1 = dofs[q']).map Prod.snd).sum) =
          (if q' = q then g e.1 e.2 else 0) + g dofs[q'] (((l.filter fun e => e.1 = dofs[q']).map Prod.snd).sum) := by
        intro q'
        by_cases hqq : q' = q
        · subst hqq
          rw [List.filter_cons_of_pos (by simpa using hq'.symm), List.map_cons, List.sum_cons, map_add, if_pos rfl]
          rw [show g dofs[q'] e.2 = g e.1 e.2 by rw [hq']]
        · have : ¬ e.1 = dofs[q'] := by
            intro he
            apply hqq
            have : dofs[q'] = dofs[q] := by rw [hq', he]
            exact Fin.ext ((List.Nodup.getElem_inj_iff hn).1 this)
          rw [List.filter_cons_of_neg (by simpa using this), if_neg hqq, zero_add]
      rw [Finset.sum_congr rfl fun q' _ => h3 q', Finset.sum_add_distrib]
      simp
    · rw [List.filter_cons_of_neg (by simpa using h), ih]
      refine Finset.sum_congr rfl fun q _ => ?_
      rw [List.filter_cons_of_neg]
      have : ¬ e.1 = dofs[q] := by intro he; apply h; rw [he]; exact List.getElem_mem _
      simpa using this

theorem subRow_eq (es : List (ℕ × Blk k)) (x : BVec k) (s : Fin k → ℝ) : subRow es x s = s - (es.map fun e => e.2 *ᵥ x e.1).sum := by
  induction es generalizing s with
  | nil => simp [subRow]
  | cons e es ih =>
    rw [subRow, List.foldl_cons, ← subRow, ih, List.map_cons, List.sum_cons]; abel

/-- the row of `A` that belongs to an unknown of the block, taken from the block -/
theorem LBlock.Repr.row_sum {A : CSR (Blk k)} {B : LBlock k} (h : B.Repr A) (x : BVec k) (p : Fin B.dofs.length) (c : Fin k) :
    rowTimesVector A B.dofs[p] x c = (((B.low p).map fun e => e.2 *ᵥ x e.1).sum + ((B.up p).map fun e => e.2 *ᵥ x e.1).sum) c + (B.diag *ᵥ gather B.dofs x) (p, c) := by
  rw [CSR.rowTimesVector_eq_sum, ((h.rows p).map fun e => e.2 *ᵥ x e.1).sum_eq, List.map_append, List.map_append, List.sum_append, List.sum_append]
  have h1 := sum_cols h.nodup (fun j => (⟨⟨fun M : Blk k => M *ᵥ x j, zero_mulVec _⟩, fun M N => add_mulVec M N _⟩ : Blk k →+ (Fin k → ℝ))) (A.row B.dofs[p])
  have h2 : (((A.row B.dofs[p]).filter fun e => e.1 ∈ B.dofs).map fun e => e.2 *ᵥ x e.1).sum = ∑ q : Fin B.dofs.length, A.entry B.dofs[p] B.dofs[q] *ᵥ x B.dofs[q] := h1
  rw [h2]
  simp only [Pi.add_apply]
  congr 1
  rw [h.diag, mulVec, dotProduct, Fintype.sum_prod_type, Finset.sum_apply]
  rfl

theorem LBlock.Repr.rhs {A : CSR (Blk k)} {B : LBlock k} (h : B.Repr A) (x b : BVec k) :
    B.rhsLU x b - B.diag *ᵥ gather B.dofs x = fun p => (b B.dofs[p.1] - rowTimesVector A B.dofs[p.1] x) p.2 := by
  funext ⟨p, c⟩
  simp only [Pi.sub_apply, LBlock.rhsLU, subRow_eq]
  rw [h.row_sum]
  simp only [Pi.add_apply]
  ring

/-- the update of a block is the block Gauss-Seidel step -/
theorem LBlock.Repr.upd_eq {A : CSR (Blk k)} {B : LBlock k} (h : B.Repr A) (b x : BVec k) : B.upd b x = stepRHS A b x B.toB := by
  rw [LBlock.upd, h.rhs]; rfl

theorem subTrans_apply (es : List (ℕ × Blk k)) (u : Fin k → ℝ) (r : BVec k) (j : ℕ) :
    subTrans es u r j = r j - (((es.filter fun e => e.1 = j).map Prod.snd).sum)ᵀ *ᵥ u := by
  have h := CSR.addRowTrans_apply (⟨0, 0, fun _ => es⟩ : CSR (Blk k)) 0 (-u) r j
  rw [mulVec_neg, ← sub_eq_add_neg] at h
  rw [← show _ = subTrans es u r j from congrFun (congrArg (fun f => List.foldl f r es) (funext fun r => funext fun e => ?_)) j]
  · exact h
  · rw [mulVec_neg, sub_eq_add_neg]

theorem foldSub_apply {n : ℕ} (rows : Fin n → List (ℕ × Blk k)) (u : Fin n × Fin k → ℝ) (l : List (Fin n)) (r : BVec k) (j : ℕ) :
    (l.foldl (fun r j => subTrans (rows j) (fun c => u (j, c)) r) r) j =
      r j - (l.map fun p => ((((rows p).filter fun e => e.1 = j).map Prod.snd).sum)ᵀ *ᵥ fun c => u (p, c)).sum := by
  induction l generalizing r with
  | nil => simp
  | cons p l ih => rw [List.foldl_cons, ih, subTrans_apply, List.map_cons, List.sum_cons]; abel

/-- the part of an entry that `low` and `up` hold -/
theorem LBlock.Repr.entry_split {A : CSR (Blk k)} {B : LBlock k} (h : B.Repr A) (p : Fin B.dofs.length) (j : ℕ) :
    A.entry B.dofs[p] j = (((B.low p).filter fun e => e.1 = j).map Prod.snd).sum + (((B.up p).filter fun e => e.1 = j).map Prod.snd).sum +
      if j ∈ B.dofs then A.entry B.dofs[p] j else 0 := by
  have h1 := (((h.rows p).filter fun e => e.1 = j).map Prod.snd).sum_eq
  rw [List.filter_append, List.filter_append, List.map_append, List.map_append, List.sum_append, List.sum_append, List.filter_filter] at h1
  refine h1.trans ?_
  congr 1
  by_cases hj : j ∈ B.dofs
  · rw [if_pos hj]
    unfold CSR.entry
    congr 2
    refine List.filter_congr fun e _ => ?_
    by_cases he : e.1 = j
    · simp [he, hj]
    · simp [he]
  · rw [if_neg hj]
    have : (A.row B.dofs[p]).filter (fun e => decide (e.1 = j) && decide (e.1 ∈ B.dofs)) = [] := by
      refine List.filter_eq_nil_iff.2 fun e _ => ?_
      by_cases he : e.1 = j
      · simp [he, hj]
      · simp [he]
    rw [this]; rfl

/-- the update of a block that keeps the residual is the one of the other block smoother -/
theorem LBlock.Repr.updRES_eq {A : CSR (Blk k)} {B : LBlock k} (h : B.Repr A) (hs : Symm A) (s : BVec k × BVec k) :
    B.updRES s = stepRES A s B.toB := by
  refine Prod.ext rfl ?_
  obtain ⟨x, r⟩ := s
  funext j
  show addAt B.dofs _ _ j = ((List.finRange B.dofs.length).foldl (fun r' j => addRowTransToVector A B.dofs[j] (fun c => -(B.dinv *ᵥ gather B.dofs r) (j, c)) r') r) j
  have h1 : ((List.finRange B.dofs.length).foldl (fun r' j => addRowTransToVector A B.dofs[j] (fun c => -(B.dinv *ᵥ gather B.dofs r) (j, c)) r') r) j = _ :=
    addRows_apply A B.dofs (B.dinv *ᵥ gather B.dofs r) _ r j
  refine Eq.trans ?_ h1.symm
  generalize hU : B.dinv *ᵥ gather B.dofs r = u
  rw [← Fin.sum_univ_def]
  funext c
  rw [addAt_apply]
  dsimp only
  rw [foldSub_apply, foldSub_apply, ← Fin.sum_univ_def, ← Fin.sum_univ_def]
  have h2 : ∀ p : Fin B.dofs.length, ((A.entry B.dofs[p] j)ᵀ *ᵥ fun c => u (p, c)) =
      ((((B.low p).filter fun e => e.1 = j).map Prod.snd).sum)ᵀ *ᵥ (fun c => u (p, c)) + ((((B.up p).filter fun e => e.1 = j).map Prod.snd).sum)ᵀ *ᵥ (fun c => u (p, c)) +
      if j ∈ B.dofs then (A.entry B.dofs[p] j)ᵀ *ᵥ (fun c => u (p, c)) else 0 := by
    intro p
    conv_lhs => rw [h.entry_split p j]
    rw [transpose_add, transpose_add, add_mulVec, add_mulVec]
    congr 1
    split
    · rfl
    · simp
  rw [Finset.sum_congr rfl fun p _ => h2 p, Finset.sum_add_distrib, Finset.sum_add_distrib]
  have h3 : (∑ p : Fin B.dofs.length, if B.dofs[p] = j then (-(B.diag *ᵥ u)) (p, c) else 0) =
      -(∑ p : Fin B.dofs.length, if j ∈ B.dofs then (A.entry B.dofs[p] j)ᵀ *ᵥ (fun c => u (p, c)) else 0) c := by
    by_cases hj : j ∈ B.dofs
    · obtain ⟨q, hq⟩ := List.get_of_mem hj
      have hq' : B.dofs[q] = j := hq
      rw [Finset.sum_congr rfl fun p _ => if_pos hj]
      rw [Finset.sum_eq_single q]
      · rw [if_pos hq', Pi.neg_apply, h.diag, mulVec, dotProduct, Fintype.sum_prod_type, Finset.sum_apply]
        congr 1
        refine Finset.sum_congr rfl fun p _ => ?_
        rw [← hs.2, ← hq']
        rfl
      · intro p _ hp
        rw [if_neg]
        intro he
        exact hp (Fin.ext ((List.Nodup.getElem_inj_iff h.nodup).1 (he.trans hq'.symm)))
      · intro hq; exact absurd (Finset.mem_univ _) hq
    · have h4 : ∀ p : Fin B.dofs.length, ¬ B.dofs[p] = j := fun p he => hj (he ▸ List.getElem_mem _)
      rw [Finset.sum_congr rfl fun p _ => if_neg hj, Finset.sum_congr rfl fun p _ => if_neg (h4 p)]
      simp
  rw [h3]
  simp only [Pi.sub_apply, Pi.add_apply]
  ring

end NgsAMG.BlkGS
