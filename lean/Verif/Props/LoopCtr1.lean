import Verif.Model.LoopCtr
import Verif.Props.SortedArray

/-!
# C113: `RemoveDuplicates`
-/

namespace NgsAMG.LCtr

variable {α : Type} [LinearOrder α]

/-- the entries that differ from the one before -/
def uniq : α → List α → List α
  | _, [] => []
  | y, x :: l => if x = y then uniq y l else x :: uniq x l

theorem ndup_eq (y : α) (l : List α) : ndup (y :: l) + (uniq y l).length = l.length := by
  induction l generalizing y with
  | nil => rfl
  | cons x l ih =>
    simp only [ndup, uniq]
    by_cases h : x = y
    · subst h
      have := ih x
      simp only [if_true, List.length_cons]
      omega
    · rw [if_neg h, if_neg h]
      have := ih x
      simp only [List.length_cons]
      omega

theorem dup_fold (y : α) (l : List α) (pre : List α) :
    l.foldlM dupStep (pre.length, (pre ++ [y]).map some ++ List.replicate (uniq y l).length none) =
      some (pre.length + (uniq y l).length, (pre ++ y :: uniq y l).map some) := by
  induction l generalizing y pre with
  | nil => simp [uniq]
  | cons x l ih =>
    have hget : ((pre ++ [y]).map some ++ List.replicate (uniq y (x :: l)).length none)[pre.length]? = some (some y) := by
      rw [List.getElem?_append_left (by simp)]
      simp
    rw [List.foldlM_cons]
    unfold dupStep
    dsimp only
    rw [hget]
    dsimp only
    by_cases h : x = y
    · subst h
      rw [if_neg (by simp)]
      have e : uniq x (x :: l) = uniq x l := by simp [uniq]
      rw [e]
      exact ih x pre
    · have e : uniq y (x :: l) = x :: uniq x l := by simp [uniq, h]
      rw [e, if_pos h, if_pos (by simp)]
      have e2 : ((pre ++ [y]).map some ++ List.replicate (x :: uniq x l).length (none : Option α)).set (pre.length + 1) (some x) =
          ((pre ++ [y]) ++ [x]).map some ++ List.replicate (uniq x l).length none := by
        rw [List.length_cons, List.replicate_succ, List.set_append_right _ _ (by simp)]
        simp
      rw [e2]
      have := ih x (pre ++ [y])
      rw [List.length_append, List.length_singleton] at this
      refine this.trans ?_
      simp only [List.length_cons, List.append_assoc, List.cons_append, List.nil_append]
      congr 2
      omega

theorem mapM_id_some {β : Type} (l : List β) : (l.map some).mapM id = some l := by
  induction l with
  | nil => rfl
  | cons x l ih =>
    rw [List.map_cons, List.mapM_cons, ih]
    rfl

theorem dedupRow_eq (x : α) (l : List α) : dedupRow (x :: l) = some (x :: uniq x l) := by
  have h := ndup_eq x l
  have hk : (x :: l).length - ndup (x :: l) = (uniq x l).length + 1 := by
    rw [List.length_cons]
    omega
  unfold dedupRow
  dsimp only
  rw [hk, if_neg (by omega)]
  have e : (List.replicate ((uniq x l).length + 1) (none : Option α)).set 0 (some x) = (([] : List α) ++ [x]).map some ++ List.replicate (uniq x l).length none := by
    rw [List.replicate_succ]
    rfl
  have := dup_fold x l []
  rw [e, show (0 : ℕ) = ([] : List α).length from rfl, this, Option.bind_some]
  exact mapM_id_some _

theorem uniq_spec (x : α) (l : List α) (h : (x :: l).Pairwise (· ≤ ·)) :
    (x :: uniq x l).Pairwise (· < ·) ∧ ∀ v, v ∈ x :: uniq x l ↔ v ∈ x :: l := by
  induction l generalizing x with
  | nil => simp [uniq]
  | cons y l ih =>
    rw [List.pairwise_cons] at h
    obtain ⟨h1, h2⟩ := ih y h.2
    by_cases he : y = x
    · subst he
      have e : uniq y (y :: l) = uniq y l := by simp [uniq]
      rw [e]
      exact ⟨h1, fun v => by rw [h2 v]; simp⟩
    · have e : uniq x (y :: l) = y :: uniq y l := by simp [uniq, he]
      rw [e]
      refine ⟨List.pairwise_cons.mpr ⟨fun v hv => ?_, h1⟩, fun v => ?_⟩
      · have hxy : x < y := lt_of_le_of_ne (h.1 y (by simp)) (fun e => he e.symm)
        rcases List.mem_cons.mp hv with rfl | hv
        · exact hxy
        · exact hxy.trans ((List.pairwise_cons.mp h1).1 v hv)
      · rw [List.mem_cons, h2 v, List.mem_cons (a := v) (b := x)]

theorem sortRow_perm (row : List α) : (sortRow row).Perm row := List.mergeSort_perm _ _

theorem sortRow_sorted (row : List α) : (sortRow row).Pairwise (· ≤ ·) := by
  have := List.pairwise_mergeSort (le := fun a b : α => decide (a ≤ b)) (fun a b c h1 h2 => by
    simp only [decide_eq_true_eq] at *
    exact h1.trans h2) (fun a b => by simpa using le_total a b) row
  exact this.imp fun h => by simpa using h

theorem dedupRow_correct (row : List α) (hs : row.Pairwise (· ≤ ·)) :
    ∃ r, dedupRow row = some r ∧ r.Pairwise (· < ·) ∧ ∀ v, v ∈ r ↔ v ∈ row := by
  cases row with
  | nil => exact ⟨[], rfl, List.Pairwise.nil, by simp⟩
  | cons x l => exact ⟨_, dedupRow_eq x l, uniq_spec x l hs⟩

/-- **C113**, `RemoveDuplicates`: no access out of range, every entry is written, and the row has the same entries, each once, in ascending order (a row that is
declared sorted has to be sorted) -/
theorem removeDups_correct (issorted : Bool) (row : List α) (hs : issorted = true → row.Pairwise (· ≤ ·)) :
    ∃ r, removeDups issorted row = some r ∧ r.Pairwise (· < ·) ∧ ∀ v, v ∈ r ↔ v ∈ row := by
  unfold removeDups
  split_ifs with h
  · refine dedupRow_correct row ?_
    cases issorted
    · simp only [Bool.or_false, decide_eq_true_eq] at h
      match row, h with
      | [], _ => exact List.Pairwise.nil
      | [x], _ => exact List.pairwise_singleton _ _
    · exact hs rfl
  · obtain ⟨r, h1, h2, h3⟩ := dedupRow_correct (sortRow row) (sortRow_sorted row)
    exact ⟨r, h1, h2, fun v => (h3 v).trans (sortRow_perm row).mem_iff⟩

example : (true = true → ([1, 1, 3] : List ℕ).Pairwise (· ≤ ·)) := by decide

example : dedupRow ([-2, 1, 1, 3, 3, 3] : List ℤ) = some [-2, 1, 3] := by decide +kernel

end NgsAMG.LCtr
