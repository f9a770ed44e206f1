import Verif.Props.Curl1
import Mathlib.Algebra.BigOperators.Group.Finset.Basic
import Mathlib.Algebra.BigOperators.Ring.Finset
import Mathlib.Tactic.FieldSimp
import Mathlib.Tactic.Ring

/-!
# C100 (helpers): rows of the curl and the divergence
-/

namespace NgsAMG.Curl
open NgsAMG.SparseMM NgsAMG.Spec

/-! ### rows of the transposed curl -/

section
variable {E : Type}

/-- the degrees of freedom of the edges of a loop, without those that have none -/
def loopDofs (col : ℕ → Option ℕ) (loop : List ℤ) : List ℕ := loop.filterMap fun k => col (enr k)

theorem curlVals_fold (col : ℕ → Option ℕ) (val : ℤ → E) (cols : List ℕ) (hc : cols.Nodup) (l : List ℤ) (hn : (loopDofs col l).Nodup)
    (f : ℕ → E) : l.foldl (fun rvs k => match col (enr k) with
      | none => rvs
      | some d => rvs.set (cols.idxOf d) (val k)) (cols.map f)
      = cols.map fun d => ((l.find? fun k => col (enr k) = some d).map val).getD (f d) := by
  induction l generalizing f with
  | nil => simp
  | cons k t ih =>
    rw [List.foldl_cons]
    cases hk : col (enr k) with
    | none =>
      simp only
      rw [ih (by simpa [loopDofs, hk] using hn)]
      apply List.map_congr_left
      intro d _
      rw [List.find?_cons_of_neg (by simp [hk])]
    | some d =>
      simp only
      have hn' : d ∉ loopDofs col t ∧ (loopDofs col t).Nodup := by
        have : loopDofs col (k :: t) = d :: loopDofs col t := by simp [loopDofs, hk]
        rw [this] at hn
        exact List.nodup_cons.1 hn
      have hset : (cols.map f).set (cols.idxOf d) (val k) = cols.map (Function.update f d (val k)) := by
        refine List.ext_getElem? fun i => ?_
        rw [List.getElem?_set, List.getElem?_map, List.getElem?_map, List.length_map]
        by_cases hi : i < cols.length
        · rw [List.getElem?_eq_getElem hi]
          by_cases hd : cols[i] = d
          · have : cols.idxOf d = i := by
              rw [← hd]
              exact hc.idxOf_getElem i hi
            rw [if_pos this, if_pos (by omega)]
            simp [hd]
          · have : cols.idxOf d ≠ i := by
              intro e
              have hlt : cols.idxOf d < cols.length := by omega
              have := List.getElem_idxOf hlt
              exact hd (by simpa only [e] using this)
            rw [if_neg this]
            simp [hd]
        · rw [List.getElem?_eq_none (by omega)]
          by_cases hh : cols.idxOf d = i
          · rw [if_pos hh, if_neg (by omega)]
            rfl
          · rw [if_neg hh]
            rfl
      rw [hset, ih hn'.2]
      apply List.map_congr_left
      intro d' _
      by_cases hd : d' = d
      · subst hd
        rw [List.find?_cons_of_pos (by simp [hk])]
        have : (t.find? fun k => decide (col (enr k) = some d')) = none := by
          rw [List.find?_eq_none]
          intro x hx hc'
          apply hn'.1
          rw [loopDofs, List.mem_filterMap]
          exact ⟨x, hx, by simpa using hc'⟩
        rw [this]
        simp
      · rw [List.find?_cons_of_neg (by rw [hk]; simpa using fun e => hd e.symm)]
        rw [Function.update_of_ne hd]

theorem curlCols_sorted (col : ℕ → Option ℕ) (loop : List ℤ) (hn : (loopDofs col loop).Nodup) : (curlCols col loop).Pairwise (· < ·) := by
  have h1 : (curlCols col loop).Pairwise (· ≤ ·) := List.pairwise_insertionSort _ _
  have h2 : (curlCols col loop).Nodup := (List.perm_insertionSort _ _).nodup_iff.2 hn
  exact (h1.and h2).imp fun h => lt_of_le_of_ne h.1 h.2

theorem mem_curlCols (col : ℕ → Option ℕ) (loop : List ℤ) (d : ℕ) : d ∈ curlCols col loop ↔ ∃ k ∈ loop, col (enr k) = some d := by
  rw [curlCols, List.mem_insertionSort, List.mem_filterMap]

/-- the row of a loop that goes through no edge twice -/
theorem curlRow_eq (junk : E) (col : ℕ → Option ℕ) (val : ℤ → E) (loop : List ℤ) (hn : (loopDofs col loop).Nodup) :
    curlRow junk col val loop = (curlCols col loop).map fun d => (d, ((loop.find? fun k => col (enr k) = some d).map val).getD junk) := by
  have hc : (curlCols col loop).Nodup := (curlCols_sorted col loop hn).imp fun h => Nat.ne_of_lt h
  rw [curlRow, curlVals]
  have := curlVals_fold col val (curlCols col loop) hc loop hn (fun _ => junk)
  refine (congrArg (List.zip (curlCols col loop)) this).trans ?_
  exact zip_map_self _ _

/-- the value of a degree of freedom in the row of a loop -/
def loopVal [Zero E] (col : ℕ → Option ℕ) (val : ℤ → E) (loop : List ℤ) (d : ℕ) : E := ((loop.find? fun k => col (enr k) = some d).map val).getD 0

theorem sum_filter_map [AddMonoid E] (cols : List ℕ) (hc : cols.Nodup) (f : ℕ → E) (j : ℕ) :
    (((cols.map fun d => (d, f d)).filter fun e => decide (e.1 = j)).map Prod.snd).sum = if j ∈ cols then f j else 0 := by
  induction cols with
  | nil => simp
  | cons d t ih =>
    obtain ⟨h1, h2⟩ := List.nodup_cons.1 hc
    by_cases hd : d = j
    · subst hd
      have := ih h2
      rw [if_neg h1] at this
      rw [List.map_cons, List.filter_cons_of_pos (by simp), List.map_cons, List.sum_cons, this, if_pos (by simp), add_zero]
    · have := ih h2
      have hj : (j ∈ d :: t) ↔ j ∈ t := by
        rw [List.mem_cons, or_iff_right fun e => hd e.symm]
      simp only [hj]
      rw [List.map_cons, List.filter_cons_of_neg (by simpa using hd)]
      exact this

/-- the entries of the transposed curl -/
theorem curlT_entry [AddMonoid E] (junk : E) (nd : ℕ) (col : ℕ → Option ℕ) (val : ℤ → E) (active : ℕ → Bool) (loops : List (List ℤ)) {k : ℕ} {loop : List ℤ}
    (hk : loops[k]? = some loop) (ha : active k = true) (hn : (loopDofs col loop).Nodup) (d : ℕ) :
    (curlT junk nd col val active loops).entry k d = loopVal col val loop d := by
  have hc : (curlCols col loop).Nodup := (curlCols_sorted col loop hn).imp fun h => Nat.ne_of_lt h
  rw [CSR.entry, curlT]
  simp only [ha, if_true, hk, Option.map_some, Option.getD_some]
  rw [curlRow_eq junk col val loop hn, sum_filter_map _ hc]
  rw [loopVal]
  by_cases hd : d ∈ curlCols col loop
  · rw [if_pos hd]
    obtain ⟨x, hx, hx'⟩ := (mem_curlCols col loop d).1 hd
    cases hf : loop.find? fun k => decide (col (enr k) = some d) with
    | none =>
      rw [List.find?_eq_none] at hf
      exact absurd (by simpa using hx') (hf x hx)
    | some y => rfl
  · rw [if_neg hd]
    have : (loop.find? fun k => decide (col (enr k) = some d)) = none := by
      rw [List.find?_eq_none]
      intro x hx hc'
      exact hd ((mem_curlCols col loop d).2 ⟨x, hx, by simpa using hc'⟩)
    rw [this]
    rfl

/-- the transposed curl is a proper matrix if no loop goes through an edge twice -/
theorem curlT_wf (junk : E) (nd : ℕ) (col : ℕ → Option ℕ) (val : ℤ → E) (active : ℕ → Bool) (loops : List (List ℤ)) (hcol : ∀ e d, col e = some d → d < nd)
    (hn : ∀ l ∈ loops, (loopDofs col l).Nodup) : (curlT junk nd col val active loops).WF := by
  have hrow : ∀ k, (curlT junk nd col val active loops).row k = [] ∨ ∃ l ∈ loops, (curlT junk nd col val active loops).row k = curlRow junk col val l := by
    intro k
    simp only [curlT]
    by_cases ha : active k = true
    · rw [if_pos ha]
      cases hl : loops[k]? with
      | none => exact Or.inl rfl
      | some l => exact Or.inr ⟨l, List.mem_of_getElem? hl, rfl⟩
    · exact Or.inl (if_neg ha)
  refine ⟨fun k => ?_, fun k e he => ?_, fun k hk => ?_⟩
  · rcases hrow k with h | ⟨l, hl, h⟩
    · rw [h]; exact List.Pairwise.nil
    · rw [h, curlRow_eq junk col val l (hn l hl), List.map_map]
      have : (Prod.fst ∘ fun d => (d, ((l.find? fun k => decide (col (enr k) = some d)).map val).getD junk)) = id := rfl
      rw [this, List.map_id]
      exact curlCols_sorted col l (hn l hl)
  · rcases hrow k with h | ⟨l, hl, h⟩
    · rw [h] at he; cases he
    · rw [h, curlRow_eq junk col val l (hn l hl)] at he
      obtain ⟨d, hd, rfl⟩ := List.mem_map.1 he
      obtain ⟨x, -, hx⟩ := (mem_curlCols col l d).1 hd
      exact hcol _ _ hx
  · simp only [curlT] at hk ⊢
    rw [List.getElem?_eq_none hk]
    split <;> rfl

end

/-! ### divergence of a loop -/

variable {K : Type} [Field K] {b : ℕ}

/-- the product of a row with the row of a loop, as a sum over the entries of the loop -/
theorem loop_sum (nd : ℕ) (D : ℕ → Mt 1 b K) (col : ℕ → Option ℕ) (val : ℤ → Mt 1 b K) (hcol : ∀ e d, col e = some d → d < nd) (loop : List ℤ) (hn : (loopDofs col loop).Nodup) :
    ∑ d ∈ Finset.range nd, D d * (loopVal col val loop d).transpose
      = (loop.map fun k => ((col (enr k)).map fun d => D d * (val k).transpose).getD 0).sum := by
  induction loop with
  | nil => simp [loopVal]
  | cons k t ih =>
    rw [List.map_cons, List.sum_cons]
    cases hk : col (enr k) with
    | none =>
      rw [← ih (by simpa [loopDofs, hk] using hn)]
      simp only [Option.map_none, Option.getD_none, zero_add]
      apply Finset.sum_congr rfl
      intro d _
      rw [loopVal, List.find?_cons_of_neg (by simp [hk])]
      rfl
    | some d =>
      have hn' : d ∉ loopDofs col t ∧ (loopDofs col t).Nodup := by
        have : loopDofs col (k :: t) = d :: loopDofs col t := by simp [loopDofs, hk]
        rw [this] at hn
        exact List.nodup_cons.1 hn
      have hv : ∀ d', loopVal col val (k :: t) d' = (if d' = d then val k else 0) + loopVal col val t d' := by
        intro d'
        by_cases hd : d' = d
        · subst hd
          have : (t.find? fun k => decide (col (enr k) = some d')) = none := by
            rw [List.find?_eq_none]
            intro x hx hc'
            apply hn'.1
            rw [loopDofs, List.mem_filterMap]
            exact ⟨x, hx, by simpa using hc'⟩
          rw [loopVal, List.find?_cons_of_pos (by simp [hk]), loopVal, this]
          simp
        · rw [loopVal, List.find?_cons_of_neg (by rw [hk]; simpa using fun e => hd e.symm), if_neg hd, zero_add]
          rfl
      rw [← ih hn'.2]
      simp only [hv, Matrix.transpose_add, Matrix.mul_add, Finset.sum_add_distrib, Option.map_some, Option.getD_some]
      congr 1
      rw [Finset.sum_eq_single d]
      · simp
      · intro d' _ hd
        simp [hd]
      · intro h
        exact absurd (Finset.mem_range.2 (hcol _ _ hk)) h

/-- how much entry `k` of a loop brings out of vertex `v` -/
def outflow (edges : ℕ → ℕ × ℕ) (v : ℕ) (k : ℤ) : K := sgn k * ((if (edges (enr k)).1 = v then 1 else 0) - (if (edges (enr k)).2 = v then 1 else 0))

end NgsAMG.Curl
