import Verif.Spec.Loops
import Verif.Model.Loops
import Mathlib.Data.List.Nodup

/-!
# Loops: steps of walks, repeated vertices (C98)
-/

namespace NgsAMG.Loop
open NgsAMG.Spec
variable {V : Type} [LinearOrder V]

omit [LinearOrder V] in
theorem steps_append (xs ys : List V) (a : V) : steps (xs ++ a :: ys) = steps (xs ++ [a]) ++ steps (a :: ys) := by
  induction xs with
  | nil => simp [steps]
  | cons x xs ih =>
    cases xs with
    | nil => simp [steps]
    | cons y xs => simpa [steps] using ih

omit [LinearOrder V] in
theorem steps_split (c : List V) (i : ℕ) (hi : i < c.length) : steps c = steps (c.take (i + 1)) ++ steps (c.drop i) := by
  conv_lhs => rw [← List.take_append_drop i c, List.drop_eq_getElem_cons hi, steps_append]
  rw [List.drop_eq_getElem_cons hi, List.take_succ_eq_append_getElem hi]

theorem steps_part (c : List V) (i j : ℕ) (hij : i ≤ j) (hj : j < c.length) : steps (c.drop i) = steps (part c i j) ++ steps (c.drop j) := by
  rw [steps_split (c.drop i) (j - i) (by simp; omega)]
  rw [List.drop_drop, part]
  congr 2
  · congr 1; omega
  · congr 1; omega

theorem steps_chain (c : List V) (s : List ℕ) (hs : s.Pairwise (· < ·)) (hb : ∀ i ∈ s, i < c.length) (hne : s ≠ []) :
    steps (c.drop (s.headD 0)) = ((s.zip s.tail).map fun p => part c p.1 p.2).flatMap steps ++ steps (c.drop (s.getLastD 0)) := by
  induction s with
  | nil => exact absurd rfl hne
  | cons i s ih =>
    cases s with
    | nil => simp
    | cons j s =>
      have hij : i < j := (List.pairwise_cons.1 hs).1 j (by simp)
      have := ih (List.pairwise_cons.1 hs).2 (fun k hk => hb k (by simp [hk])) (by simp)
      simp only [List.headD_cons] at this
      simp only [List.headD_cons, List.tail_cons, List.zip_cons_cons, List.map_cons, List.flatMap_cons]
      rw [steps_part c i j (Nat.le_of_lt hij) (hb j (by simp)), this]
      simp [List.append_assoc]

/-- no self-steps -/
theorem steps_mem_of_sub {c : List V} {x : V × V} {i j : ℕ} (hij : i ≤ j) (hj : j < c.length) (h : x ∈ steps (part c i j)) : x ∈ steps c := by
  rw [steps_split c i (by omega), steps_part c i j hij hj]
  simp [h]

/-- what is found are positions of one vertex, in order -/
theorem findRep_some (c : List V) : ∀ (L : List (V × ℕ)) (s : List ℕ), (∀ e ∈ L, c[e.2]? = some e.1) → (L.map Prod.snd).Nodup →
    findRep c.length L = some s → ∃ v, (∀ i ∈ s, c[i]? = some v) ∧ s.Pairwise (· < ·) ∧ 2 ≤ s.length ∧ s ≠ [0, c.length - 1] := by
  intro L
  induction L with
  | nil => intro s _ _ h; simp [findRep] at h
  | cons e t ih =>
    intro s hL hn h
    have ht := ih s (fun x hx => hL x (by simp [hx])) (List.nodup_cons.1 (by simpa using hn)).2
    simp only [findRep] at h
    split_ifs at h with h1 h2
    · exact ht h
    · exact ht h
    · injection h with h
      refine ⟨e.1, ?_, ?_, ?_, ?_⟩
      · intro i hi
        rw [← h, List.mem_insertionSort, List.mem_cons] at hi
        rcases hi with rfl | hi
        · exact hL e (by simp)
        · obtain ⟨x, hx, rfl⟩ := List.mem_map.1 hi
          have : x.1 = e.1 := by simpa using (List.all_eq_true.1 (List.all_takeWhile (p := fun x : V × ℕ => decide (x.1 = e.1)) (l := t)) x hx)
          rw [← this]
          exact hL x (by simp [(List.takeWhile_sublist _).subset hx])
      · rw [← h]
        have hnd : (e.2 :: (t.takeWhile fun x => decide (x.1 = e.1)).map Prod.snd).Nodup := by
          refine hn.sublist ?_
          simp only [List.map_cons]
          exact ((List.takeWhile_sublist _).map _).cons_cons _
        have hs := List.pairwise_insertionSort (r := fun a b : ℕ => a ≤ b) (e.2 :: (t.takeWhile fun x => decide (x.1 = e.1)).map Prod.snd)
        have hnd' := (List.perm_insertionSort (fun a b : ℕ => a ≤ b) (e.2 :: (t.takeWhile fun x => decide (x.1 = e.1)).map Prod.snd)).nodup_iff.2 hnd
        exact (hs.and hnd').imp fun {a b} hab => lt_of_le_of_ne hab.1 hab.2
      · rw [← h, List.length_insertionSort]; omega
      · rw [← h]; exact h2

/-- nothing is found only if no vertex occurs twice, other than at both ends -/
theorem findRep_none (S : ℕ) : ∀ (L : List (V × ℕ)), L.Pairwise (fun a b => a.1 ≤ b.1) → (L.map Prod.snd).Nodup → findRep S L = none →
    ∀ v i j, (v, i) ∈ L → (v, j) ∈ L → i < j → i = 0 ∧ j = S - 1 := by
  intro L
  induction L with
  | nil => intro _ _ _ v i j h; simp at h
  | cons e t ih =>
    intro hp hn h v i j hi hj hij
    obtain ⟨he, hp'⟩ := List.pairwise_cons.1 hp
    obtain ⟨hne, hn'⟩ := List.nodup_cons.1 (show (e.2 :: t.map Prod.snd).Nodup by simpa using hn)
    have htn : findRep S t = none := by
      simp only [findRep] at h
      split_ifs at h <;> exact h
    have key : ∀ k l, e = (v, k) → (v, l) ∈ t → k ∈ [0, S - 1] ∧ l ∈ [0, S - 1] := by
      intro k l hk hl
      subst hk
      have hmem : (v, l) ∈ t.takeWhile fun x => decide (x.1 = v) := by
        clear h ih hp hn hi hj htn hn' hne
        induction t with
        | nil => simp at hl
        | cons y t iht =>
          have hy := he y (by simp)
          rcases List.mem_cons.1 hl with rfl | hl'
          · simp
          · have hyv : y.1 = v := le_antisymm ((List.pairwise_cons.1 hp').1 _ hl') hy
            rw [List.takeWhile_cons, if_pos (by simpa using hyv)]
            exact List.mem_cons_of_mem _ (iht (List.pairwise_cons.1 hp').2 hl' (fun x hx => he x (by simp [hx])))
      simp only [findRep] at h
      split_ifs at h with h1 h2
      · exfalso
        have := List.length_pos_of_mem hmem
        simp only [List.length_cons, List.length_map] at h1
        omega
      · have hk : k ∈ (k :: (t.takeWhile fun x => decide (x.1 = v)).map Prod.snd).insertionSort (· ≤ ·) := by
          rw [List.mem_insertionSort]; simp
        have hl : l ∈ (k :: (t.takeWhile fun x => decide (x.1 = v)).map Prod.snd).insertionSort (· ≤ ·) := by
          rw [List.mem_insertionSort]; exact List.mem_cons_of_mem _ (List.mem_map.2 ⟨_, hmem, rfl⟩)
        rw [h2] at hk hl
        exact ⟨hk, hl⟩
    have fin : i ∈ [0, S - 1] → j ∈ [0, S - 1] → i = 0 ∧ j = S - 1 := by
      intro h1 h2
      simp only [List.mem_cons, List.not_mem_nil, or_false] at h1 h2
      omega
    rcases List.mem_cons.1 hi with hi' | hi'
    · rcases List.mem_cons.1 hj with hj' | hj'
      · have := hi'.trans hj'.symm; injection this with _ this; omega
      · obtain ⟨h1, h2⟩ := key i j hi'.symm hj'; exact fin h1 h2
    · rcases List.mem_cons.1 hj with hj' | hj'
      · obtain ⟨h1, h2⟩ := key j i hj'.symm hi'; exact fin h2 h1
      · exact ih hp' hn' htn v i j hi' hj' hij

theorem sortedPos_mem (c : List V) (v : V) (i : ℕ) : (v, i) ∈ sortedPos c ↔ c[i]? = some v := by
  rw [sortedPos, List.mem_insertionSort, List.mem_zipIdx_iff_getElem?]

theorem sortedPos_nodup (c : List V) : ((sortedPos c).map Prod.snd).Nodup := by
  have : ((sortedPos c).map Prod.snd).Perm (c.zipIdx.map Prod.snd) := (List.perm_insertionSort _ _).map _
  rw [this.nodup_iff]
  have h2 : c.zipIdx.map Prod.snd = List.range' 0 c.length := by
    simp
  rw [h2]; exact List.nodup_range'

theorem sortedPos_sorted (c : List V) : (sortedPos c).Pairwise fun a b => a.1 ≤ b.1 := by
  have : Std.Total (fun a b : V × ℕ => a.1 ≤ b.1) := ⟨fun a b => le_total _ _⟩
  have : IsTrans (V × ℕ) (fun a b : V × ℕ => a.1 ≤ b.1) := ⟨fun a b c h1 h2 => le_trans h1 h2⟩
  exact List.pairwise_insertionSort _ _

end NgsAMG.Loop
