import Verif.Model.MergeArrays1
import Verif.Props.MergeTable

/-! C03: the sentinel-based k-way merge. -/

namespace NgsAMG.MergeArrays1

open NgsAMG.Traversal

variable {α : Type*} [LinearOrder α]

theorem minAll_spec (l : List α) (m : α) (h : minAll l = some m) : m ∈ l ∧ ∀ x ∈ l, m ≤ x := by
  rcases l with _ | ⟨x, xs⟩
  · simp [minAll] at h
  · simp only [minAll, Option.some.injEq] at h
    subst h
    induction xs generalizing x with
    | nil => simp
    | cons y ys ih =>
      obtain ⟨h1, h2⟩ := ih (min x y)
      simp only [List.foldl_cons]
      refine ⟨?_, ?_⟩
      · rcases List.mem_cons.1 h1 with h | h
        · rw [h]; rcases min_choice x y with h' | h' <;> rw [h'] <;> simp
        · simp [h]
      · intro z hz
        have hb := h2 (min x y) (by simp)
        rcases List.mem_cons.1 hz with rfl | hz
        · exact hb.trans (min_le_left _ _)
        · rcases List.mem_cons.1 hz with rfl | hz
          · exact hb.trans (min_le_right _ _)
          · exact h2 z (by simp [hz])

theorem update_spec (big mv : α) (rows : List (List α)) (hb : mv < big)
    (hlt : ∀ r ∈ rows, ∀ v ∈ r, v < big) :
    ∃ d, update big mv rows (rows.map (headOr big)) =
        some (rows.map (dropIf mv), (rows.map (dropIf mv)).map (headOr big), d) ∧
      (rows.countP fun r => !r.isEmpty) = ((rows.map (dropIf mv)).countP fun r => !r.isEmpty) + d := by
  induction rows with
  | nil => exact ⟨0, rfl, rfl⟩
  | cons r rs ih =>
    obtain ⟨d, h1, h2⟩ := ih fun r hr => hlt r (by simp [hr])
    simp only [List.map_cons, update, h1, List.countP_cons]
    rcases r with _ | ⟨x, tl⟩
    · refine ⟨d, ?_, ?_⟩
      · simp [headOr, hb.ne', dropIf]
      · simpa [dropIf] using h2
    · by_cases hx : x = mv
      · subst hx
        rcases tl with _ | ⟨y, tl⟩
        · exact ⟨d + 1, by simp [headOr, dropIf], by simp [dropIf, -List.countP_map]; omega⟩
        · exact ⟨d, by simp [headOr, dropIf], by simp [dropIf, -List.countP_map]; omega⟩
      · exact ⟨d, by simp [headOr, dropIf, hx], by simp [dropIf, hx, -List.countP_map]; omega⟩

theorem loop_spec (big : α) (fuel : ℕ) (rows : List (List α))
    (hs : ∀ r ∈ rows, r.Pairwise (· < ·)) (hlt : ∀ r ∈ rows, ∀ v ∈ r, v < big) (hf : total rows ≤ fuel) :
    ∃ out, loop big fuel rows (rows.map (headOr big)) (rows.countP fun r => !r.isEmpty) = some out ∧
      out.Pairwise (· < ·) ∧ ∀ v, v ∈ out ↔ ∃ r ∈ rows, v ∈ r := by
  have hcount : ∀ rows : List (List α), (rows.countP fun r => !r.isEmpty) = 0 ↔ ∀ r ∈ rows, r = [] := by
    intro rows; rw [List.countP_eq_zero]; simp
  have hdone : ∀ rows : List (List α), (∀ r ∈ rows, r = []) → ∀ v, v ∈ ([] : List α) ↔ ∃ r ∈ rows, v ∈ r := by
    intro rows h v
    constructor
    · simp
    · rintro ⟨r, hr, hv⟩; rw [h r hr] at hv; simp at hv
  induction fuel generalizing rows with
  | zero =>
    have hall : ∀ r ∈ rows, r = [] := by
      intro r hr
      have := length_le_total hr
      exact List.length_eq_zero_iff.1 (by omega)
    refine ⟨[], ?_, List.Pairwise.nil, hdone rows hall⟩
    rw [loop, if_pos ((hcount rows).2 hall)]
  | succ fuel ih =>
    by_cases hall : ∀ r ∈ rows, r = []
    · refine ⟨[], ?_, List.Pairwise.nil, hdone rows hall⟩
      rw [loop, if_pos ((hcount rows).2 hall)]
    · have hne : ¬ (rows.countP fun r => !r.isEmpty) = 0 := fun h => hall ((hcount rows).1 h)
      push Not at hall
      obtain ⟨r0, hr0, hr0ne⟩ := hall
      obtain ⟨mv, hmv⟩ : ∃ mv, minAll (rows.map (headOr big)) = some mv := by
        rcases rows with _ | ⟨r, rs⟩
        · simp at hr0
        · exact ⟨_, rfl⟩
      obtain ⟨m1, m2⟩ := minAll_spec _ _ hmv
      have hmvb : mv < big := by
        rcases r0 with _ | ⟨x, tl⟩
        · simp at hr0ne
        · have := m2 (headOr big (x :: tl)) (List.mem_map_of_mem hr0)
          exact lt_of_le_of_lt this (hlt _ hr0 x (by simp))
      have hmex : ∃ r ∈ rows, r.head? = some mv := by
        obtain ⟨r, hr, he⟩ := List.mem_map.1 m1
        refine ⟨r, hr, ?_⟩
        rcases r with _ | ⟨x, tl⟩
        · simp [headOr] at he; exact absurd he hmvb.ne'
        · simpa [headOr] using he
      have hmr : ∀ r ∈ rows, ∀ x ∈ r.head?, mv ≤ x := by
        intro r hr x hx
        have := m2 _ (List.mem_map_of_mem (f := headOr big) hr)
        rcases r with _ | ⟨y, tl⟩
        · simp at hx
        · simp at hx; subst hx; exact this
      obtain ⟨d, u1, u2⟩ := update_spec big mv rows hmvb hlt
      obtain ⟨out, o1, o2, o3⟩ := ih (rows.map (dropIf mv))
        (by intro r hr
            obtain ⟨r0, h0, rfl⟩ := List.mem_map.1 hr
            exact dropIf_pairwise (hs r0 h0))
        (by intro r hr v hv
            obtain ⟨r0, h0, rfl⟩ := List.mem_map.1 hr
            exact hlt r0 h0 v ((mem_dropIf (hs r0 h0) (hmr r0 h0)).2 hv).1)
        (by have := total_dropIf_lt rows hmex; omega)
      refine ⟨mv :: out, ?_, ?_, ?_⟩
      · rw [loop, if_neg hne]
        simp only [hmv, u1]
        have : (rows.countP fun r => !r.isEmpty) - d = (rows.map (dropIf mv)).countP fun r => !r.isEmpty := by
          omega
        rw [this, o1]; rfl
      · rw [List.pairwise_cons]
        refine ⟨?_, o2⟩
        intro v hv
        obtain ⟨r, hr, hvr⟩ := (o3 v).1 hv
        obtain ⟨r1, h1, rfl⟩ := List.mem_map.1 hr
        exact ((mem_dropIf (hs r1 h1) (hmr r1 h1)).2 hvr).2
      · intro v
        rw [List.mem_cons, o3]
        constructor
        · rintro (rfl | ⟨r, hr, hv⟩)
          · obtain ⟨r, hr, hh⟩ := hmex
            exact ⟨r, hr, List.mem_of_mem_head? hh⟩
          · obtain ⟨r1, h1, rfl⟩ := List.mem_map.1 hr
            exact ⟨r1, h1, ((mem_dropIf (hs r1 h1) (hmr r1 h1)).2 hv).1⟩
        · rintro ⟨r, hr, hv⟩
          rcases (mem_dropIf (hs r hr) (hmr r hr)).1 hv with h | h
          · exact Or.inl h
          · exact Or.inr ⟨_, List.mem_map_of_mem hr, h⟩

/-- **C03 (sentinel-based k-way merge).** If all entries are smaller than the sentinel `big` (`INT_MAX`), merging strictly
increasing rows has no undefined behaviour, terminates, and enumerates the union in strictly increasing order. -/
theorem run_correct (big : α) (rows : List (List α)) (hs : ∀ r ∈ rows, r.Pairwise (· < ·))
    (hlt : ∀ r ∈ rows, ∀ v ∈ r, v < big) (fuel : ℕ) (hf : (rows.map List.length).sum ≤ fuel) :
    ∃ out, run big fuel rows = some out ∧ out.Pairwise (· < ·) ∧ ∀ v, v ∈ out ↔ ∃ r ∈ rows, v ∈ r :=
  loop_spec big fuel rows hs hlt hf

example : run 2147483647 10 [[1, 4], [], [2, 4, 9], ([1] : List ℕ)] = some [1, 2, 4, 9] := by decide

/-- An entry equal to the sentinel makes the code read behind the end of another row (undefined behaviour),
no matter how long it runs: the hypothesis of `run_correct` is needed. -/
theorem run_sentinel_entry_ub (fuel : ℕ) : run 2147483647 fuel [[2147483647], ([1] : List ℕ)] = none := by
  rcases fuel with _ | _ | fuel
  · decide
  · decide
  · simp [run, loop, minAll, headOr, update]

end NgsAMG.MergeArrays1
