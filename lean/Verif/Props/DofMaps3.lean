import Verif.Props.DofMaps2
import Mathlib.Data.List.Nodup

/-!
# C94: the maps between degrees of freedom and vertices (`SetUpMaps`)
-/

namespace NgsAMG.DofM
open NgsAMG.Spec

/-- In a numbering the two maps are inverse to each other: every entry of the row of a vertex is a chosen degree of freedom that belongs to this vertex, and every chosen degree of freedom stands
in the row of its vertex, once. -/
theorem numbering_inverse {ndof nv : ℕ} {bs D : List ℕ} {num : ℕ → ℕ} {d2v v2d : List (Option ℕ)} (h : Numbering ndof nv bs D num d2v v2d) (hl : D.length = nv * bs.sum) (hnd : D.Nodup)
    (hinj : ∀ v < nv, ∀ w < nv, num v = num w → v = w) (hlt : ∀ v < nv, num v < nv) :
    (∀ v < nv, ∀ c < bs.sum, ∃ d ∈ D, v2d[num v * bs.sum + c]? = some (some d) ∧ d2v[d]? = some (some (num v))) ∧
      ∀ d ∈ D, ∃ v < nv, d2v[d]? = some (some (num v)) ∧ ∃! i, v2d[i]? = some (some d) ∧ i / bs.sum = num v := by
  constructor
  · intro v hv c hc
    obtain ⟨k, hk⟩ := slot_surj hv hc
    have hkl : k < D.length := by rw [hl]; exact (slot_lt hk).2.2
    obtain ⟨h1, h2⟩ := h.on k _ v c (List.getElem?_eq_getElem hkl) hk
    exact ⟨D[k], List.getElem_mem hkl, h2, h1⟩
  · intro d hd
    obtain ⟨k, hk, rfl⟩ := List.mem_iff_getElem.mp hd
    obtain ⟨v, c, hs⟩ := slot_some (nv := nv) (bs := bs) (by rw [← hl]; exact hk)
    obtain ⟨hv, hc, -⟩ := slot_lt hs
    obtain ⟨h1, h2⟩ := h.on k _ v c (List.getElem?_eq_getElem hk) hs
    have hdiv : ∀ {w c}, c < bs.sum → (w * bs.sum + c) / bs.sum = w := by
      intro w c hc
      rw [Nat.mul_comm, Nat.mul_add_div (by omega), Nat.div_eq_of_lt hc, Nat.add_zero]
    refine ⟨v, hv, h1, num v * bs.sum + c, ⟨h2, hdiv hc⟩, ?_⟩
    rintro i ⟨hi, hiv⟩
    have hpos : 0 < bs.sum := by omega
    have hie : num v * bs.sum + i % bs.sum = i := by rw [← hiv]; exact Nat.div_add_mod' _ _
    obtain ⟨k', hk'⟩ := slot_surj hv (Nat.mod_lt i hpos)
    have hkl : k' < D.length := by rw [hl]; exact (slot_lt hk').2.2
    obtain ⟨h3, h4⟩ := h.on k' _ v _ (List.getElem?_eq_getElem hkl) hk'
    rw [hie, hi] at h4
    have hkk : k = k' := (List.Nodup.getElem_inj_iff hnd).mp (Option.some.inj (Option.some.inj h4))
    subst hkk
    rw [hs] at hk'
    cases hk'
    exact hie.symm

/-- **C94** (ranges, one block size): the degrees of freedom in the ranges are numbered block by block. -/
theorem maps_range_single {ndof dpv nv : ℕ} {ranges : List (ℕ × ℕ)} (hp : 0 < dpv) (hnd : (dofsOf ranges).Nodup) (hlt : ∀ d ∈ dofsOf ranges, d < ndof)
    (hl : (dofsOf ranges).length = nv * dpv) : ∃ m, rangeSingle ndof dpv ranges = some m ∧ Numbering ndof nv [dpv] (dofsOf ranges) id m.d2v m.v2d :=
  rangeSingle_correct hp hnd hlt hl

/-- the hypotheses can be met: two ranges of 3 and 5 degrees of freedom, two per vertex -/
example : 0 < 2 ∧ (dofsOf [(1, 4), (6, 11)]).Nodup ∧ (∀ d ∈ dofsOf [(1, 4), (6, 11)], d < 12) ∧ (dofsOf [(1, 4), (6, 11)]).length = 4 * 2 ∧
    rangeSingle 12 2 [(1, 4), (6, 11)] = some ⟨[none, some 0, some 0, some 1, none, none, some 1, some 2, some 2, some 3, some 3, none],
      [some 1, some 2, some 3, some 6, some 7, some 8, some 9, some 10]⟩ := by decide

/-- **C94** (chosen degrees of freedom, one per vertex) -/
theorem maps_select_one {ndof : ℕ} {bits : List Bool} (hb : bits.length ≤ ndof) :
    ∃ m, selectOne ndof bits = some m ∧ Numbering ndof (setBits bits).length [1] (setBits bits) id m.d2v m.v2d :=
  selectOne_correct hb

example : selectOne 5 [true, false, true, true, false] = some ⟨[some 0, none, some 1, some 2, none], [some 0, some 2, some 3]⟩ := by decide

/-- **C94, partial** (ranges, several block sizes): if every range ends behind a whole block, the loops end and give the numbering. Missing: ranges that end within a block, see
`range_multi_hangs`. -/
theorem maps_range_multi_partial {ndof nv fuel : ℕ} {sizes : List ℕ} {ranges : List (ℕ × ℕ)} (hne : sizes ≠ []) (hpos : ∀ b ∈ sizes, 0 < b) (hnd : (dofsOf ranges).Nodup)
    (hlt : ∀ d ∈ dofsOf ranges, d < ndof) (hl : (dofsOf ranges).length = nv * sizes.sum) (hw : ∀ i ≤ ranges.length, WholeBlocks nv sizes (inSS (ranges.take i)))
    (hf : ∀ r ∈ ranges, r.2 - r.1 ≤ fuel) : ∃ s, rangeMulti ndof sizes ranges fuel = .done s ∧ Numbering ndof nv sizes (dofsOf ranges) id s.maps.d2v s.maps.v2d :=
  rangeMulti_correct hne hpos hnd hlt hl hw hf

/-- the hypotheses can be met: two vertices with blocks of 2 and 1 degrees of freedom, the second range begins within the blocks of size 2 -/
example : (∀ b ∈ [2, 1], 0 < b) ∧ (dofsOf [(1, 3), (5, 9)]).Nodup ∧ (∀ d ∈ dofsOf [(1, 3), (5, 9)], d < 10) ∧ (dofsOf [(1, 3), (5, 9)]).length = 2 * [2, 1].sum ∧
    (∀ i ≤ [((1 : ℕ), (3 : ℕ)), (5, 9)].length, WholeBlocks 2 [2, 1] (inSS ([((1 : ℕ), (3 : ℕ)), (5, 9)].take i))) ∧ (∀ r ∈ [((1 : ℕ), (3 : ℕ)), (5, 9)], r.2 - r.1 ≤ 4) ∧
    ∃ s, rangeMulti 10 [2, 1] [(1, 3), (5, 9)] 4 = .done s ∧ s.maps = ⟨[none, some 0, some 0, none, none, some 1, some 1, some 0, some 1, none], [some 1, some 2, some 7, some 5, some 6, some 8]⟩ := by
  refine ⟨by decide, by decide, by decide, by decide, ?_, by decide, ?_⟩
  · intro i hi
    have : i = 0 ∨ i = 1 ∨ i = 2 := by simp at hi; omega
    rcases this with rfl | rfl | rfl
    · exact ⟨0, 2, 0, by decide⟩
    · exact ⟨0, 2, 1, by decide⟩
    · exact ⟨1, 1, 2, by decide⟩
  · exact ⟨_, rfl, by decide⟩

theorem runWhile_fix {nv dpv : ℕ} {sizes : List ℕ} {s : BSt} (h : s.lo < s.hi ∧ s.bt < sizes.length) (hb : blockBody nv dpv sizes s = some s) (fuel : ℕ) :
    runWhile nv dpv sizes fuel s = .more s := by
  induction fuel with
  | zero => unfold runWhile; rw [if_pos h]
  | succ n ih => unfold runWhile; rw [if_pos h, hb]; exact ih

/-- **C94 fails** for ranges that end within a block: blocks of 2 and 1 for two vertices, the degrees of freedom 0..5 given as the ranges `[0, 3)` and `[3, 6)`. The degree of freedom 2 is the first
of a block of size 2, there is no room for the block in the range, and the loop goes on forever without mapping anything. -/
theorem range_multi_hangs : (dofsOf [(0, 3), (3, 6)]).Nodup ∧ (dofsOf [(0, 3), (3, 6)]).length = 2 * [2, 1].sum ∧
    ∀ fuel, ∃ s, rangeMulti 6 [2, 1] [(0, 3), (3, 6)] fuel = .more s := by
  refine ⟨by decide, by decide, ?_⟩
  intro fuel
  cases fuel with
  | zero => exact ⟨_, rfl⟩
  | succ n =>
    obtain ⟨s1, h1⟩ : ∃ s1, blockBody 2 3 [2, 1] ⟨initMaps 6 6, 0, 0, 2, 0, 0, 3⟩ = some s1 ∧ (s1.lo < s1.hi ∧ s1.bt < [2, 1].length) ∧ blockBody 2 3 [2, 1] s1 = some s1 := ⟨_, rfl, by decide, by decide⟩
    refine ⟨s1, ?_⟩
    have h2 := runWhile_fix h1.2.1 h1.2.2 n
    show runRanges 2 3 [2, 1] (n + 1) [(0, 3), (3, 6)] ⟨initMaps 6 6, 0, 0, 2, 0, 0, 0⟩ = .more s1
    unfold runRanges
    have h3 : runWhile 2 3 [2, 1] (n + 1) ⟨initMaps 6 6, 0, 0, 2, 0, 0, 3⟩ = .more s1 := by
      unfold runWhile
      rw [if_pos (by decide), h1.1]
      exact h2
    dsimp only
    rw [h3]

/-- **C94, partial** (chosen degrees of freedom, several per vertex): if there is one block size or the last two are equal, the degrees of freedom are numbered block by block. Missing: last two block
sizes that differ, see `select_multi_wrong`. -/
theorem maps_select_multi_partial {ndof nv : ℕ} {sizes : List ℕ} {bits : List Bool} (hb : bits.length ≤ ndof) (hne : sizes ≠ []) (hpos : ∀ b ∈ sizes, 0 < b)
    (hlast : ∀ t, t + 2 = sizes.length → sizes[t + 1]? = sizes[t]?) (hl : (setBits bits).length = nv * sizes.sum) :
    ∃ m, selectMulti ndof sizes bits = some m ∧ Numbering ndof nv sizes (setBits bits) id m.d2v m.v2d :=
  selectMulti_correct hb hne hpos hlast hl

/-- the hypotheses can be met, with block sizes 1, 2, 2 -/
example : (∀ b ∈ [1, 2, 2], 0 < b) ∧ (∀ t, t + 2 = [1, 2, 2].length → [1, 2, 2][t + 1]? = [1, 2, 2][t]?) ∧ (setBits (false :: List.replicate 10 true)).length = 2 * [1, 2, 2].sum ∧
    selectMulti 11 [1, 2, 2] (false :: List.replicate 10 true) = some ⟨[none, some 0, some 1, some 0, some 0, some 1, some 1, some 0, some 0, some 1, some 1],
      [some 1, some 3, some 4, some 7, some 8, some 2, some 5, some 6, some 9, some 10]⟩ := by
  refine ⟨by decide, ?_, by decide, by decide⟩
  intro t ht
  have : t = 1 := by simp at ht; omega
  subst this
  rfl

/-- **C94 fails** for chosen degrees of freedom with block sizes 2, 1: the block size stays 2 for the blocks of size 1, so the last degree of freedom is put into the row of the vertex 0, behind its end.
The first degree of freedom of vertex 1 is overwritten and the last entry of its row is never written. -/
theorem select_multi_wrong : (setBits (List.replicate 6 true)).length = 2 * [2, 1].sum ∧
    selectMulti 6 [2, 1] (List.replicate 6 true) = some ⟨[some 0, some 0, some 1, some 1, some 0, some 0], [some 0, some 1, some 4, some 5, some 3, none]⟩ ∧
    slot 2 [2, 1] 5 = some (1, 2) ∧
    ¬ ∃ m, selectMulti 6 [2, 1] (List.replicate 6 true) = some m ∧ Numbering 6 2 [2, 1] (setBits (List.replicate 6 true)) id m.d2v m.v2d := by
  have h : selectMulti 6 [2, 1] (List.replicate 6 true) = some ⟨[some 0, some 0, some 1, some 1, some 0, some 0], [some 0, some 1, some 4, some 5, some 3, none]⟩ := by decide
  refine ⟨by decide, h, by decide, ?_⟩
  rintro ⟨m, h1, h2⟩
  rw [h] at h1
  cases h1
  have := (h2.on 5 5 1 2 (by decide) (by decide)).1
  revert this
  decide

end NgsAMG.DofM
