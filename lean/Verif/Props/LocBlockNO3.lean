import Verif.Props.LocBlockNO2

/-!
# C81: the constructor of `BSmoother2` for blocks without common unknowns
-/

namespace NgsAMG.BlkGS
open Matrix NgsAMG.GS NgsAMG.Spec

variable {k : ℕ}

theorem d2b_inner (nr : ℕ) (b : List ℕ) (f : ℕ → Option ℕ) (hn : b.Nodup) (hf : ∀ d ∈ b, f d = none) :
    b.foldlM (fun (f : ℕ → Option ℕ) d => if (f d).isSome then none else some (Function.update f d (some nr))) f = some fun d => if d ∈ b then some nr else f d := by
  induction b generalizing f with
  | nil => simp
  | cons d b ih =>
    rw [List.foldlM_cons, hf d List.mem_cons_self]
    show List.foldlM _ (Function.update f d (some nr)) b = _
    rw [ih _ (List.nodup_cons.1 hn).2]
    · congr 1
      funext e
      by_cases he : e ∈ b
      · simp [he]
      · by_cases hed : e = d
        · subst hed; simp [he]
        · simp [he, hed]
    · intro e he
      have : e ≠ d := fun h => (List.nodup_cons.1 hn).1 (h ▸ he)
      rw [Function.update_of_ne this]
      exact hf e (List.mem_cons_of_mem _ he)

theorem d2b_inner_none (nr : ℕ) (b : List ℕ) (f : ℕ → Option ℕ) (h : ¬ (b.Nodup ∧ ∀ d ∈ b, f d = none)) :
    b.foldlM (fun (f : ℕ → Option ℕ) d => if (f d).isSome then none else some (Function.update f d (some nr))) f = none := by
  induction b generalizing f with
  | nil => exact absurd ⟨List.nodup_nil, by simp⟩ h
  | cons d b ih =>
    rw [List.foldlM_cons]
    cases hd : f d with
    | some q => rfl
    | none =>
      show List.foldlM _ (Function.update f d (some nr)) b = _
      refine ih _ fun h2 => h ⟨List.nodup_cons.2 ⟨fun hm => ?_, h2.1⟩, fun e he => ?_⟩
      · have := h2.2 d hm
        rw [Function.update_self] at this
        simp at this
      · rcases List.mem_cons.1 he with rfl | he
        · exact hd
        · have h3 := h2.2 e he
          by_cases hed : e = d
          · rw [hed]; exact hd
          · rwa [Function.update_of_ne hed] at h3

theorem mkD2B_some (l : List (ℕ × List ℕ)) (f : ℕ → Option ℕ) (hn : (l.map Prod.snd).flatten.Nodup) (hf : ∀ d ∈ (l.map Prod.snd).flatten, f d = none) :
    ∃ g, mkD2B l f = some g ∧ (∀ p ∈ l, ∀ d ∈ p.2, g d = some p.1) ∧ ∀ d, d ∉ (l.map Prod.snd).flatten → g d = f d := by
  induction l generalizing f with
  | nil => exact ⟨f, rfl, by simp, fun _ _ => rfl⟩
  | cons p l ih =>
    obtain ⟨nr, b⟩ := p
    rw [List.map_cons, List.flatten_cons] at hn hf
    have hn' := List.nodup_append'.1 hn
    obtain ⟨g, h1, h2, h3⟩ := ih (fun d => if d ∈ b then some nr else f d) hn'.2.1 fun d hd => by
      have : d ∉ b := fun hb => hn'.2.2 hb hd
      rw [if_neg this]
      exact hf d (List.mem_append_right _ hd)
    refine ⟨g, ?_, ?_, ?_⟩
    · rw [mkD2B, d2b_inner nr b f hn'.1 fun d hd => hf d (List.mem_append_left _ hd), Option.bind_some, h1]
    · intro p hp d hd
      rcases List.mem_cons.1 hp with rfl | hp
      · rw [h3 d fun hm => hn'.2.2 hd hm]
        exact if_pos hd
      · exact h2 p hp d hd
    · intro d hd
      rw [List.map_cons, List.flatten_cons, List.mem_append, not_or] at hd
      rw [h3 d hd.2, if_neg hd.1]

theorem mkD2B_none (l : List (ℕ × List ℕ)) (f : ℕ → Option ℕ) (h : ¬ ((l.map Prod.snd).flatten.Nodup ∧ ∀ d ∈ (l.map Prod.snd).flatten, f d = none)) : mkD2B l f = none := by
  induction l generalizing f with
  | nil => exact absurd ⟨List.nodup_nil, by simp⟩ h
  | cons p l ih =>
    obtain ⟨nr, b⟩ := p
    rw [mkD2B]
    by_cases hb : b.Nodup ∧ ∀ d ∈ b, f d = none
    · rw [d2b_inner nr b f hb.1 hb.2, Option.bind_some]
      refine ih _ fun h2 => h ⟨?_, ?_⟩
      · rw [List.map_cons, List.flatten_cons]
        refine List.nodup_append'.2 ⟨hb.1, h2.1, fun d hd hm => ?_⟩
        have := h2.2 d hm
        rw [if_pos hd] at this
        simp at this
      · intro d hd
        rw [List.map_cons, List.flatten_cons, List.mem_append] at hd
        rcases hd with hd | hd
        · exact hb.2 d hd
        · have := h2.2 d hd
          split at this
          · simp at this
          · exact this
    · rw [d2b_inner_none nr b f hb]; rfl

theorem split_groups {α β : Type} (Gs : List (List β)) (L : List α) (h : L.length = Gs.flatten.length) : ∃ Hs : List (List α), Hs.flatten = L ∧ Hs.map List.length = Gs.map List.length := by
  induction Gs generalizing L with
  | nil => exact ⟨[], by simpa using (List.length_eq_zero_iff.1 (by simpa using h)).symm, rfl⟩
  | cons G Gs ih =>
    rw [List.flatten_cons, List.length_append] at h
    obtain ⟨Hs, h1, h2⟩ := ih (L.drop G.length) (by rw [List.length_drop]; omega)
    refine ⟨L.take G.length :: Hs, ?_, ?_⟩
    · rw [List.flatten_cons, h1, List.take_append_drop]
    · rw [List.map_cons, List.map_cons, h2, List.length_take, Nat.min_eq_left (by omega)]

/-- the constructor finishes exactly if no unknown is in two blocks (or twice in one); then the blocks hold the rows of the matrix, in parts before and behind the block -/
theorem mkLSm_no (inv : Inverter k) (A : CSR (Blk k)) (hA : A.WF) (groups : List (List (List ℕ))) :
    (¬ groups.flatten.flatten.Nodup → mkLSm inv A groups true none = none) ∧
    (groups.flatten.flatten.Nodup →
      (∀ dofs ∈ groups.flatten, (specBlock inv A none dofs).2 * diagBlock A.entry (specBlock inv A none dofs).1 = 1) →
      ∃ S Gs, mkLSm inv A groups true none = some S ∧ S.no = true ∧ S.Grouped Gs ∧ NOBlocks A S.blocks ∧ S.blocks.map LBlock.toSpec = groups.flatten.map (specBlock inv A none)) := by
  generalize hbs : groups.flatten = bs
  have hmap : ((bs.zipIdx.map fun p => (p.2, p.1)).map Prod.snd) = bs := by
    rw [List.map_map]
    exact List.zipIdx_map_fst 0 bs
  constructor
  · intro hn
    rw [mkLSm, if_pos rfl, hbs, mkD2B_none _ _ (by rw [hmap]; exact fun h => hn h.1)]
    rfl
  · intro hn hinv
    obtain ⟨d2b, h1, h2, h3⟩ := mkD2B_some (bs.zipIdx.map fun p => (p.2, p.1)) (fun _ => none) (by rw [hmap]; exact hn) fun _ _ => rfl
    rw [hmap] at h3
    have hget : ∀ i (hi : i < bs.length), ∀ d, d2b d = some i ↔ d ∈ bs[i] := by
      intro i hi d
      have key : ∀ j (hj : j < bs.length), d ∈ bs[j] → d2b d = some j := by
        intro j hj hd
        exact h2 (j, bs[j]) (List.mem_map.2 ⟨(bs[j], j), by rw [List.mem_zipIdx_iff_getElem?]; exact List.getElem?_eq_getElem hj, rfl⟩) d hd
      refine ⟨fun h => ?_, key i hi⟩
      by_cases hm : d ∈ bs.flatten
      · obtain ⟨b, hb, hd⟩ := List.mem_flatten.1 hm
        obtain ⟨j, hj, rfl⟩ := List.getElem_of_mem hb
        have := key j hj hd
        rw [h] at this
        have : i = j := Option.some.inj this
        subst this
        exact hd
      · rw [h3 d hm] at h; simp at h
    obtain ⟨Gs, hG1, hG2⟩ := split_groups groups (bs.zipIdx.map fun p => setLU inv p.2 d2b A p.1) (by rw [List.length_map, List.length_zipIdx, hbs])
    have hbn : ∀ b ∈ bs, b.Nodup := fun b hb => (List.nodup_flatten.1 hn).1 b hb
    refine ⟨⟨A.height, bs.zipIdx.map fun p => setLU inv p.2 d2b A p.1, fiOf (groups.map List.length), true⟩, Gs, ?_, rfl, ⟨hG1.symm, by rw [hG2]⟩, ⟨?_, ?_, ?_⟩, ?_⟩
    · rw [mkLSm, if_pos rfl, hbs, h1, Option.bind_some]
      simp
    · intro B hB
      obtain ⟨⟨b, i⟩, hp, rfl⟩ := List.mem_map.1 hB
      rw [List.mem_zipIdx_iff_getElem?] at hp
      dsimp only at hp
      obtain ⟨hi, rfl⟩ := List.getElem?_eq_some_iff.1 hp
      exact setLU_repr inv A hA _ d2b _ (hbn _ (List.getElem_mem _)) (hget _ hi)
    · intro B hB
      obtain ⟨⟨b, i⟩, hp, rfl⟩ := List.mem_map.1 hB
      rw [List.mem_zipIdx_iff_getElem?] at hp
      dsimp only at hp
      obtain ⟨hi, rfl⟩ := List.getElem?_eq_some_iff.1 hp
      have h4 := hinv bs[i] (List.getElem_mem _)
      show inv _ (diagOf A none (bs[i].insertionSort (· ≤ ·))) * diagOf A none (bs[i].insertionSort (· ≤ ·)) = 1
      rw [diagOf_none A hA]
      exact h4
    · rw [List.pairwise_iff_getElem]
      intro i j hi hj hij
      rw [List.length_map, List.length_zipIdx] at hi hj
      rw [List.getElem_map, List.getElem_map, List.getElem_zipIdx, List.getElem_zipIdx]
      simp only [Nat.zero_add]
      have hmem : ∀ i (hi : i < bs.length) d, d ∈ (setLU inv i d2b A bs[i]).dofs ↔ d2b d = some i := by
        intro i hi d
        rw [hget i hi]
        exact List.mem_insertionSort (r := (· ≤ ·))
      refine ⟨fun d hd hd' => ?_, fun p e he hd => ?_, fun p e he hd => ?_⟩
      · rw [hmem i hi] at hd
        rw [hmem j hj, hd] at hd'
        have : i = j := Option.some.inj hd'
        omega
      · rw [hmem j hj] at hd
        have h5 := (List.mem_filter.1 he).2
        rw [hd] at h5
        have : j < i := by simpa using h5
        omega
      · rw [hmem i hi] at hd
        have h5 := (List.mem_filter.1 he).2
        rw [hd] at h5
        have : j < i := by simpa using h5
        omega
    · rw [List.map_map]
      conv_rhs => rw [← List.zipIdx_map_fst 0 bs, List.map_map]
      refine List.map_congr_left fun p _ => ?_
      show (⟨_, inv _ (diagOf A none (p.1.insertionSort (· ≤ ·)))⟩ : SBlock k) = _
      rw [diagOf_none A hA]; rfl

/-- with a replaced diagonal the constructor throws if there are blocks -/
theorem mkLSm_no_md (inv : Inverter k) (A : CSR (Blk k)) (groups : List (List (List ℕ))) (md : ℕ → Blk k) (h : groups.flatten ≠ []) :
    mkLSm inv A groups true (some md) = none := by
  rw [mkLSm, if_pos rfl]
  cases mkD2B (groups.flatten.zipIdx.map fun p => (p.2, p.1)) fun _ => none with
  | none => rfl
  | some g =>
    have : groups.flatten.isEmpty = false := by simpa using h
    rw [Option.bind_some, this]; rfl

end NgsAMG.BlkGS
