import Verif.Props.GSBlocks1

/-!
C110, part 2: the theorem about `StokesMesh::LoopBlocks`.
-/

namespace NgsAMG.GSB

/-- loop `f` has the coarse edge `c` -/
def LoopHas (emap : List (Option ℕ)) (loops : List (List ℤ)) (c f : ℕ) : Prop := ∃ l, loops[f]? = some l ∧ CoarseOf emap l c

/-- `f` is a loop without a coarse edge -/
def LoopInner (emap : List (Option ℕ)) (loops : List (List ℤ)) (f : ℕ) : Prop := ∃ l, loops[f]? = some l ∧ ∀ c, ¬ CoarseOf emap l c

/-- **Specification**: one block for every coarse edge of a loop, with exactly the loops that have this coarse edge, and a block
of its own for every other loop; no block is empty, and no block lists a loop twice -/
structure LoopBlocksSpec (emap : List (Option ℕ)) (loops : List (List ℤ)) (B : List (List ℕ)) : Prop where
  /-- the blocks of the coarse edges are different blocks, and the loops of the block are the loops with the coarse edge -/
  edges : ∃ b : ℕ → ℕ, (∀ c d, (∃ f, LoopHas emap loops c f) → (∃ f, LoopHas emap loops d f) → b c = b d → c = d) ∧
    (∀ c f, (∃ g, LoopHas emap loops c g) → (InBlock B (b c) f ↔ LoopHas emap loops c f)) ∧
    -- and every block is one of these or the block of one inner loop
    ∀ (i : ℕ) (r : List ℕ), B[i]? = some r → (∃ c, (∃ f, LoopHas emap loops c f) ∧ b c = i) ∨ ∃ f, r = [f] ∧ LoopInner emap loops f
  /-- a loop without a coarse edge is alone in its only block -/
  inner : ∀ f, LoopInner emap loops f → ∃ i, B[i]? = some [f] ∧ ∀ j, InBlock B j f → j = i
  rows : ∀ (i : ℕ) (r : List ℕ), B[i]? = some r → r ≠ [] ∧ r.Pairwise (· < ·)

theorem mem_take_succ {α : Type*} {l : α} (pre : List α) (x : α) (f : ℕ) : (pre ++ [x])[f]? = some l ↔ pre[f]? = some l ∨ (f = pre.length ∧ x = l) := by
  by_cases h : f < pre.length
  · rw [List.getElem?_append_left h]
    constructor
    · exact Or.inl
    · rintro (h' | ⟨rfl, -⟩)
      · exact h'
      · exact absurd h (lt_irrefl _)
  · rw [List.getElem?_append_right (by omega), List.getElem?_eq_none (by omega : pre.length ≤ f)]
    by_cases h' : f = pre.length
    · subst h'; simp
    · rw [List.getElem?_eq_none (by simp; omega)]; simp [h']

theorem loopsFrom_inv (nce : ℕ) (emap : List (Option ℕ)) (hc : ∀ c, some c ∈ emap → c < nce) (ls : List (List ℤ)) :
    ∀ (pre : List (List ℤ)) (S : St), (∀ l ∈ ls, ∀ s ∈ l, s ≠ 0 ∧ s.natAbs - 1 < emap.length) →
      Inv (LoopHas emap pre) (LoopInner emap pre) S → (∀ e ∈ S.adds, e.2 < pre.length) →
      ∃ R, loopsFrom nce emap pre.length ls S = some R ∧ Inv (LoopHas emap (pre ++ ls)) (LoopInner emap (pre ++ ls)) R := by
  induction ls with
  | nil => intro pre S _ h _; exact ⟨S, rfl, by rwa [List.append_nil]⟩
  | cons l ls ih =>
    intro pre S hv h hf
    obtain ⟨u, hu, hs, hm⟩ := collect_correct emap l (hv l (by simp))
    have hPlt : ∀ c g, LoopHas emap pre c g → g < pre.length := by
      rintro c g ⟨k, hk, -⟩; exact (List.getElem?_eq_some_iff.1 hk).1
    have hAlt : ∀ g, LoopInner emap pre g → g < pre.length := by
      rintro g ⟨k, hk, -⟩; exact (List.getElem?_eq_some_iff.1 hk).1
    have key : ∃ T, loopStep nce pre.length u S = some T ∧ Inv (LoopHas emap (pre ++ [l])) (LoopInner emap (pre ++ [l])) T ∧
        ∀ e ∈ T.adds, e.2 < (pre ++ [l]).length := by
      have hlen : (pre ++ [l]).length = pre.length + 1 := by simp
      cases u with
      | nil =>
        refine ⟨alone pre.length S, rfl, (h.alone hf hPlt hAlt).congr (fun c g => ?_) fun g => ?_, ?_⟩
        · have : ∀ c, ¬ CoarseOf emap l c := fun c hcc => by simpa using (hm c).2 hcc
          simp only [LoopHas, mem_take_succ]
          constructor
          · rintro ⟨k, hk, hkc⟩; exact ⟨k, Or.inl hk, hkc⟩
          · rintro ⟨k, hk | ⟨-, rfl⟩, hkc⟩
            · exact ⟨k, hk, hkc⟩
            · exact absurd hkc (this c)
        · have : ∀ c, ¬ CoarseOf emap l c := fun c hcc => by simpa using (hm c).2 hcc
          simp only [LoopInner, mem_take_succ]
          constructor
          · rintro (⟨k, hk, hkc⟩ | rfl)
            · exact ⟨k, Or.inl hk, hkc⟩
            · exact ⟨l, Or.inr ⟨rfl, rfl⟩, this⟩
          · rintro ⟨k, hk | ⟨rfl, rfl⟩, hkc⟩
            · exact Or.inl ⟨k, hk, hkc⟩
            · exact Or.inr rfl
        · intro e he
          rw [hlen]
          rcases List.mem_append.1 he with he | he
          · exact Nat.lt_succ_of_lt (hf e he)
          · rw [List.mem_singleton.1 he]; exact Nat.lt_succ_self _
      | cons c0 u0 =>
        have hall : (c0 :: u0).all (fun c => decide (c < nce)) = true := by
          rw [List.all_eq_true]
          intro c hcu
          obtain ⟨s, -, hs⟩ := (hm c).1 hcu
          exact decide_eq_true (hc c (List.mem_of_getElem? hs))
        obtain ⟨h1, h2⟩ := Inv.foldl hAlt (c0 :: u0) h (fun e he => le_of_lt (hf e he)) (hs.imp ne_of_lt)
          fun c _ hP => absurd (hPlt c _ hP) (lt_irrefl _)
        refine ⟨_, by rw [loopStep, assignAll, if_pos hall]; simp, h1.congr (fun c g => ?_) fun g => ?_, ?_⟩
        · simp only [LoopHas, mem_take_succ, hm]
          constructor
          · rintro (⟨k, hk, hkc⟩ | ⟨hcc, rfl⟩)
            · exact ⟨k, Or.inl hk, hkc⟩
            · exact ⟨l, Or.inr ⟨rfl, rfl⟩, hcc⟩
          · rintro ⟨k, hk | ⟨rfl, rfl⟩, hkc⟩
            · exact Or.inl ⟨k, hk, hkc⟩
            · exact Or.inr ⟨hkc, rfl⟩
        · simp only [LoopInner, mem_take_succ]
          constructor
          · rintro ⟨k, hk, hkc⟩; exact ⟨k, Or.inl hk, hkc⟩
          · rintro ⟨k, hk | ⟨-, rfl⟩, hkc⟩
            · exact ⟨k, hk, hkc⟩
            · exact absurd ((hm c0).1 (by simp)) (hkc c0)
        · intro e he
          rw [hlen]
          exact Nat.lt_succ_of_le (h2 e he)
    obtain ⟨T, hT, hI, hlt⟩ := key
    obtain ⟨R, hR, hRI⟩ := ih (pre ++ [l]) T (fun k hk => hv k (by simp [hk])) hI hlt
    refine ⟨R, ?_, by simpa using hRI⟩
    rw [List.length_append, List.length_singleton] at hR
    rw [loopsFrom, hu, Option.bind_some, hT, Option.bind_some, hR]

theorem spec_of_inv {emap : List (Option ℕ)} {loops : List (List ℤ)} {S : St} (h : Inv (LoopHas emap loops) (LoopInner emap loops) S) :
    LoopBlocksSpec emap loops (mkTable S.adds) := by
  have hlen := mkTable_length h.addLt h.full
  have hb : ∀ c, (∃ f, LoopHas emap loops c f) → S.ce2b c = some ((S.ce2b c).getD 0) := by
    rintro c ⟨f, hf⟩
    obtain ⟨b, hb, -⟩ := h.edge hf
    rw [hb]; rfl
  refine ⟨⟨fun c => (S.ce2b c).getD 0, ?_, ?_, ?_⟩, ?_, ?_⟩
  · intro c d hc hd e
    have h1 := hb c hc
    have h2 := hb d hd
    simp only at e
    rw [← e] at h2
    exact h.inj h1 h2
  · intro c f hc
    rw [inBlock_mkTable]
    constructor
    · intro hm
      rcases h.why _ hm with ⟨d, hd, hdb⟩ | ⟨-, hn, -⟩
      · rw [← h.inj hdb (hb c hc)]; exact hd
      · exact absurd (hb c hc) (hn c)
    · intro hf
      obtain ⟨b, hb', hm⟩ := h.edge hf
      beta_reduce; rw [hb']; exact hm
  · intro i r hr
    have hi : i < S.cnt := by rw [← hlen]; exact (List.getElem?_eq_some_iff.1 hr).1
    obtain ⟨f, hf⟩ := h.full i hi
    rcases h.why _ hf with ⟨c, hc, hcb⟩ | ⟨ha, hn, hu⟩
    · exact Or.inl ⟨c, ⟨f, hc⟩, by simp only at hcb; beta_reduce; rw [hcb]; rfl⟩
    · refine Or.inr ⟨f, ?_, ha⟩
      have hall : ∀ g ∈ r, g = f := by
        intro g hg
        have : InBlock (mkTable S.adds) i g := ⟨r, hr, hg⟩
        exact hu g (inBlock_mkTable.1 this)
      have hmem : f ∈ r := by
        obtain ⟨r', hr', hfr⟩ := inBlock_mkTable.2 hf
        rw [hr] at hr'; rw [Option.some.inj hr']; exact hfr
      have hp := row_pairwise h.sorted i
      rw [← mkTable_row hr] at hp
      match r, hall, hmem, hp with
      | [x], ha, _, _ => rw [ha x (by simp)]
      | x :: y :: r, ha, _, hp =>
        have h1 := ha x (by simp)
        have h2 := ha y (by simp)
        rw [List.pairwise_cons] at hp
        have := hp.1 y (by simp)
        omega
  · intro f hf
    obtain ⟨i, hi, hn, hu⟩ := h.single hf
    refine ⟨i, ?_, fun j hj => hu j (inBlock_mkTable.1 hj)⟩
    obtain ⟨r, hr, hfr⟩ := inBlock_mkTable.2 hi
    have hall : ∀ g ∈ r, g = f := by
      intro g hg
      have hg' : (i, g) ∈ S.adds := inBlock_mkTable.1 ⟨r, hr, hg⟩
      rcases h.why _ hi with ⟨c, -, hcb⟩ | ⟨-, -, hu'⟩
      · exact absurd hcb (hn c)
      · exact hu' g hg'
    have hp := row_pairwise h.sorted i
    rw [← mkTable_row hr] at hp
    rw [hr]
    match r, hall, hfr, hp with
    | [x], ha, _, _ => rw [ha x (by simp)]
    | x :: y :: r, ha, _, hp =>
      have h1 := ha x (by simp)
      have h2 := ha y (by simp)
      rw [List.pairwise_cons] at hp
      have := hp.1 y (by simp)
      omega
  · intro i r hr
    have hi : i < S.cnt := by rw [← hlen]; exact (List.getElem?_eq_some_iff.1 hr).1
    obtain ⟨f, hf⟩ := h.full i hi
    have hp := row_pairwise h.sorted i
    rw [← mkTable_row hr] at hp
    refine ⟨?_, hp⟩
    rintro rfl
    obtain ⟨r', hr', hfr⟩ := inBlock_mkTable.2 hf
    rw [hr] at hr'; rw [← Option.some.inj hr'] at hfr; simp at hfr

/-- **C110.** The blocks of the loops: for every mesh, every coarse map and all loops, the function returns, and what it returns
are the blocks of `LoopBlocksSpec`, or, if all of these have only one loop, the empty table. -/
theorem loopBlocks_correct (nce : ℕ) (emap : List (Option ℕ)) (loops : List (List ℤ)) (hc : ∀ c, some c ∈ emap → c < nce)
    (hv : ∀ l ∈ loops, ∀ s ∈ l, s ≠ 0 ∧ s.natAbs - 1 < emap.length) :
    ∃ B T, loopBlocks nce emap loops = some T ∧ LoopBlocksSpec emap loops B ∧
      ((∃ r ∈ B, 1 < r.length) → T = B) ∧ ((∀ r ∈ B, r.length ≤ 1) → T = []) := by
  have h0 : Inv (LoopHas emap []) (LoopInner emap []) ⟨0, fun _ => none, []⟩ := by
    refine ⟨?_, ?_, ?_, ?_, ?_, ?_, ?_, ?_, ?_, ?_⟩ <;> simp [LoopHas, LoopInner]
  obtain ⟨R, hR, hI⟩ := loopsFrom_inv nce emap hc loops [] _ hv h0 (by simp)
  refine ⟨mkTable R.adds, ifNeeded (mkTable R.adds), ?_, spec_of_inv (by simpa using hI), ?_, ?_⟩
  · rw [loopBlocks]
    rw [List.length_nil] at hR
    rw [hR]; rfl
  · rintro ⟨r, hr, hl⟩
    rw [ifNeeded, if_pos]
    rw [List.any_eq_true]
    exact ⟨r, hr, decide_eq_true hl⟩
  · intro hl
    rw [ifNeeded, if_neg]
    rw [List.any_eq_true]
    rintro ⟨r, hr, h⟩
    have := hl r hr
    have := of_decide_eq_true h
    omega

/-- **C110.** Two different loops are smoothed together if and only if they have a common coarse edge, and otherwise the
blocks are not needed: the function returns the empty table if and only if no two different loops have a common coarse edge
(or there are no loops). -/
theorem loopBlocks_together (nce : ℕ) (emap : List (Option ℕ)) (loops : List (List ℤ)) (hc : ∀ c, some c ∈ emap → c < nce)
    (hv : ∀ l ∈ loops, ∀ s ∈ l, s ≠ 0 ∧ s.natAbs - 1 < emap.length) :
    ∃ T, loopBlocks nce emap loops = some T ∧
      (∀ f g, f ≠ g → ((∃ i, InBlock T i f ∧ InBlock T i g) ↔ ∃ c, LoopHas emap loops c f ∧ LoopHas emap loops c g)) ∧
      (T ≠ [] → ∀ f, (∃ i, InBlock T i f) ↔ f < loops.length) ∧
      (T = [] ↔ ∀ f g c, LoopHas emap loops c f → LoopHas emap loops c g → f = g) := by
  obtain ⟨B, T, hT, hB, h1, h2⟩ := loopBlocks_correct nce emap loops hc hv
  obtain ⟨⟨b, hinj, hmem, hall⟩, hin, hrow⟩ := hB
  have htog : ∀ f g, f ≠ g → ((∃ i, InBlock B i f ∧ InBlock B i g) ↔ ∃ c, LoopHas emap loops c f ∧ LoopHas emap loops c g) := by
    intro f g hfg
    constructor
    · rintro ⟨i, ⟨r, hr, hf⟩, ⟨r', hr', hg⟩⟩
      have e : r = r' := by rw [hr] at hr'; exact Option.some.inj hr'
      subst e
      rcases hall i r hr with ⟨c, hc, rfl⟩ | ⟨k, rfl, -⟩
      · exact ⟨c, (hmem c f hc).1 ⟨r, hr, hf⟩, (hmem c g hc).1 ⟨r, hr, hg⟩⟩
      · rw [List.mem_singleton] at hf hg
        exact absurd (hf.trans hg.symm) hfg
    · rintro ⟨c, hf, hg⟩
      exact ⟨b c, (hmem c f ⟨f, hf⟩).2 hf, (hmem c g ⟨f, hf⟩).2 hg⟩
  have hcov : ∀ f, (∃ i, InBlock B i f) ↔ f < loops.length := by
    intro f
    constructor
    · rintro ⟨i, r, hr, hf⟩
      rcases hall i r hr with ⟨c, hc, rfl⟩ | ⟨k, rfl, ⟨l, hl, -⟩⟩
      · obtain ⟨l, hl, -⟩ := (hmem c f hc).1 ⟨r, hr, hf⟩
        exact (List.getElem?_eq_some_iff.1 hl).1
      · rw [List.mem_singleton] at hf; subst hf
        exact (List.getElem?_eq_some_iff.1 hl).1
    · intro hf
      have hl : loops[f]? = some loops[f] := List.getElem?_eq_getElem hf
      by_cases hx : ∃ c, CoarseOf emap loops[f] c
      · obtain ⟨c, hc⟩ := hx
        have hh : LoopHas emap loops c f := ⟨_, hl, hc⟩
        exact ⟨b c, (hmem c f ⟨f, hh⟩).2 hh⟩
      · obtain ⟨i, hi, -⟩ := hin f ⟨_, hl, fun c hc => hx ⟨c, hc⟩⟩
        exact ⟨i, _, hi, by simp⟩
  by_cases hn : ∃ r ∈ B, 1 < r.length
  · have e := h1 hn
    subst e
    refine ⟨T, hT, htog, fun _ => hcov, ?_⟩
    obtain ⟨r, hr, hl⟩ := hn
    constructor
    · intro h; rw [h] at hr; simp at hr
    · intro h
      obtain ⟨i, hi⟩ := List.mem_iff_getElem?.1 hr
      match r, hl, hi with
      | x :: y :: r, _, hi =>
        have hp := (hrow i _ hi).2
        rw [List.pairwise_cons] at hp
        have hxy : x < y := hp.1 y (by simp)
        obtain ⟨c, hcx, hcy⟩ := (htog x y (ne_of_lt hxy)).1 ⟨i, ⟨_, hi, by simp⟩, ⟨_, hi, by simp⟩⟩
        exact absurd (h x y c hcx hcy) (ne_of_lt hxy)
  · have hle : ∀ r ∈ B, r.length ≤ 1 := fun r hr => by
      by_contra hcon; exact hn ⟨r, hr, by omega⟩
    have e := h2 hle
    subst e
    have hno : ∀ f g c, LoopHas emap loops c f → LoopHas emap loops c g → f = g := by
      intro f g c hf hg
      by_contra hfg
      obtain ⟨i, ⟨r, hr, hfr⟩, ⟨r', hr', hgr⟩⟩ := (htog f g hfg).2 ⟨c, hf, hg⟩
      have e : r = r' := by rw [hr] at hr'; exact Option.some.inj hr'
      subst e
      have hl := hle r (List.mem_of_getElem? hr)
      match r, hl, hfr, hgr with
      | [x], _, hfr, hgr =>
        rw [List.mem_singleton] at hfr hgr
        exact hfg (hfr.trans hgr.symm)
    refine ⟨[], hT, fun f g hfg => ⟨?_, ?_⟩, fun h => absurd rfl h, fun _ => hno, fun _ => rfl⟩
    · rintro ⟨i, ⟨r, hr, -⟩, -⟩; simp at hr
    · rintro ⟨c, hf, hg⟩; exact absurd (hno f g c hf hg) hfg

/-- the hypotheses are met: four loops over five edges, the edges 0 and 1 become the coarse edge 0, edge 3 becomes coarse edge 1,
the others vanish; loop 0 has both coarse edges, loop 1 has the first, loop 2 none -/
example : loopBlocks 2 [some 0, some 0, none, some 1, none] [[1, -3, 4], [-2], [3, 5], [4, 1]] =
    some [[0, 1, 3], [0, 3], [2]] ∧
    (∀ c, some c ∈ [some 0, some 0, none, some 1, none] → c < 2) ∧
    ∀ l ∈ ([[1, -3, 4], [-2], [3, 5], [4, 1]] : List (List ℤ)), ∀ s ∈ l, s ≠ 0 ∧ s.natAbs - 1 < 5 := by
  refine ⟨by decide +kernel, by simp, by decide⟩

/-- no blocks are needed -/
example : loopBlocks 2 [some 0, none, some 1] [[1, 2], [2], [3]] = some [] := by decide +kernel

end NgsAMG.GSB
