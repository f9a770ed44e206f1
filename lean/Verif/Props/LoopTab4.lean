import Verif.Props.LoopTab3

/-!
# C99: removing duplicate coarse loops, and the tables of the coarse loops
-/

namespace NgsAMG.LTab
open NgsAMG.Spec NgsAMG.Exch NgsAMG.Loop
variable {N V C : Type} [DecidableEq N] [DecidableEq C] [LinearOrder V]

/-- the names of the rows `noDupRows` keeps -/
def firstOf (L : C → List V) : List (List V) → List C → List C
  | _, [] => []
  | before, c :: t => if isDup before (L c) then firstOf L (L c :: before) t else c :: firstOf L (L c :: before) t

omit [DecidableEq C] in
theorem noDupRows_eq (L : C → List V) (g : C → List ℕ) (before : List (List V)) (cs : List C) :
    noDupRows before (cs.map fun c => (g c, L c)) = (firstOf L before cs).map fun c => (g c, L c) := by
  induction cs generalizing before with
  | nil => rfl
  | cons c t ih =>
    rw [List.map_cons, noDupRows, firstOf]
    split
    · exact ih _
    · rw [List.map_cons, ih]

omit [DecidableEq C] in
theorem noDupRows_snd (before : List (List V)) (rows : List (List ℕ × List V)) : (noDupRows before rows).map Prod.snd = noDups before (rows.map Prod.snd) := by
  induction rows generalizing before with
  | nil => rfl
  | cons r t ih =>
    rw [noDupRows, List.map_cons, noDups]
    split
    · exact ih _
    · rw [List.map_cons, ih]

omit [DecidableEq C] in
theorem firstOf_sublist (L : C → List V) (before : List (List V)) (cs : List C) : (firstOf L before cs).Sublist cs := by
  induction cs generalizing before with
  | nil => exact List.Sublist.refl _
  | cons c t ih =>
    rw [firstOf]
    split
    · exact (ih _).cons _
    · exact (ih _).cons_cons _

omit [DecidableEq C] in
theorem mem_firstOf (L : C → List V) (before : List (List V)) (cs : List C) (hn : cs.Nodup) (c : C) :
    c ∈ firstOf L before cs ↔ c ∈ cs ∧ L c ∉ before ∧ ∀ c', [c', c].Sublist cs → L c' ≠ L c := by
  induction cs generalizing before with
  | nil => simp [firstOf]
  | cons d t ih =>
    obtain ⟨hdt, ht⟩ := List.nodup_cons.1 hn
    have hsub : ∀ c', c ≠ d → ([c', c].Sublist (d :: t) ↔ (c' = d ∧ c ∈ t) ∨ [c', c].Sublist t) := by
      intro c' hcd
      rw [List.sublist_cons_iff]
      constructor
      · rintro (h | ⟨r, hr, h⟩)
        · exact Or.inr h
        · injection hr with h1 h2
          subst h1 h2
          exact Or.inl ⟨rfl, by simpa using h⟩
      · rintro (⟨rfl, h⟩ | h)
        · exact Or.inr ⟨[c], rfl, by simpa using h⟩
        · exact Or.inl h
    by_cases hcd : c = d
    · subst hcd
      have hns : ∀ c', ¬ [c', c].Sublist (c :: t) := by
        intro c' h
        rw [List.sublist_cons_iff] at h
        rcases h with h | ⟨r, hr, h⟩
        · exact hdt (h.subset (by simp))
        · injection hr with h1 h2
          subst h2
          exact hdt (by simpa using h)
      rw [firstOf]
      split
      · rename_i h
        rw [isDup_iff] at h
        rw [ih _ ht]
        simp [hdt, h]
      · rename_i h
        rw [isDup_iff] at h
        simp [h, hns]
    · have key : c ∈ firstOf L (L d :: before) t ↔ c ∈ d :: t ∧ L c ∉ before ∧ ∀ c', [c', c].Sublist (d :: t) → L c' ≠ L c := by
        rw [ih _ ht]
        simp only [hsub _ hcd, List.mem_cons, hcd, false_or, not_or]
        constructor
        · rintro ⟨h1, ⟨h2, h3⟩, h4⟩
          refine ⟨h1, h3, ?_⟩
          rintro c' (⟨rfl, -⟩ | h)
          · exact fun e => h2 e.symm
          · exact h4 c' h
        · rintro ⟨h1, h2, h3⟩
          exact ⟨h1, ⟨fun e => h3 d (Or.inl ⟨rfl, h1⟩) e.symm, h2⟩, fun c' h => h3 c' (Or.inr h)⟩
      rw [firstOf]
      split
      · exact key
      · rw [List.mem_cons, or_iff_right hcd]
        exact key

omit [DecidableEq C] in
theorem firstOf_map (L : C → List V) (before : List (List V)) (cs : List C) : ((firstOf L before cs).map L).Nodup ∧
    (∀ l ∈ (firstOf L before cs).map L, l ∉ before) ∧ ∀ c ∈ cs, L c ∈ before ∨ L c ∈ (firstOf L before cs).map L := by
  induction cs generalizing before with
  | nil => simp [firstOf]
  | cons d t ih =>
    obtain ⟨h1, h2, h3⟩ := ih (L d :: before)
    rw [firstOf]
    split
    · rename_i h
      rw [isDup_iff] at h
      refine ⟨h1, fun l hl => ?_, fun c hc => ?_⟩
      · exact fun hb => h2 l hl (List.mem_cons_of_mem _ hb)
      · rcases List.mem_cons.1 hc with rfl | hc
        · exact Or.inl h
        · rcases h3 c hc with h' | h'
          · rcases List.mem_cons.1 h' with e | h'
            · exact Or.inl (e ▸ h)
            · exact Or.inl h'
          · exact Or.inr h'
    · rename_i h
      rw [isDup_iff] at h
      rw [List.map_cons]
      refine ⟨List.nodup_cons.2 ⟨fun hm => h2 _ hm (by simp), h1⟩, fun l hl => ?_, fun c hc => ?_⟩
      · rcases List.mem_cons.1 hl with rfl | hl
        · exact h
        · exact fun hb => h2 l hl (List.mem_cons_of_mem _ hb)
      · rcases List.mem_cons.1 hc with rfl | hc
        · exact Or.inr (by simp)
        · rcases h3 c hc with h' | h'
          · rcases List.mem_cons.1 h' with e | h'
            · exact Or.inr (by simp [e])
            · exact Or.inl h'
          · exact Or.inr (List.mem_cons_of_mem _ h')

theorem filter_of_sublist {s l : List C} (h : s.Sublist l) (hn : l.Nodup) : l.filter (fun c => decide (c ∈ s)) = s := by
  induction h with
  | slnil => rfl
  | @cons s l a hs ih =>
    obtain ⟨h1, h2⟩ := List.nodup_cons.1 hn
    rw [List.filter_cons_of_neg (by simpa using fun h => h1 (hs.subset h)), ih h2]
  | @cons_cons s l a hs ih =>
    obtain ⟨h1, h2⟩ := List.nodup_cons.1 hn
    rw [List.filter_cons_of_pos (by simp)]
    congr 1
    rw [← ih h2]
    apply List.filter_congr
    intro c hc
    have hne : c ≠ a := fun e => h1 (e ▸ hc)
    rw [ih h2]
    simp [hne]

/-- if all processes that share a row agree on whether it is kept, the tables stay right -/
theorem shared_sublist {np : ℕ} {names names' : ℕ → List C} {dps : ℕ → List (List ℕ)} (hS : Shared np names dps) (hs : ∀ p < np, (names' p).Sublist (names p))
    (hk : ∀ p < np, ∀ q < np, ∀ n ∈ names' p, n ∈ names q → n ∈ names' q) :
    Shared np names' fun p => (names' p).map (others np names p) where
  nodup p hp := (hs p hp).nodup (hS.nodup p hp)
  dps p hp := by
    apply List.map_congr_left
    intro n hn
    simp only [others, owners]
    congr 1
    apply List.filter_congr
    intro q hq
    have hq' : q < np := by simpa using hq
    have : n ∈ names q ↔ n ∈ names' q := ⟨hk p hp q hq' n hn, fun h => (hs q hq').subset h⟩
    simp [this]
  order p hp q hq := by
    have e : ∀ p < np, ∀ q < np, (names' p).filter (fun n => decide (n ∈ names' q))
        = ((names p).filter fun n => decide (n ∈ names q)).filter fun n => decide (n ∈ names' p) && decide (n ∈ names' q) := by
      intro p hp q hq
      rw [List.filter_filter]
      conv_lhs => rw [← filter_of_sublist (hs p hp) (hS.nodup p hp), List.filter_filter]
      apply List.filter_congr
      intro n _
      by_cases h1 : n ∈ names' p <;> by_cases h2 : n ∈ names' q
      · simp [h1, h2, (hs q hq).subset h2]
      · simp [h2]
      · simp [h1]
      · simp [h1]
    rw [e p hp q hq, e q hq p hp, hS.order p hp q hq]
    apply List.filter_congr
    intro n _
    rw [Bool.and_comm]

theorem sublist_shared {np : ℕ} {names : ℕ → List C} {dps : ℕ → List (List ℕ)} (hS : Shared np names dps) {p q : ℕ} (hp : p < np) (hq : q < np) {a b : C}
    (h : [a, b].Sublist (names p)) (ha : a ∈ names q) (hb : b ∈ names q) : [a, b].Sublist (names q) := by
  have h1 := h.filter fun n => decide (n ∈ names q)
  rw [List.filter_cons_of_pos (by simpa using ha), List.filter_cons_of_pos (by simpa using hb), List.filter_nil, hS.order p hp q hq] at h1
  exact h1.trans List.filter_sublist

/-- the coarse loops left after the duplicates are removed -/
def uniqueNames (names : ℕ → List N) (cl : N → List (List V)) (p : ℕ) : List (N × ℕ) := firstOf (coarseLoop cl) [] (coarseNames names cl p)

theorem coarseLoop_mem {cl : N → List (List V)} {c : N × ℕ} (h : c.2 < (cl c.1).length) : coarseLoop cl c ∈ cl c.1 := by
  rw [coarseLoop, List.getD_eq_getElem?_getD, List.getElem?_eq_getElem h, Option.getD_some]
  exact List.getElem_mem h

theorem unique_loops (names : ℕ → List N) (cl : N → List (List V)) (p : ℕ) : (uniqueNames names cl p).Sublist (coarseNames names cl p) ∧
    ((uniqueNames names cl p).map (coarseLoop cl)).Nodup ∧ ∀ l, l ∈ (uniqueNames names cl p).map (coarseLoop cl) ↔ ∃ n ∈ names p, l ∈ cl n := by
  obtain ⟨h1, -, h3⟩ := firstOf_map (coarseLoop cl) [] (coarseNames names cl p)
  have hs := firstOf_sublist (coarseLoop cl) [] (coarseNames names cl p)
  refine ⟨hs, h1, fun l => ⟨?_, ?_⟩⟩
  · intro hl
    obtain ⟨c, hc, rfl⟩ := List.mem_map.1 hl
    obtain ⟨a, b⟩ := mem_coarseNames.1 (hs.subset hc)
    exact ⟨c.1, a, coarseLoop_mem b⟩
  · rintro ⟨n, hn, hl⟩
    obtain ⟨i, hi, rfl⟩ := List.mem_iff_getElem.1 hl
    have := h3 (n, i) (mem_coarseNames.2 ⟨hn, hi⟩)
    simp only [List.not_mem_nil, false_or] at this
    have e : coarseLoop cl (n, i) = (cl n)[i] := by simp [coarseLoop, List.getD_eq_getElem?_getD, hi]
    rw [← e]
    exact this

theorem shared_unique {np : ℕ} {names : ℕ → List N} {dps : ℕ → List (List ℕ)} (hS : Shared np names dps) (cl : N → List (List V))
    (hdup : ∀ p < np, ∀ n ∈ names p, ∀ n' ∈ names p, ∀ l, l ∈ cl n → l ∈ cl n' → ∀ q < np, n ∈ names q ↔ n' ∈ names q) :
    Shared np (uniqueNames names cl) fun p => (uniqueNames names cl p).map (others np (coarseNames names cl) p) := by
  have hC := shared_coarse hS cl
  refine shared_sublist hC (fun p _ => firstOf_sublist _ _ _) ?_
  intro p hp q hq c hc hcq
  obtain ⟨h1, -, h3⟩ := (mem_firstOf _ _ _ (hC.nodup p hp) c).1 hc
  refine (mem_firstOf _ _ _ (hC.nodup q hq) c).2 ⟨hcq, by simp, ?_⟩
  intro c' hs hl
  have hc' : c' ∈ coarseNames names cl q := hs.subset (by simp)
  obtain ⟨a1, a2⟩ := mem_coarseNames.1 hcq
  obtain ⟨b1, b2⟩ := mem_coarseNames.1 hc'
  have hp' : c' ∈ coarseNames names cl p := by
    refine mem_coarseNames.2 ⟨?_, b2⟩
    exact (hdup q hq c'.1 b1 c.1 a1 (coarseLoop cl c) (hl ▸ coarseLoop_mem b2) (coarseLoop_mem a2) p hp).2 (mem_coarseNames.1 h1).1
  exact h3 c' (sublist_shared hC hq hp hs hp' h1) hl

/-- the tables before PHASE IV, if a coarse loop never comes from two fine loops that are not shared by the same processes -/
theorem gather_init {np : ℕ} {names : ℕ → List N} (tup : ℕ → N → List (V × V)) (conv : ℕ → List V → List ℤ)
    (v : ℕ → Loc V) (hS : Shared np names fun p => (v p).fine.map Prod.fst) (ht : ∀ p < np, (v p).fine.map Prod.snd = (names p).map (tup p))
    (cl : N → List (List V)) (hcl : ∀ n, itLoop (fineData np names tup n) = some (cl n))
    (hdup : ∀ p < np, ∀ n ∈ names p, ∀ n' ∈ names p, ∀ l, l ∈ cl n → l ∈ cl n' → ∀ q < np, n ∈ names q ↔ n' ∈ names q) :
    Shared np (uniqueNames names cl) (fun p => (uniqueNames names cl p).map (others np (coarseNames names cl) p)) ∧
    ∀ p < np, (drunPhase (gatherPhase conv) v p).init = some (rowsOf np (uniqueNames names cl) (fun p c => conv p (coarseLoop cl c)) p) := by
  have hv : ∀ p < np, (v p).fine = rowsOf np names tup p := fun p hp => rows_eq (hS.dps p hp) (ht p hp)
  have hU := shared_unique hS cl hdup
  refine ⟨hU, fun p hp => ?_⟩
  rw [gather_run hS tup v hv conv cl hcl hp, allTab, noDupRows_eq (coarseLoop cl) (fun c => others np names p c.1), List.map_map, rowsOf]
  congr 1
  apply List.map_congr_left
  intro c hc
  have hc' : c ∈ coarseNames names cl p := (firstOf_sublist _ _ _).subset hc
  have e1 : others np (uniqueNames names cl) p c = others np (coarseNames names cl) p c := by
    have := hU.dps p hp
    exact (List.map_inj_left.1 this c hc).symm
  simp only [Function.comp_def]
  rw [e1, others_coarse np names cl p c (mem_coarseNames.1 hc').2]

/-- **C99** (partial: only if a coarse loop never comes from two fine loops that are not shared by the same processes, see `tables_break`). PHASES I–IV:
if the tables of the fine loops are right, then however the processes are scheduled they all end. Process `p` has the coarse loops of its fine loops, each
of them once (`cn p`), without those of which it has no edge, and the tables of the other processes that have a loop are right. -/
theorem coarse_tables_partial {np : ℕ} {names : ℕ → List N} {eq : ℕ → List ℕ} (hN : Neighbours np eq) (tup : ℕ → N → List (V × V)) (conv : ℕ → List V → List ℤ)
    (v : ℕ → Loc V) (hS : Shared np names fun p => (v p).fine.map Prod.fst) (ht : ∀ p < np, (v p).fine.map Prod.snd = (names p).map (tup p))
    (cl : N → List (List V)) (hcl : ∀ n, itLoop (fineData np names tup n) = some (cl n))
    (hdup : ∀ p < np, ∀ n ∈ names p, ∀ n' ∈ names p, ∀ l, l ∈ cl n → l ∈ cl n' → ∀ q < np, n ∈ names q ↔ n' ∈ names q) :
    ∃ cn : ℕ → List (N × ℕ), (∀ p < np, (cn p).Sublist (coarseNames names cl p) ∧ ((cn p).map (coarseLoop cl)).Nodup ∧
        ∀ l, l ∈ (cn p).map (coarseLoop cl) ↔ ∃ n ∈ names p, l ∈ cl n) ∧
      ∃ T : ℕ → Tables, AllEnd np [gatherPhase conv, shrinkPhase eq] v (fun w => ∀ p < np, (w p).out = some (T p)) ∧
        (∀ p < np, (T p).loops = (keptNames cn (fun p c => conv p (coarseLoop cl c)) p).map fun c => conv p (coarseLoop cl c)) ∧
        Shared np (keptNames cn fun p c => conv p (coarseLoop cl c)) fun p => (T p).dps := by
  have hv : ∀ p < np, (v p).fine = rowsOf np names tup p := fun p hp => rows_eq (hS.dps p hp) (ht p hp)
  obtain ⟨hU, hi⟩ := gather_init tup conv v hS ht cl hcl hdup
  obtain ⟨loop, hloop⟩ : ∃ loop : ℕ → N × ℕ → List ℤ, loop = fun p c => conv p (coarseLoop cl c) := ⟨_, rfl⟩
  have hinit : ∀ p < np, (drunPhase (gatherPhase conv) v p).init = some (rowsOf np (uniqueNames names cl) loop p) := by
    rw [hloop]
    exact hi
  refine ⟨uniqueNames names cl, fun p _ => unique_loops names cl p, wanted np (uniqueNames names cl) loop, AllEnd.of_matched ?_ ?_, ?_, ?_⟩
  · refine DMatched.cons (fun p hp => ?_) (DMatched.cons (fun p hp => ?_) (DMatched.nil _ _))
    · obtain ⟨h1, h2⟩ := gather_matched tup v hv hp
      exact ⟨h1, fun q h => (h2 q h).1, fun q h => (h2 q h).1⟩
    · obtain ⟨h1, h2⟩ := shrink_matched hN loop (drunPhase (gatherPhase conv) v) hinit hp
      exact ⟨h1, fun q h => (h2 q h).1, fun q h => (h2 q h).1⟩
  · intro w hw p hp
    rw [hw p hp]
    exact shrink_run hU hN loop (drunPhase (gatherPhase conv) v) hinit hp
  · intro p _
    rw [hloop]
    rfl
  · rw [← hloop]
    exact shared_kept hU loop

end NgsAMG.LTab
