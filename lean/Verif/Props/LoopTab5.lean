import Verif.Props.LoopTab4

/-!
# C99: examples, and what goes wrong
-/

namespace NgsAMG.LTab
open NgsAMG.Spec NgsAMG.Exch NgsAMG.Loop

/-! ### a case in which everything is fine: three processes, loops 0 (on all), 1 (on 0 and 1), 2 (on 2) -/

/-- names of the fine loops -/
def okNames : ℕ → List ℕ
  | 0 => [0, 1]
  | 1 => [0, 1]
  | 2 => [0, 2]
  | _ => []

/-- their coarse edges on the processes: 0→1→2→0 in three parts, 2→3→4→2 in two, 5→6→7→5 -/
def okTup : ℕ → ℕ → List (ℕ × ℕ)
  | 0, 0 => [(0, 1)]
  | 1, 0 => [(1, 2)]
  | 2, 0 => [(2, 0)]
  | 0, 1 => [(2, 3), (3, 4)]
  | 1, 1 => [(4, 2)]
  | 2, 2 => [(5, 6), (6, 7), (7, 5)]
  | _, _ => []

/-- the states before -/
def okState (p : ℕ) : Loc ℕ := ⟨rowsOf 3 okNames okTup p, none, none⟩

/-- the edges of the coarse loops a process has: process 1 has none of those of the second loop -/
def okConv (p : ℕ) (l : List ℕ) : List ℤ := convertLoop (fun v => if p = 1 ∧ 2 < v then none else some v) (fun a b => some (a + b)) l

/-- neighbours -/
def okEq (p : ℕ) : List ℕ := [0, 1, 2].filter fun q => q != p

theorem okEq_neighbours : Neighbours 3 okEq where
  sorted := by decide
  lt := by decide
  symm := by decide

theorem okShared : Shared 3 okNames fun p => (okState p).fine.map Prod.fst where
  nodup := by decide
  dps := by decide
  order := by decide

/-- the coarse loops of the fine loops -/
def okCl (n : ℕ) : List (List ℕ) := (itLoop (fineData 3 okNames okTup n)).getD []

theorem okCl_eq (n : ℕ) : itLoop (fineData 3 okNames okTup n) = some (okCl n) := by
  obtain ⟨out, h⟩ := simpleLoops_ends (fineData 3 okNames okTup n)
  rw [okCl, itLoop, h]
  rfl

theorem okDup : ∀ p < 3, ∀ n ∈ okNames p, ∀ n' ∈ okNames p, ∀ l, l ∈ okCl n → l ∈ okCl n' → ∀ q < 3, n ∈ okNames q ↔ n' ∈ okNames q := by
  intro p hp n hn n' hn' l h1 h2
  by_cases e : n = n'
  · subst e
    exact fun _ _ => Iff.rfl
  · exfalso
    have key : ∀ p < 3, ∀ n ∈ okNames p, ∀ n' ∈ okNames p, n ≠ n' → ∀ l ∈ okCl n, l ∉ okCl n' := by decide +kernel
    exact key p hp n hn n' hn' e l h1 h2

example : ∃ T : ℕ → Tables, AllEnd 3 [gatherPhase okConv, shrinkPhase okEq] okState (fun w => ∀ p < 3, (w p).out = some (T p)) := by
  obtain ⟨_, _, T, h, -⟩ := coarse_tables_partial okEq_neighbours okTup okConv okState okShared (by decide) okCl okCl_eq okDup
  exact ⟨T, h⟩

/-- process 1 has no edge of the second coarse loop: it does not keep it, and process 0 no longer lists process 1 for it -/
example : (drun [gatherPhase okConv, shrinkPhase okEq] okState 0).out = some ⟨[[2, 4, -3], [6, 8, -7]], [[1, 2], []], [some 0, some 1]⟩ ∧
    (drun [gatherPhase okConv, shrinkPhase okEq] okState 1).out = some ⟨[[2, 4, -3]], [[0, 2]], [some 0, none]⟩ := by
  obtain ⟨hu, hi⟩ := gather_init okTup okConv okState okShared (by decide) okCl okCl_eq okDup
  have h := fun p (hp : p < 3) => shrink_run hu okEq_neighbours _ _ hi hp
  constructor
  · refine (h 0 (by omega)).trans ?_
    decide +kernel
  · refine (h 1 (by omega)).trans ?_
    decide +kernel

example : ∃ cl : ℕ → List (List ℕ), ∀ n, itLoop (fineData 3 okNames okTup n) = some (cl n) :=
  let ⟨cl, h, _⟩ := gather_correct okTup okConv okState okShared (by decide)
  ⟨cl, h⟩

/-- `AddOrientedLoops` alone: process 1 has nothing of loop 1, process 2 nothing of loop 0 -/
def addLoop (p n : ℕ) : List ℤ := if (p = 1 ∧ n = 1) ∨ (p = 2 ∧ n = 0) then [] else [(p : ℤ) + 1, (n : ℤ) + 5]

example : ∃ T : ℕ → Tables, AllEnd 3 [shrinkPhase okEq] (fun p => (⟨[], some (rowsOf 3 okNames addLoop p), none⟩ : Loc ℕ)) (fun w => ∀ p < 3, (w p).out = some (T p)) ∧
    (T 0).loops = [[1, 5], [1, 6]] ∧ (T 2).map = [none, some 0] ∧ (T 0).dps = [[1], []] := by
  have hS : Shared 3 okNames fun p => (rowsOf 3 okNames addLoop p).map Prod.fst := ⟨by decide, by decide, by decide⟩
  obtain ⟨T, h1, h2, h3, h4⟩ := addLoops_correct (V := ℕ) okEq_neighbours addLoop (fun p => ⟨[], some (rowsOf 3 okNames addLoop p), none⟩) _ (fun _ _ => rfl) hS (by decide)
  refine ⟨T, h1, (h2 0 (by omega)).trans (by decide), (h3 2 (by omega)).trans (by decide), (h4.dps 0 (by omega)).trans (by decide)⟩

/-! ### what goes wrong: duplicates are removed by each process on its own -/

/-- fine loop 0 is shared by the processes 0 and 1, fine loop 1 by the processes 0 and 2 -/
def badNames : ℕ → List ℕ
  | 0 => [0, 1]
  | 1 => [0]
  | 2 => [1]
  | _ => []

/-- both fine loops become the coarse loop 0→1→2→0 -/
def badTup : ℕ → ℕ → List (ℕ × ℕ)
  | 0, _ => [(0, 1)]
  | 1, 0 => [(1, 2), (2, 0)]
  | 2, 1 => [(1, 2), (2, 0)]
  | _, _ => []

/-- the states before -/
def badState (p : ℕ) : Loc ℕ := ⟨rowsOf 3 badNames badTup p, none, none⟩

/-- all processes have all coarse edges -/
def badConv (_ : ℕ) (l : List ℕ) : List ℤ := convertLoop some (fun a b => some (a + b)) l

theorem badShared : Shared 3 badNames fun p => (badState p).fine.map Prod.fst where
  nodup := by decide
  dps := by decide
  order := by decide

/-- the states before the exchange in `AddOrientedLoops` -/
def badMid : ℕ → Loc ℕ := drunPhase (gatherPhase badConv) badState

/-- process 0 has removed its second coarse loop, the other processes have not -/
theorem badMid_init : (badMid 0).init = some [([1], [1 + 1, 3 + 1, -3])] ∧ (badMid 1).init = some [([0], [1 + 1, 3 + 1, -3])] ∧
    (badMid 2).init = some [([0], [1 + 1, 3 + 1, -3])] := by decide +kernel

theorem bad_matched : DMatched 3 [gatherPhase badConv] badState := by
  have hv : ∀ p < 3, (badState p).fine = rowsOf 3 badNames badTup p := fun _ _ => rfl
  refine DMatched.cons (fun p hp => ?_) (DMatched.nil _ _)
  obtain ⟨h1, h2⟩ := gather_matched badTup badState hv hp
  exact ⟨h1, fun q h => (h2 q h).1, fun q h => (h2 q h).1⟩

theorem exchanges_gen {V : Type} {eq : List ℕ} (hs : eq.Pairwise (· < ·)) {v : Loc V} {rows : List (List ℕ × List ℤ)} (hv : v.init = some rows) (q : ℕ) :
    exchangesWith eq v q = true ↔ q ∈ eq ∨ ∃ r ∈ rows, q ∈ r.1 := by
  obtain ⟨a, h1, h2⟩ := allDps_eq eq hs (rows.map Prod.fst)
  rw [exchangesWith, loopProcs, hv, Option.bind_some, h1]
  simp only [List.contains_iff_mem, h2, List.mem_map, exists_exists_and_eq_and]

theorem shrinkMsg_gen {V : Type} {eq : List ℕ} (hs : eq.Pairwise (· < ·)) {v : Loc V} {rows : List (List ℕ × List ℤ)} (hv : v.init = some rows) (hn : ∀ r ∈ rows, r.1.Nodup) (q : ℕ) :
    shrinkMsg eq v q = (rows.filter fun r => decide (q ∈ r.1)).flatMap fun r => [stay r.2.isEmpty] := by
  obtain ⟨a, h1, h2⟩ := allDps_eq eq hs (rows.map Prod.fst)
  have h3 : loopProcs eq v = some a := by rw [loopProcs, hv, Option.bind_some, h1]
  rw [shrinkMsg, hv, h3]
  simp only [shrinkSend]
  rw [sendRows_eq a _ rows hn fun r hr q hq => (h2 q).2 (Or.inr ⟨r.1, List.mem_map_of_mem hr, hq⟩)]
  rfl

/-- if what a process receives does not have the size of what it sends, `AddOrientedLoops` fails -/
theorem shrink_fails {V : Type} {eq : List ℕ} (hs : eq.Pairwise (· < ·)) {v : Loc V} {rows : List (List ℕ × List ℤ)} (hv : v.init = some rows) (hn : ∀ r ∈ rows, r.1.Nodup)
    (recv : ℕ → List ℕ) (q : ℕ) (hq : exchangesWith eq v q = true) (hne : (recv q).length ≠ (shrinkMsg eq v q).length) : (shrinkApply eq v recv).out = none := by
  obtain ⟨a, h1, h2⟩ := allDps_eq eq hs (rows.map Prod.fst)
  have h3 : loopProcs eq v = some a := by rw [loopProcs, hv, Option.bind_some, h1]
  have h4 : shrinkSend a rows = _ := sendRows_eq a _ rows hn fun r hr q hq => (h2 q).2 (Or.inr ⟨r.1, List.mem_map_of_mem hr, hq⟩)
  have hqa : q ∈ a := by
    rw [exchangesWith, h3] at hq
    simpa using hq
  rw [shrinkMsg_gen hs hv hn] at hne
  rw [shrinkApply, hv, h3]
  simp only [Option.bind_some]
  rw [h4]
  simp only [Option.bind_some]
  rw [finishLoops, if_neg]
  rw [List.all_eq_true]
  intro h
  exact hne (by simpa using h q hqa)

/-- **C99** (violated). Three processes; one fine loop is shared by processes 0 and 1, another by 0 and 2, and both become the same coarse loop. The tables
of the fine loops are right and all processes are neighbours. Process 0 removes the second coarse loop as a duplicate, process 2 keeps it and lists process 0
for it. However the processes are scheduled, in `AddOrientedLoops` process 0 gets a message from process 2 that does not fit its buffer. -/
theorem tables_break : AllEnd 3 [gatherPhase badConv, shrinkPhase okEq] badState fun w =>
    (w 0).init = some [([1], [2, 4, -3])] ∧ (w 2).init = some [([0], [2, 4, -3])] ∧ (w 0).out = none ∧ (w 2).out = none := by
  have hs : ∀ p, (okEq p).Pairwise (· < ·) := fun p => List.Pairwise.filter _ (by decide)
  obtain ⟨i0, i1, i2⟩ := badMid_init
  have hrows : ∀ p < 3, ∃ rows, (badMid p).init = some rows ∧ (∀ r ∈ rows, r.1.Nodup) ∧ ∀ r ∈ rows, ∀ q ∈ r.1, q ∈ okEq p := by
    intro p hp
    rcases p with _ | _ | _ | p
    · exact ⟨_, i0, by decide, by decide⟩
    · exact ⟨_, i1, by decide, by decide⟩
    · exact ⟨_, i2, by decide, by decide⟩
    · omega
  have hex : ∀ p < 3, ∀ q, exchangesWith (okEq p) (badMid p) q = true ↔ q ∈ okEq p := by
    intro p hp q
    obtain ⟨rows, h1, -, h3⟩ := hrows p hp
    rw [exchanges_gen (hs p) h1]
    constructor
    · rintro (h | ⟨r, hr, h⟩)
      · exact h
      · exact h3 r hr q h
    · exact Or.inl
  have m02 : shrinkMsg (okEq 0) (badMid 0) 2 = [] := (shrinkMsg_gen (hs 0) i0 (by decide) 2).trans (by decide)
  have m20 : shrinkMsg (okEq 2) (badMid 2) 0 = [1] := (shrinkMsg_gen (hs 2) i2 (by decide) 0).trans (by decide)
  have e02 : exchangesWith (okEq 0) (badMid 0) 2 = true := (hex 0 (by omega) 2).2 (by decide)
  have e20 : exchangesWith (okEq 2) (badMid 2) 0 = true := (hex 2 (by omega) 0).2 (by decide)
  refine AllEnd.of_matched ?_ ?_
  · refine DMatched.append (a := [gatherPhase badConv]) bad_matched (DMatched.cons (fun p hp => ?_) (DMatched.nil _ _))
    have hlt : ∀ p < 3, ∀ q ∈ okEq p, q < 3 := by decide
    have hsym : ∀ p < 3, ∀ q < 3, q ∈ okEq p ↔ p ∈ okEq q := by decide
    refine ⟨fun q hq => ?_, fun q h => hlt p hp q ((hex p hp q).1 h), fun q h => hlt p hp q ((hex p hp q).1 h)⟩
    rw [Bool.eq_iff_iff]
    exact (hex p hp q).trans ((hsym p hp q hq).trans (hex q hq p).symm)
  · intro w hw
    have hd : ∀ p < 3, w p = shrinkApply (okEq p) (badMid p) fun q => nums (if exchangesWith (okEq p) (badMid p) q then (shrinkMsg (okEq q) (badMid q) p).map (Item.head (V := ℕ)) else default) :=
      fun p hp => (hw p hp).trans rfl
    refine ⟨?_, ?_, ?_, ?_⟩
    · rw [hd 0 (by omega)]; exact i0
    · rw [hd 2 (by omega)]; exact i2
    · rw [hd 0 (by omega)]
      refine shrink_fails (hs 0) i0 (by decide) _ 2 e02 ?_
      rw [if_pos e02, m02, m20, nums_heads]
      decide
    · rw [hd 2 (by omega)]
      refine shrink_fails (hs 2) i2 (by decide) _ 0 e20 ?_
      rw [if_pos e20, m02, m20, nums_heads]
      decide

/-- neighbours, processes 0 and 2 are not neighbours in the coarse mesh -/
def farEq : ℕ → List ℕ
  | 0 => [1]
  | 1 => [0]
  | _ => []

/-- **C99** (violated). If processes 0 and 2 are not neighbours in the coarse mesh, `AddOrientedLoops` never ends: process 2 waits for a message which process 0
does not send. -/
theorem tables_hang : Neighbours 3 farEq ∧ ∀ n s, DReach 3 [shrinkPhase farEq] badMid n s → ¬ DFinal 3 [shrinkPhase farEq] s := by
  refine ⟨⟨by decide, by decide, by decide⟩, ?_⟩
  obtain ⟨i0, -, i2⟩ := badMid_init
  have e02 : exchangesWith (farEq 0) (badMid 0) 2 = false := by
    rw [← Bool.not_eq_true, exchanges_gen (by decide) i0]
    decide
  have e20 : exchangesWith (farEq 2) (badMid 2) 0 = true := by
    rw [exchanges_gen (by decide) i2]
    decide
  have hinv : ∀ n s, DReach 3 [shrinkPhase farEq] badMid n s → s.idx 2 = 0 ∧ s.chan 0 0 2 = none ∧ (s.idx 0 = 0 → s.vec 0 = badMid 0) ∧ s.vec 2 = badMid 2 := by
    intro n s h
    induction h with
    | init => exact ⟨rfl, rfl, fun _ => rfl, rfl⟩
    | step h hst ih =>
      obtain ⟨h1, h2, h3, h4⟩ := ih
      cases hst with
      | start p ph hp hph hm =>
        refine ⟨h1, ?_, h3, h4⟩
        simp only
        rw [if_neg]
        · exact h2
        · rintro ⟨a, rfl, b⟩
          rw [← a] at hph
          cases hph
          rw [h3 a.symm] at b
          exact absurd (show exchangesWith (farEq 0) (badMid 0) 2 = true from b) (by rw [e02]; decide)
      | finish p ph hp hph hm hrecv =>
        by_cases hp2 : p = 2
        · subst hp2
          rw [h1] at hph
          cases hph
          rw [h4] at hrecv
          have := hrecv 0 e20
          rw [h1, h2] at this
          cases this
        · refine ⟨?_, ?_, ?_, ?_⟩
          · simp only
            rw [Function.update_of_ne (Ne.symm hp2)]
            exact h1
          · simp only
            rw [if_neg (fun x => hp2 x.2.1.symm)]
            exact h2
          · simp only
            by_cases hp0 : p = 0
            · subst hp0
              rw [Function.update_self]
              intro e
              omega
            · rw [Function.update_of_ne (Ne.symm hp0), Function.update_of_ne (Ne.symm hp0)]
              exact h3
          · simp only
            rw [Function.update_of_ne (Ne.symm hp2)]
            exact h4
  intro n s h hf
  have := (hf 2 (by omega)).1
  rw [(hinv n s h).1] at this
  cases this

end NgsAMG.LTab
