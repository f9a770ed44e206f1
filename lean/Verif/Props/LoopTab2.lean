import Verif.Props.LoopTab1
import Verif.Props.SortedArray
import Verif.Spec.Executions

/-!
# C99: AddOrientedLoops removes the loops and keeps the tables right
-/

namespace NgsAMG.LTab
open NgsAMG.Spec NgsAMG.Exch
variable {N V : Type} [DecidableEq N]

/-- the lists of neighbours of the processes -/
structure Neighbours (np : ℕ) (eq : ℕ → List ℕ) : Prop where
  sorted : ∀ p < np, (eq p).Pairwise (· < ·)
  lt : ∀ p < np, ∀ q ∈ eq p, q < np ∧ q ≠ p
  symm : ∀ p < np, ∀ q < np, q ∈ eq p ↔ p ∈ eq q

theorem allDps_eq (eq : List ℕ) (hs : eq.Pairwise (· < ·)) (dps : List (List ℕ)) :
    ∃ a, allDps eq dps = some a ∧ ∀ q, q ∈ a ↔ q ∈ eq ∨ ∃ d ∈ dps, q ∈ d := by
  have key : ∀ (l a : List ℕ), a.Pairwise (· < ·) → ∃ b, l.foldlM (fun a p => (SortedArray.insertNodups p a).map Prod.snd) a = some b ∧ ∀ q, q ∈ b ↔ q ∈ a ∨ q ∈ l := by
    intro l
    induction l with
    | nil => intro a _; exact ⟨a, rfl, by simp⟩
    | cons x t ih =>
      intro a ha
      obtain ⟨isNew, b, h1, h2, h3, -⟩ := SortedArray.insertNodups_correct x a ha
      obtain ⟨c, h4, h5⟩ := ih b h2
      refine ⟨c, ?_, fun q => ?_⟩
      · rw [List.foldlM_cons, h1]
        exact h4
      · rw [h5, h3, List.mem_cons]
        tauto
  obtain ⟨b, h1, h2⟩ := key dps.flatten eq hs
  exact ⟨b, h1, fun q => by rw [h2, List.mem_flatten]⟩

theorem rowMap_eq (loop : N → List ℤ) (ns : List N) (hn : ns.Nodup) (k : ℕ) : rowMap k (ns.map fun n => (loop n).isEmpty)
    = ns.map fun n => if loop n = [] then none else some (k + (ns.filter fun n => decide (loop n ≠ [])).idxOf n) := by
  induction ns generalizing k with
  | nil => rfl
  | cons n t ih =>
    obtain ⟨hnt, ht⟩ := List.nodup_cons.1 hn
    by_cases h : loop n = []
    · rw [List.map_cons, rowMap, if_pos (by simp [h]), ih ht]
      simp [h]
    · rw [List.map_cons, rowMap, if_neg (by simp [h]), ih ht]
      rw [List.map_cons, List.filter_cons_of_pos (by simpa using h)]
      simp only [h, if_false, List.idxOf_cons_self, Nat.add_zero]
      congr 1
      apply List.map_congr_left
      intro m hm
      have hmn : n ≠ m := fun e => hnt (e ▸ hm)
      by_cases hm0 : loop m = []
      · simp [hm0]
      · simp only [hm0, if_false]
        rw [List.idxOf_cons_ne _ hmn]
        congr 1
        omega

theorem keepProcs_eq (ds : List ℕ) (f : ℕ → Bool) : keepProcs (ds.map fun q => (q, stay (f q))) = ds.filter fun q => !f q := by
  induction ds with
  | nil => rfl
  | cons d t ih =>
    rw [keepProcs] at ih ⊢
    cases h : f d
    · simpa [stay, h] using ih
    · simpa [stay, h] using ih

/-- the names of the rows that are kept -/
def keptNames (names : ℕ → List N) (loop : ℕ → N → List ℤ) (p : ℕ) : List N := (names p).filter fun n => decide (loop p n ≠ [])

theorem others_kept (np : ℕ) (names : ℕ → List N) (loop : ℕ → N → List ℤ) (p : ℕ) (n : N) :
    others np (keptNames names loop) p n = (others np names p n).filter fun q => !(loop q n).isEmpty := by
  simp only [others, owners, keptNames, List.filter_filter]
  apply List.filter_congr
  intro q _
  by_cases h : loop q n = [] <;> by_cases h2 : n ∈ names q <;> by_cases h3 : q = p <;> simp [h, h2, h3]

theorem newDps_eq (np : ℕ) (names : ℕ → List N) (loop : ℕ → N → List ℤ) (p : ℕ) :
    newDps ((names p).map fun n => (loop p n).isEmpty) ((names p).map fun n => (others np names p n).map fun q => (q, stay (loop q n).isEmpty))
      = (keptNames names loop p).map (others np (keptNames names loop) p) := by
  have e : ∀ l : List N, newDps (l.map fun n => (loop p n).isEmpty) (l.map fun n => (others np names p n).map fun q => (q, stay (loop q n).isEmpty))
      = (l.filter fun n => decide (loop p n ≠ [])).map (others np (keptNames names loop) p) := by
    intro l
    induction l with
    | nil => rfl
    | cons n t ih =>
      rw [newDps] at ih ⊢
      by_cases h : loop p n = []
      · simpa [h] using ih
      · have h2 : (loop p n).isEmpty = false := by simp [h]
        rw [List.map_cons, List.map_cons, List.zip_cons_cons, List.filter_cons_of_pos (by simp [h2]), List.map_cons, ih, keepProcs_eq, ← others_kept,
          List.filter_cons_of_pos (by simpa using h), List.map_cons]
  exact e (names p)

theorem rows_eq {β : Type} {np : ℕ} {names : ℕ → List N} {loop : ℕ → N → β} {p : ℕ} {rows : List (List ℕ × β)} (h1 : rows.map Prod.fst = (names p).map (others np names p))
    (h2 : rows.map Prod.snd = (names p).map (loop p)) : rows = rowsOf np names loop p := by
  refine List.ext_getElem? fun i => ?_
  have e1 := congrArg (fun l => l[i]?) h1
  have e2 := congrArg (fun l => l[i]?) h2
  simp only [List.getElem?_map] at e1 e2
  rw [rowsOf, List.getElem?_map]
  cases hi : rows[i]? with
  | none =>
    rw [hi] at e1
    cases hn : (names p)[i]? with
    | none => rfl
    | some n => rw [hn] at e1; cases e1
  | some r =>
    rw [hi] at e1 e2
    cases hn : (names p)[i]? with
    | none => rw [hn] at e1; cases e1
    | some n =>
      rw [hn] at e1 e2
      have a1 : r.1 = others np names p n := Option.some.inj e1
      have a2 : r.2 = loop p n := Option.some.inj e2
      exact congrArg some (Prod.ext a1 a2)

/-- what `AddOrientedLoops` shall leave on process `p` -/
def wanted (np : ℕ) (names : ℕ → List N) (loop : ℕ → N → List ℤ) (p : ℕ) : Tables where
  loops := (keptNames names loop p).map (loop p)
  dps := (keptNames names loop p).map (others np (keptNames names loop) p)
  map := (names p).map fun n => if loop p n = [] then none else some ((keptNames names loop p).idxOf n)

theorem shared_kept {np : ℕ} {names : ℕ → List N} {dps : ℕ → List (List ℕ)} (hS : Shared np names dps) (loop : ℕ → N → List ℤ) :
    Shared np (keptNames names loop) fun p => (wanted np names loop p).dps where
  nodup p hp := (hS.nodup p hp).filter _
  dps p hp := rfl
  order p hp q hq := by
    have e : ∀ p q, (keptNames names loop p).filter (fun n => decide (n ∈ keptNames names loop q))
        = ((names p).filter fun n => decide (n ∈ names q)).filter fun n => decide (loop p n ≠ []) && decide (loop q n ≠ []) := by
      intro p q
      simp only [keptNames, List.filter_filter]
      apply List.filter_congr
      intro n _
      by_cases h1 : n ∈ names q <;> by_cases h2 : loop p n = [] <;> by_cases h3 : loop q n = [] <;> simp [h1, h2, h3]
    rw [e p q, e q p, hS.order p hp q hq]
    apply List.filter_congr
    intro n _
    rw [Bool.and_comm]

theorem nums_heads (l : List ℕ) : nums (l.map (Item.head (V := V))) = l := by
  induction l with
  | nil => rfl
  | cons x t ih =>
    rw [nums] at ih ⊢
    simpa using ih

section
variable {np : ℕ} {names : ℕ → List N} {dps : ℕ → List (List ℕ)} (hS : Shared np names dps) {eq : ℕ → List ℕ} (hN : Neighbours np eq) (loop : ℕ → N → List ℤ)
  (v : ℕ → Loc V) (hv : ∀ p < np, (v p).init = some (rowsOf np names loop p))
include hN hv

theorem loopProcs_eq {p : ℕ} (hp : p < np) : ∃ a, loopProcs (eq p) (v p) = some a ∧ ∀ q, q ∈ a ↔ q ∈ eq p ∨ ∃ n ∈ names p, q ∈ others np names p n := by
  obtain ⟨a, h1, h2⟩ := allDps_eq (eq p) (hN.sorted p hp) ((rowsOf np names loop p).map Prod.fst)
  refine ⟨a, ?_, fun q => ?_⟩
  · rw [loopProcs, hv p hp]
    exact h1
  · rw [h2]
    simp [rowsOf]

theorem exchanges_iff {p : ℕ} (hp : p < np) (q : ℕ) : exchangesWith (eq p) (v p) q = true ↔ q ∈ eq p ∨ ∃ n ∈ names p, q ∈ others np names p n := by
  obtain ⟨a, h1, h2⟩ := loopProcs_eq hN loop v hv hp
  rw [exchangesWith, h1]
  simp only [List.contains_iff_mem]
  exact h2 q

theorem shrink_matched {p : ℕ} (hp : p < np) : (∀ q < np, exchangesWith (eq p) (v p) q = exchangesWith (eq q) (v q) p) ∧
    ∀ q, exchangesWith (eq p) (v p) q → q < np ∧ q ≠ p := by
  constructor
  · intro q hq
    rw [Bool.eq_iff_iff, exchanges_iff hN loop v hv hp, exchanges_iff hN loop v hv hq, hN.symm p hp q hq]
    refine or_congr Iff.rfl ⟨?_, ?_⟩
    · rintro ⟨n, hn, h⟩
      obtain ⟨⟨-, h2⟩, h3⟩ := mem_others.1 h
      exact ⟨n, h2, mem_others.2 ⟨⟨hp, hn⟩, h3.symm⟩⟩
    · rintro ⟨n, hn, h⟩
      obtain ⟨⟨-, h2⟩, h3⟩ := mem_others.1 h
      exact ⟨n, h2, mem_others.2 ⟨⟨hq, hn⟩, h3.symm⟩⟩
  · intro q h
    rcases (exchanges_iff hN loop v hv hp q).1 h with h | ⟨n, -, h⟩
    · exact hN.lt p hp q h
    · obtain ⟨⟨h1, -⟩, h3⟩ := mem_others.1 h
      exact ⟨h1, h3⟩

theorem shrinkMsg_eq {p q : ℕ} (hp : p < np) (hq : q < np) (hqp : q ≠ p) :
    shrinkMsg (eq p) (v p) q = ((names p).filter fun n => decide (n ∈ names q)).flatMap fun n => [stay (loop p n).isEmpty] := by
  obtain ⟨a, h1, h2⟩ := loopProcs_eq hN loop v hv hp
  obtain ⟨s, h3, h4⟩ := sent_eq (np := np) (names := names) loop (fun l : List ℤ => [stay l.isEmpty]) a p (fun n hn q hq => (h2 q).2 (Or.inr ⟨n, hn, hq⟩))
  rw [shrinkMsg, hv p hp, h1]
  simp only [shrinkSend]
  rw [h3]
  exact h4 q hq hqp

include hS in
theorem shrink_run {p : ℕ} (hp : p < np) : (drunPhase (shrinkPhase eq) v p).out = some (wanted np names loop p) := by
  obtain ⟨a, h1, h2⟩ := loopProcs_eq hN loop v hv hp
  obtain ⟨s, h3, h4⟩ := sent_eq (np := np) (names := names) loop (fun l : List ℤ => [stay l.isEmpty]) a p (fun n hn q hq => (h2 q).2 (Or.inr ⟨n, hn, hq⟩))
  obtain ⟨m, hm⟩ : ∃ m, m = fun q => if exchangesWith (eq p) (v p) q then (shrinkMsg (eq q) (v q) p).map (Item.head (V := V)) else default := ⟨_, rfl⟩
  have hrecv : ∀ q < np, q ≠ p → nums (m q) = ((names p).filter fun n => decide (n ∈ names q)).flatMap fun n => [stay (loop q n).isEmpty] := by
    intro q hq hqp
    rw [hm]
    simp only
    by_cases h : exchangesWith (eq p) (v p) q = true
    · rw [if_pos h, nums_heads, shrinkMsg_eq hN loop v hv hq hp hqp.symm, hS.order q hq p hp]
    · rw [if_neg h]
      have : ((names p).filter fun n => decide (n ∈ names q)) = [] := by
        rw [List.filter_eq_nil_iff]
        intro n hn hc
        exact h ((exchanges_iff hN loop v hv hp q).2 (Or.inr ⟨n, hn, mem_others.2 ⟨⟨hq, by simpa using hc⟩, hqp⟩⟩))
      rw [this]
      rfl
  have hb := readRows_eq (np := np) (names := names) (val := fun q n => stay (loop q n).isEmpty) rdOne_decodes p (fun q => nums (m q)) hrecv
  have hex : drunPhase (shrinkPhase eq) v p = shrinkApply (eq p) (v p) fun q => nums (m q) := by
    rw [hm]; rfl
  rw [hex, shrinkApply, hv p hp, h1]
  simp only [Option.bind_some, shrinkSend]
  rw [h3]
  simp only [Option.bind_some]
  rw [finishLoops, if_pos]
  · have e1 : (rowsOf np names loop p).map Prod.fst = (names p).map (others np names p) := by simp [rowsOf]
    have e2 : (rowsOf np names loop p).map Prod.snd = (names p).map (loop p) := by simp [rowsOf]
    rw [e1, e2, hb]
    simp only [Option.map_some, removeLoop, List.map_map]
    congr 1
    have e3 : (List.isEmpty ∘ loop p) = fun n => (loop p n).isEmpty := rfl
    rw [e3, newDps_eq, rowMap_eq (loop p) (names p) (hS.nodup p hp)]
    rw [wanted]
    congr 1
    · rw [keptNames, List.filter_map]
      congr 1
      apply List.filter_congr
      intro n _
      by_cases h : loop p n = [] <;> simp [h]
    · simp [keptNames]
  · rw [List.all_eq_true]
    intro q hq
    obtain ⟨hq1, hq2⟩ := (shrink_matched hN loop v hv hp).2 q ((exchanges_iff hN loop v hv hp q).2 ((h2 q).1 hq))
    rw [beq_iff_eq, hrecv q hq1 hq2, h4 q hq1 hq2]
    simp

end

/-- **C99**. `AddOrientedLoops`: let every process have a table of loops (`loop p n` is what process `p` has of loop `n`), with tables of the other
processes that have the loop which are right. However the processes are scheduled, they all end, and process `p` has exactly the loops that are not
empty on it, in the same order; the new tables of the other processes that have a loop are right again: a process is listed exactly if the loop is not
empty there. -/
theorem addLoops_correct {np : ℕ} {names : ℕ → List N} {eq : ℕ → List ℕ} (hN : Neighbours np eq) (loop : ℕ → N → List ℤ)
    (v : ℕ → Loc V) (rows : ℕ → List (List ℕ × List ℤ)) (hv : ∀ p < np, (v p).init = some (rows p))
    (hS : Shared np names fun p => (rows p).map Prod.fst) (hl : ∀ p < np, (rows p).map Prod.snd = (names p).map (loop p)) :
    ∃ T : ℕ → Tables, AllEnd np [shrinkPhase eq] v (fun w => ∀ p < np, (w p).out = some (T p)) ∧
      (∀ p < np, (T p).loops = (keptNames names loop p).map (loop p)) ∧
      (∀ p < np, (T p).map = (names p).map fun n => if loop p n = [] then none else some ((keptNames names loop p).idxOf n)) ∧
      Shared np (keptNames names loop) fun p => (T p).dps := by
  have hv' : ∀ p < np, (v p).init = some (rowsOf np names loop p) := fun p hp => by
    rw [hv p hp, rows_eq (hS.dps p hp) (hl p hp)]
  refine ⟨wanted np names loop, AllEnd.of_matched ?_ ?_, fun _ _ => rfl, fun _ _ => rfl, shared_kept hS loop⟩
  · refine DMatched.cons (fun p hp => ?_) (DMatched.nil _ _)
    obtain ⟨h1, h2⟩ := shrink_matched hN loop v hv' hp
    exact ⟨h1, fun q h => (h2 q h).1, fun q h => (h2 q h).1⟩
  · intro w hw p hp
    rw [hw p hp]
    exact shrink_run hS hN loop v hv' hp

end NgsAMG.LTab
