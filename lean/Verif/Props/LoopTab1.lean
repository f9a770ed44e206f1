import Verif.Model.LoopTab
import Verif.Spec.SharedTables
import Mathlib.Data.List.Nodup
import Mathlib.Tactic.Cases

/-!
# Exchange of rows between processes that share them (C99, helpers)
-/

namespace NgsAMG.LTab
open NgsAMG.Spec
variable {α β N : Type} [DecidableEq N]

/-! ### sending -/

theorem addTo_fold (all : List ℕ) (xs : List α) (ds : List ℕ) (hn : ds.Nodup) (ha : ∀ q ∈ ds, q ∈ all) (s : ℕ → List α) :
    ds.foldlM (addTo all xs) s = some fun q => if q ∈ ds then s q ++ xs else s q := by
  induction ds generalizing s with
  | nil => simp
  | cons d t ih =>
    have hd : d ∈ all := ha d (by simp)
    have hdt : d ∉ t := (List.nodup_cons.1 hn).1
    rw [List.foldlM_cons, addTo, if_pos (by simpa using hd)]
    refine (ih (List.nodup_cons.1 hn).2 (fun q hq => ha q (by simp [hq])) _).trans ?_
    congr 1
    funext q
    by_cases hq : q = d
    · subst hq
      simp [hdt]
    · simp [hq]

theorem sendRows_fold (all : List ℕ) (enc : β → List α) (rows : List (List ℕ × β)) (hn : ∀ r ∈ rows, r.1.Nodup) (ha : ∀ r ∈ rows, ∀ q ∈ r.1, q ∈ all)
    (s : ℕ → List α) : rows.foldlM (fun s r => r.1.foldlM (addTo all (enc r.2)) s) s
      = some fun q => s q ++ (rows.filter fun r => decide (q ∈ r.1)).flatMap fun r => enc r.2 := by
  induction rows generalizing s with
  | nil => simp
  | cons r t ih =>
    rw [List.foldlM_cons, addTo_fold all _ r.1 (hn r (by simp)) (ha r (by simp))]
    refine (ih (fun x hx => hn x (by simp [hx])) (fun x hx => ha x (by simp [hx])) _).trans ?_
    congr 1
    funext q
    by_cases hq : q ∈ r.1 <;> simp [hq]

theorem sendRows_eq (all : List ℕ) (enc : β → List α) (rows : List (List ℕ × β)) (hn : ∀ r ∈ rows, r.1.Nodup) (ha : ∀ r ∈ rows, ∀ q ∈ r.1, q ∈ all) :
    sendRows all enc rows = some fun q => (rows.filter fun r => decide (q ∈ r.1)).flatMap fun r => enc r.2 := by
  rw [sendRows, sendRows_fold all enc rows hn ha]
  simp

/-! ### the table of a process -/

theorem others_nodup (np : ℕ) (names : ℕ → List N) (p : ℕ) (n : N) : (others np names p n).Nodup :=
  (List.nodup_range.filter _).filter _

theorem mem_owners {np : ℕ} {names : ℕ → List N} {n : N} {q : ℕ} : q ∈ owners np names n ↔ q < np ∧ n ∈ names q := by
  simp [owners]

theorem mem_others {np : ℕ} {names : ℕ → List N} {p : ℕ} {n : N} {q : ℕ} : q ∈ others np names p n ↔ (q < np ∧ n ∈ names q) ∧ q ≠ p := by
  simp [others, mem_owners]

theorem owners_sorted (np : ℕ) (names : ℕ → List N) (n : N) : (owners np names n).Pairwise (· < ·) :=
  List.pairwise_lt_range.filter _

/-- the rows of process `p`, with values -/
def rowsOf (np : ℕ) (names : ℕ → List N) (val : ℕ → N → β) (p : ℕ) : List (List ℕ × β) := (names p).map fun n => (others np names p n, val p n)

/-- what `p` sends to `q` -/
theorem sent_eq {np : ℕ} {names : ℕ → List N} (val : ℕ → N → β) (enc : β → List α) (all : List ℕ) (p : ℕ)
    (ha : ∀ n ∈ names p, ∀ q ∈ others np names p n, q ∈ all) :
    ∃ s, sendRows all enc (rowsOf np names val p) = some s ∧
      ∀ q < np, q ≠ p → s q = ((names p).filter fun n => decide (n ∈ names q)).flatMap fun n => enc (val p n) := by
  refine ⟨_, sendRows_eq all enc _ ?_ ?_, ?_⟩
  · intro r hr
    obtain ⟨n, -, rfl⟩ := List.mem_map.1 hr
    exact others_nodup np names p n
  · intro r hr
    obtain ⟨n, hn, rfl⟩ := List.mem_map.1 hr
    exact ha n hn
  · intro q hq hqp
    have e : ∀ l : List N, ((l.map fun n => (others np names p n, val p n)).filter fun r => decide (q ∈ r.1))
        = (l.filter fun n => decide (n ∈ names q)).map fun n => (others np names p n, val p n) := by
      intro l
      induction l with
      | nil => rfl
      | cons n t ih => by_cases hn : n ∈ names q <;> simp [hn, mem_others, hq, hqp, ih]
    simp only [rowsOf]
    rw [e, List.flatMap_map]

/-! ### reading -/

/-- reading gives back what was encoded -/
def Decodes (enc : β → List α) (rd : List α → ℕ → Option (β × ℕ)) : Prop :=
  ∀ (pre : List α) (b : β) (post : List α), rd (pre ++ enc b ++ post) pre.length = some (b, pre.length + (enc b).length)

theorem readRow_eq (rd : List α → ℕ → Option (β × ℕ)) (recv : ℕ → List α) (val : ℕ → β) (len : ℕ → ℕ) (ds : List ℕ) (hn : ds.Nodup) (cur : ℕ → ℕ)
    (h : ∀ q ∈ ds, rd (recv q) (cur q) = some (val q, cur q + len q)) :
    readRow rd recv cur ds = some (fun q => if q ∈ ds then cur q + len q else cur q, ds.map fun q => (q, val q)) := by
  induction ds generalizing cur with
  | nil => simp [readRow]
  | cons d t ih =>
    have hdt : d ∉ t := (List.nodup_cons.1 hn).1
    rw [readRow, h d (by simp)]
    have hne : ∀ q ∈ t, q ≠ d := fun q hq e => hdt (e ▸ hq)
    simp only
    rw [ih (List.nodup_cons.1 hn).2 (Function.update cur d (cur d + len d)) (fun q hq => by
      rw [Function.update_of_ne (hne q hq)]; exact h q (by simp [hq]))]
    simp only [Option.map_some, List.map_cons]
    congr 2
    funext q
    by_cases hq : q = d
    · subst hq
      simp [hdt]
    · simp [hq]

theorem readRows_eq {np : ℕ} {names : ℕ → List N} {val : ℕ → N → β} {enc : β → List α} {rd : List α → ℕ → Option (β × ℕ)} (hd : Decodes enc rd) (p : ℕ)
    (recv : ℕ → List α) (hr : ∀ q < np, q ≠ p → recv q = ((names p).filter fun n => decide (n ∈ names q)).flatMap fun n => enc (val q n)) :
    readRows rd recv (fun _ => 0) ((names p).map (others np names p)) = some ((names p).map fun n => (others np names p n).map fun q => (q, val q n)) := by
  have key : ∀ (rest done : List N) (cur : ℕ → ℕ), names p = done ++ rest →
      (∀ q < np, q ≠ p → cur q = ((done.filter fun n => decide (n ∈ names q)).flatMap fun n => enc (val q n)).length) →
      readRows rd recv cur (rest.map (others np names p)) = some (rest.map fun n => (others np names p n).map fun q => (q, val q n)) := by
    intro rest
    induction rest with
    | nil => intros; rfl
    | cons n t ih =>
      intro done cur hsp hcur
      have h1 := readRow_eq rd recv (fun q => val q n) (fun q => (enc (val q n)).length) (others np names p n) (others_nodup np names p n) cur (by
        intro q hq
        obtain ⟨⟨hq1, hq2⟩, hq3⟩ := mem_others.1 hq
        rw [hr q hq1 hq3, hcur q hq1 hq3, hsp, List.filter_append, List.filter_cons_of_pos (by simpa using hq2), List.flatMap_append, List.flatMap_cons, ← List.append_assoc]
        exact hd _ _ _)
      rw [List.map_cons, readRows, h1]
      simp only
      rw [ih (done ++ [n]) _ (by simp [hsp]) ?_]
      · rfl
      · intro q hq hqp
        by_cases hm : n ∈ names q
        · simp [mem_others, hq, hqp, hm, hcur q hq hqp, List.filter_append, List.flatMap_append]
        · simp [mem_others, hm, hcur q hq hqp, List.filter_append, List.flatMap_append]
  exact key (names p) [] _ rfl (by simp)

/-! ### the two encodings -/

theorem rdOne_decodes : Decodes (fun b : ℕ => [b]) rdOne := by
  intro pre b post
  simp [rdOne]

theorem tuples_map {V : Type} (c : List (V × V)) : tuples (c.map fun x => Item.tup x.1 x.2) = some c := by
  induction c with
  | nil => rfl
  | cons x t ih =>
    rw [tuples] at ih ⊢
    rw [List.map_cons, List.mapM_cons, ih]
    rfl

theorem rdChunk_decodes {V : Type} : Decodes (encChunk (V := V)) rdChunk := by
  intro pre c post
  have h : (pre ++ encChunk c ++ post)[pre.length]? = some (Item.head c.length) := by simp [encChunk]
  rw [rdChunk, h]
  simp only
  rw [if_pos (by simp [encChunk]; omega)]
  have e : ((pre ++ encChunk c ++ post).drop (pre.length + 1)).take c.length = c.map fun x => Item.tup x.1 x.2 := by
    rw [List.append_assoc, List.drop_append, List.drop_of_length_le (by omega)]
    simp [encChunk, List.take_append]
  rw [e, tuples_map]
  simp [encChunk]
  omega

end NgsAMG.LTab
