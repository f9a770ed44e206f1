import Verif.Model.MISAgg
import Verif.Spec.Agglomerates

/-!
# C91: one agglomerate grown around a vertex
-/

namespace NgsAMG.MIS
open NgsAMG.CMap NgsAMG.Spec

variable {E : Env}

/-- what the code relies on: no vertex is its own neighbour or a neighbour twice, the sorting routines permute -/
structure EnvOK (E : Env) : Prop where
  nodup : ∀ v, (E.nb v).Nodup
  irrefl : ∀ v, v ∉ E.nb v
  symm : ∀ v w, w ∈ E.nb v → v ∈ E.nb w
  refl : ∀ v, E.leq (E.eq v) (E.eq v) = true
  trans : ∀ u v w, E.leq (E.eq u) (E.eq v) = true → E.leq (E.eq v) (E.eq w) = true → E.leq (E.eq u) (E.eq w) = true
  ord : ∀ k l, (E.ord k l).Perm l
  srt : ∀ f l, (E.srt f l).Perm l
  pick : ∀ k n, 0 < n → E.pick k n < n

/-- `s'` is `s` with one more agglomerate around `v`, of vertices that were not marked -/
structure Grown (E : Env) (s : St) (v veq : ℕ) (ms : List ℕ) (s' : St) : Prop where
  aggs : s'.aggs = s.aggs ++ [⟨v, ms⟩]
  cen : v ∈ ms
  asc : ms.Pairwise (· < ·)
  v2a : ∀ w, s'.v2a w = if w ∈ ms then some s.aggs.length else s.v2a w
  marked : ∀ w, s'.marked w = (decide (w ∈ ms) || s.marked w)
  dist : ∀ w, w ∉ ms → s'.dist w = s.dist w
  dcen : s'.dist v = 0
  new : ∀ w ∈ ms, w ≠ v → s.marked w = false ∧ w ∈ E.nb v ∧ E.leq (E.eq w) veq = true ∧ s'.dist w = 1

theorem orderedInsert_lt {l : List ℕ} (h : l.Pairwise (· < ·)) {v : ℕ} (hv : v ∉ l) : (l.orderedInsert (· ≤ ·) v).Pairwise (· < ·) := by
  have h1 : (l.orderedInsert (· ≤ ·) v).Pairwise (· ≤ ·) := List.Pairwise.orderedInsert v l (h.imp le_of_lt)
  have h2 : (l.orderedInsert (· ≤ ·) v).Nodup := by
    rw [(List.perm_orderedInsert (· ≤ ·) v l).nodup_iff]
    exact List.nodup_cons.2 ⟨hv, h.imp ne_of_lt⟩
  exact (h1.and h2).imp fun h => lt_of_le_of_ne h.1 h.2

theorem modify_concat {α : Type*} (f : α → α) (x : α) : ∀ l : List α, (l ++ [x]).modify l.length f = l ++ [f x]
  | [] => rfl
  | y :: l => by simp [modify_concat f x l]

theorem start_grown (E : Env) (s : St) (v veq : ℕ) : Grown E s v veq [v] (start s v) where
  aggs := rfl
  cen := by simp
  asc := by simp
  v2a w := by simp [start, Function.update_apply]
  marked w := by simp only [start, Function.update_apply]; by_cases h : w = v <;> simp [h]
  dist w h := by simp only [start, Function.update_apply]; simp at h; simp [h]
  dcen := by simp [start]
  new w h hne := absurd (by simpa using h) hne

theorem Grown.tested {s s' : St} {v veq : ℕ} {ms : List ℕ} (h : Grown E s v veq ms s') : Grown E s v veq ms (tested s') :=
  ⟨h.aggs, h.cen, h.asc, h.v2a, h.marked, h.dist, h.dcen, h.new⟩

theorem Grown.add {s s' : St} {v veq n : ℕ} {ms : List ℕ} (h : Grown E s v veq ms s') (hn : n ∈ E.nb v) (hm : mayCheck E s' veq n = true) :
    Grown E s v veq (ms.orderedInsert (· ≤ ·) n) (addTo s' s.aggs.length n 1) := by
  simp only [mayCheck, Bool.and_eq_true, Bool.not_eq_true'] at hm
  have hm1 := hm.1
  rw [h.marked, Bool.or_eq_false_iff] at hm1
  have hn' : n ∉ ms := by simpa using hm1.1
  have hnv : n ≠ v := fun e => hn' (e ▸ h.cen)
  refine ⟨?_, ?_, orderedInsert_lt h.asc hn', ?_, ?_, ?_, ?_, ?_⟩
  · simp [addTo, h.aggs, modify_concat]
  · simp [h.cen]
  · intro w
    simp only [addTo, Function.update_apply, List.mem_orderedInsert, h.v2a]
    by_cases e : w = n <;> simp [e]
  · intro w
    simp only [addTo, Function.update_apply, List.mem_orderedInsert, h.marked]
    by_cases e : w = n <;> simp [e]
  · intro w hw
    simp only [List.mem_orderedInsert, not_or] at hw
    simp only [addTo, Function.update_apply, if_neg hw.1]
    exact h.dist w hw.2
  · simp only [addTo, Function.update_apply, if_neg hnv.symm, h.dcen]
  · intro w hw hwv
    simp only [addTo, Function.update_apply]
    by_cases e : w = n
    · subst e
      exact ⟨hm1.2, hn, hm.2, by simp⟩
    · simp only [if_neg e]
      rw [List.mem_orderedInsert] at hw
      exact h.new w (hw.resolve_left e) hwv

theorem addTo_mayCheck {s : St} {a veq n m : ℕ} {d : ℤ} (h : m ≠ n) : mayCheck E (addTo s a n d) veq m = mayCheck E s veq m := by
  simp [mayCheck, addTo, Function.update_apply, h]

theorem firstNeib_grown {s : St} {v veq : ℕ} : ∀ (l : List ℕ) (s' : St) (ms : List ℕ), Grown E s v veq ms s' → (∀ n ∈ l, n ∈ E.nb v) →
    ∃ ms', Grown E s v veq ms' (firstNeib E s.aggs.length veq l s').1
  | [], s', ms, h, _ => ⟨ms, h⟩
  | n :: l, s', ms, h, hl => by
    rw [firstNeib]
    have hl' : ∀ m ∈ l, m ∈ E.nb v := fun m hm => hl m (by simp [hm])
    split
    · rename_i hm
      split
      · exact ⟨_, h.tested.add (hl n (by simp)) hm⟩
      · exact firstNeib_grown l _ ms h.tested hl'
    · exact firstNeib_grown l _ ms h hl'

theorem greedy_grown (hE : EnvOK E) {s : St} {v veq : ℕ} : ∀ (f : ℕ) (q : List ℕ) (ec : ℕ → ℤ) (s' : St) (ms : List ℕ), Grown E s v veq ms s' →
    q.Nodup → (∀ n ∈ q, n ∈ E.nb v ∧ mayCheck E s' veq n = true) → ∃ ms', Grown E s v veq ms' (greedy E s.aggs.length v f q ec s')
  | 0, q, ec, s', ms, h, _, _ => ⟨ms, h⟩
  | f + 1, q, ec, s', ms, h, hq, hm => by
    rw [greedy]
    cases hl : q.getLast? with
    | none => exact ⟨ms, h⟩
    | some n =>
      obtain ⟨q', rfl⟩ : ∃ q', q = q' ++ [n] := by
        rw [List.getLast?_eq_some_iff] at hl
        exact hl
      dsimp only
      rw [List.dropLast_concat]
      rw [List.nodup_append] at hq
      have hn := hm n (by simp)
      have hne : ∀ m ∈ q', m ≠ n := fun m hm' => hq.2.2 m hm' n (by simp)
      split
      · refine greedy_grown hE f _ _ _ _ (h.tested.add hn.1 hn.2) ((hE.srt _ _).nodup_iff.2 hq.1) ?_
        intro m hm'
        have hm2 := (hE.srt _ _).mem_iff.1 hm'
        rw [addTo_mayCheck (hne m hm2)]
        exact hm m (by simp [hm2])
      · exact greedy_grown hE f _ _ _ _ h.tested hq.1 fun m hm' => hm m (by simp [hm'])

/-- the state up to the number of tests and the distances of vertices that are in no agglomerate -/
structure Same (s s' : St) : Prop where
  aggs : s'.aggs = s.aggs
  v2a : s'.v2a = s.v2a
  marked : s'.marked = s.marked
  dist : ∀ w, s.v2a w ≠ none → s'.dist w = s.dist w

theorem fill_grown (hE : EnvOK E) {s s' : St} {v veq n1 : ℕ} {ms : List ℕ} (h : Grown E s v veq ms s') : ∃ ms', Grown E s v veq ms' (fill E s.aggs.length v veq n1 s') := by
  have hperm := fun ec => hE.srt ec ((E.nb v).filter fun n => mayCheck E s' veq n)
  refine greedy_grown hE _ _ _ _ ms h ?_ ?_
  · exact ((hperm _).nodup_iff.2 ((hE.nodup v).filter _)).sublist (List.drop_sublist _ _)
  · intro n hn
    have := (hperm _).mem_iff.1 (List.mem_of_mem_drop hn)
    simpa using this

theorem grow_grown (hE : EnvOK E) (s : St) (v veq : ℕ) : ∃ ms, Grown E s v veq ms (grow E s v veq) := by
  obtain ⟨ms1, h1⟩ := firstNeib_grown (E := E) (E.ord s.k (E.nb v)) (start s v) [v] (start_grown E s v veq) fun n hn => (hE.ord _ _).mem_iff.1 hn
  rw [grow]
  split
  · exact ⟨ms1, h1⟩
  · exact fill_grown hE h1

/-- `init_agglomerate`: one more agglomerate of vertices that were not marked, or nothing -/
theorem initAgg_grown (hE : EnvOK E) {s : St} {v veq : ℕ} (hv : s.marked v = false) (hun : ∀ w, s.marked w = false → s.v2a w = none) (force : Bool) :
    (∃ ms, Grown E s v veq ms (initAgg E s v veq force).1) ∨ (force = false ∧ Same s (initAgg E s v veq force).1) := by
  obtain ⟨ms, h⟩ := grow_grown hE s v veq
  rw [initAgg]
  generalize grow E s v veq = s2 at h ⊢
  have hget : s2.aggs[s.aggs.length]? = some ⟨v, ms⟩ := by simp [h.aggs]
  split
  · exact Or.inl ⟨ms, h⟩
  · rename_i hf
    have hf' : force = false := by cases force <;> simp_all
    refine Or.inr ⟨hf', ?_⟩
    have hnew : ∀ w ∈ ms, s.marked w = false := fun w hw => if e : w = v then e ▸ hv else (h.new w hw e).1
    refine ⟨?_, ?_, ?_, ?_⟩
    · simp [h.aggs]
    · funext w
      simp only [hget, Option.elim_some, h.v2a]
      by_cases e : w ∈ ms
      · simp [e, hun w (hnew w e)]
      · simp [e]
    · funext w
      simp only [hget, Option.elim_some, h.marked]
      by_cases e : w ∈ ms
      · simp [e, hnew w e]
      · simp [e]
    · intro w hw
      simp only [hget, Option.elim_some]
      have : w ∉ ms := fun e => hw (hun w (hnew w e))
      simp [this, h.dist w this]

end NgsAMG.MIS
