import Verif.Model.LoopSort
import Verif.Spec.Walks
import Mathlib.Tactic.Linarith
import Mathlib.Data.List.Perm.Subperm
import Mathlib.Data.List.Range

/-!
# Sorting of loops 1: extension of a chunk
-/

namespace NgsAMG.LSort

variable {T V : Type}

/-- `orient` compares ends of edges (`src`, `tgt`), `flip` turns an edge around -/
structure ByEnds [DecidableEq V] (src tgt : T → V) (flip : T → T) (orient : T → Bool → T → ℤ) (loop : List T) : Prop where
  ori : ∀ a ∈ loop, ∀ fa, ∀ b ∈ loop, orient a fa b =
    if (if fa then src a else tgt a) = src b then 1 else if (if fa then src a else tgt a) = tgt b then -1 else 0
  fs : ∀ a ∈ loop, src (flip a) = tgt a
  ft : ∀ a ∈ loop, tgt (flip a) = src a

theorem findSome_range {α : Type} (n : ℕ) (f : ℕ → Option α) :
    (∃ k x, k < n ∧ f k = some x ∧ (List.range n).findSome? f = some x) ∨
      ((List.range n).findSome? f = none ∧ ∀ k < n, f k = none) := by
  cases h : (List.range n).findSome? f with
  | none =>
    right; refine ⟨rfl, fun k hk => ?_⟩
    exact List.findSome?_eq_none_iff.1 h k (List.mem_range.2 hk)
  | some x =>
    left
    obtain ⟨k, hk, hx⟩ := List.exists_of_findSome?_eq_some h
    exact ⟨k, x, List.mem_range.1 hk, hx, rfl⟩

/-- state of the search: what is in the list is marked and nothing else -/
structure Ok (n : ℕ) (s : St) : Prop where
  nodup : s.inds.Nodup
  lt : ∀ k ∈ s.inds, k < n
  us : ∀ k, s.used k ≠ 0 ↔ k ∈ s.inds
  val : ∀ k, s.used k = 0 ∨ s.used k = 1 ∨ s.used k = -1

theorem Ok.length_le {n : ℕ} {s : St} (h : Ok n s) : s.inds.length ≤ n := by
  have : s.inds ⊆ List.range n := fun k hk => List.mem_range.2 (h.lt k hk)
  simpa using (h.nodup.subperm this).length_le

theorem Ok.add {n : ℕ} {s : St} (h : Ok n s) {ort : ℤ} {k : ℕ} (ho : ort = 1 ∨ ort = -1) (hk : k < n) (hu : s.used k = 0) :
    Ok n (s.add ort k) := by
  have hk' : k ∉ s.inds := fun hh => (h.us k).2 hh hu
  refine ⟨?_, ?_, fun j => ?_, fun j => ?_⟩
  · show (s.inds ++ [k]).Nodup
    rw [List.nodup_append]
    refine ⟨h.nodup, by simp, ?_⟩
    intro a ha b hb
    simp at hb; subst hb; rintro rfl; exact hk' ha
  · intro j hj
    rcases List.mem_append.1 hj with hj | hj
    · exact h.lt j hj
    · simp at hj; omega
  · show Function.update s.used k ort j ≠ 0 ↔ j ∈ s.inds ++ [k]
    by_cases hjk : j = k
    · subst hjk; simp; rcases ho with ho | ho <;> omega
    · simp [Function.update_of_ne hjk, hjk, h.us j]
  · show Function.update s.used k ort j = 0 ∨ Function.update s.used k ort j = 1 ∨ Function.update s.used k ort j = -1
    by_cases hjk : j = k
    · subst hjk; simp; omega
    · simp only [Function.update_of_ne hjk]; exact h.val j

/-- an edge with its orientation, as pair of source and target; `d` is not used when the number is right -/
def pr (src tgt : T → V) (loop : List T) (d : T) (o : ℤ) (k : ℕ) : V × V :=
  if o = -1 then (tgt (loop.getD k d), src (loop.getD k d)) else (src (loop.getD k d), tgt (loop.getD k d))

/-- no end of an edge that is not used -/
def Away (src tgt : T → V) (loop : List T) (d : T) (s : St) (b : V) : Prop :=
  ∀ k < loop.length, s.used k = 0 → src (loop.getD k d) ≠ b ∧ tgt (loop.getD k d) ≠ b

/-- the walk of a list of numbers -/
def WalkI (src tgt : T → V) (loop : List T) (d : T) (o : ℕ → ℤ) (a : V) (l : List ℕ) (b : V) : Prop :=
  Walk (Prod.fst : V × V → V) Prod.snd a (l.map fun k => pr src tgt loop d (o k) k) b

theorem getD_lt {loop : List T} {d : T} {k : ℕ} (h : k < loop.length) : loop[k]? = some (loop.getD k d) := by
  simp [List.getD_eq_getElem?_getD, List.getElem?_eq_getElem h]

theorem getD_mem {loop : List T} {d : T} {k : ℕ} (h : k < loop.length) : loop.getD k d ∈ loop := by
  rw [List.getD_eq_getElem?_getD, List.getElem?_eq_getElem h]; simp

variable [DecidableEq V] {src tgt : T → V} {flip : T → T} {orient : T → Bool → T → ℤ} {loop : List T}

/-- `findFit`: either an unused edge at the end, or none is there -/
theorem findFit_spec (hE : ByEnds src tgt flip orient loop) (d : T) (s : St) {curr : T} (hc : curr ∈ loop) (fc : Bool) :
    (∃ k ort, k < loop.length ∧ s.used k = 0 ∧ findFit orient loop s curr fc = some (k, loop.getD k d, ort) ∧
      ((ort = 1 ∧ src (loop.getD k d) = if fc then src curr else tgt curr) ∨
       (ort = -1 ∧ tgt (loop.getD k d) = if fc then src curr else tgt curr))) ∨
    (findFit orient loop s curr fc = none ∧ Away src tgt loop d s (if fc then src curr else tgt curr)) := by
  unfold findFit
  rcases findSome_range loop.length (fun k =>
    if s.used k = 0 then (loop[k]?).bind fun x => if orient curr fc x ≠ 0 then some (k, x, orient curr fc x) else none else none)
    with ⟨k, y, hk, hy, hf⟩ | ⟨hf, hall⟩
  · left
    by_cases hu : s.used k = 0
    · rw [if_pos hu, getD_lt (d := d) hk, Option.bind_some] at hy
      by_cases ho : orient curr fc (loop.getD k d) ≠ 0
      · rw [if_pos ho, Option.some.injEq] at hy
        subst hy
        refine ⟨k, _, hk, hu, hf, ?_⟩
        have := hE.ori curr hc fc _ (getD_mem (d := d) hk)
        rw [this] at ho ⊢
        by_cases h1 : (if fc then src curr else tgt curr) = src (loop.getD k d)
        · left; exact ⟨if_pos h1, h1.symm⟩
        · rw [if_neg h1] at ho ⊢
          by_cases h2 : (if fc then src curr else tgt curr) = tgt (loop.getD k d)
          · right; exact ⟨if_pos h2, h2.symm⟩
          · rw [if_neg h2] at ho; exact absurd rfl ho
      · rw [if_neg ho] at hy; cases hy
    · rw [if_neg hu] at hy; cases hy
  · right
    refine ⟨hf, fun k hk hu => ?_⟩
    have := hall k hk
    rw [if_pos hu, getD_lt (d := d) hk, Option.bind_some] at this
    by_cases ho : orient curr fc (loop.getD k d) ≠ 0
    · rw [if_pos ho] at this; cases this
    · push Not at ho
      rw [hE.ori curr hc fc _ (getD_mem (d := d) hk)] at ho
      by_cases h1 : (if fc then src curr else tgt curr) = src (loop.getD k d)
      · rw [if_pos h1] at ho; cases ho
      · rw [if_neg h1] at ho
        by_cases h2 : (if fc then src curr else tgt curr) = tgt (loop.getD k d)
        · rw [if_pos h2] at ho; cases ho
        · exact ⟨fun h => h1 h.symm, fun h => h2 h.symm⟩

/-- extension of a chunk: terminates, what was there remains, the new edges form a walk (backwards when the front is extended), nothing more fits -/
theorem extend_spec (hE : ByEnds src tgt flip orient loop) (d : T) (so : ℤ) (hso : so = 1 ∨ so = -1) :
    ∀ (n : ℕ) (s : St) (curr : T) (fc : Bool), curr ∈ loop → Ok loop.length s → loop.length < n + s.inds.length →
      ∃ s' new b, extend orient loop so n s curr fc = some s' ∧ Ok loop.length s' ∧ s'.inds = s.inds ++ new ∧
        (∀ k ∈ s.inds, s'.used k = s.used k) ∧
        WalkI src tgt loop d (fun k => s'.used k * so) (if fc then src curr else tgt curr) new b ∧
        Away src tgt loop d s' b := by
  intro n
  induction n with
  | zero => intro s _ _ _ hs hn; have := hs.length_le; omega
  | succ n ih =>
    intro s curr fc hc hs hn
    rcases findFit_spec hE d s hc fc with ⟨k, ort, hk, hu, hf, ho⟩ | ⟨hf, haw⟩
    · have hort : ort = 1 ∨ ort = -1 := by rcases ho with ⟨h, _⟩ | ⟨h, _⟩ <;> omega
      have hos : ort * so = 1 ∨ ort * so = -1 := by rcases hort with rfl | rfl <;> rcases hso with rfl | rfl <;> decide
      have hs1 := hs.add hos hk hu
      obtain ⟨s', new, b, h1, h2, h3, h4, h5, h6⟩ := ih (s.add (ort * so) k) (loop.getD k d) (decide (ort < 0)) (getD_mem hk) hs1 (by
        show loop.length < n + (s.inds ++ [k]).length
        simp; omega)
      have hkm : k ∈ (s.add (ort * so) k).inds := by show k ∈ s.inds ++ [k]; simp
      have hku : s'.used k = ort * so := by rw [h4 k hkm]; show Function.update _ _ _ k = _; simp
      refine ⟨s', k :: new, b, ?_, h2, ?_, ?_, ?_, h6⟩
      · rw [extend, hf]; exact h1
      · rw [h3]; show (s.inds ++ [k]) ++ new = _; simp
      · intro j hj
        rw [h4 j (by show j ∈ s.inds ++ [k]; simp [hj])]
        show Function.update s.used k _ j = _
        rw [Function.update_of_ne]
        rintro rfl; exact (hs.us j).2 hj hu
      · have hoo : s'.used k * so = ort := by
          rw [hku]; rcases hort with rfl | rfl <;> rcases hso with rfl | rfl <;> decide
        refine ⟨?_, ?_⟩
        · show (pr src tgt loop d (s'.used k * so) k).1 = _
          rw [hoo]
          rcases ho with ⟨rfl, h⟩ | ⟨rfl, h⟩
          · rw [pr, if_neg (by decide)]; exact h
          · rw [pr, if_pos rfl]; exact h
        · have : (pr src tgt loop d (s'.used k * so) k).2 = if decide (ort < 0) then src (loop.getD k d) else tgt (loop.getD k d) := by
            rw [hoo]
            rcases ho with ⟨rfl, h⟩ | ⟨rfl, h⟩
            · rw [pr, if_neg (by decide)]; rfl
            · rw [pr, if_pos rfl]; rfl
          show Walk Prod.fst Prod.snd (pr src tgt loop d (s'.used k * so) k).2 _ b
          rw [this]; exact h5
    · refine ⟨s, [], _, ?_, hs, by simp, fun _ _ => rfl, ?_, haw⟩
      · rw [extend, hf]
      · exact rfl

end NgsAMG.LSort
