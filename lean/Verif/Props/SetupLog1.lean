import Verif.Spec.AllRuns
import Mathlib.Logic.Relation

/-! The order of the operations does not matter. -/

namespace NgsAMG.SLog

variable {α β : Type} {J : ℕ → List ℕ → ℕ → ℕ}

theorem Ready.ne_nil {f : ℕ → Prog α} {c n} (h : Ready J f c n) : c ≠ [] := by
  cases h <;> simp_all

theorem Ready.local {f f' : ℕ → Prog α} {c n} (h : Ready J f c n) (he : ∀ p ∈ c, f' p = f p) : Ready J f' c n := by
  cases h with
  | red _ x k hc h => exact .red c x k hc fun p hp => (he p hp).trans (h p hp)
  | amin _ x k hc h => exact .amin c x k hc fun p hp => (he p hp).trans (h p hp)
  | msg p q d k k' hpq hp hq => exact .msg p q d k k' hpq ((he p (by simp)).trans hp) ((he q (by simp)).trans hq)

theorem Ready.det {f : ℕ → Prog α} {c c' n n'} (h : Ready J f c n) (h' : Ready J f c' n') {p : ℕ} (hp : p ∈ c) (hp' : p ∈ c') :
    c = c' ∧ ∀ r ∈ c, n r = n' r := by
  cases h with
  | red _ x k hc h =>
    have e := h p hp
    cases h' with
    | red _ x' k' hc' h' =>
      have e' := h' p hp'
      rw [e] at e'
      injection e' with e1
      subst e1
      have hx : ∀ r ∈ c, x r = x' r ∧ k r = k' r := fun r hr => by
        have := (h r hr).symm.trans (h' r hr)
        injection this with _ a b
        exact ⟨a, b⟩
      have hm : c.map x = c.map x' := List.map_congr_left fun r hr => (hx r hr).1
      exact ⟨rfl, fun r hr => by simp only [(hx r hr).1, (hx r hr).2, hm]⟩
    | amin _ x' k' hc' h' => have e' := h' p hp'; rw [e] at e'; cases e'
    | msg a b d k1 k2 hab ha hb =>
      rcases List.mem_pair.1 hp' with rfl | rfl
      · rw [e] at ha; cases ha
      · rw [e] at hb; cases hb
  | amin _ x k hc h =>
    have e := h p hp
    cases h' with
    | amin _ x' k' hc' h' =>
      have e' := h' p hp'
      rw [e] at e'
      injection e' with e1
      subst e1
      have hx : ∀ r ∈ c, x r = x' r ∧ k r = k' r := fun r hr => by
        have := (h r hr).symm.trans (h' r hr)
        injection this with _ a b
        exact ⟨a, b⟩
      have hm : c.map x = c.map x' := List.map_congr_left fun r hr => (hx r hr).1
      exact ⟨rfl, fun r hr => by simp only [(hx r hr).2, hm]⟩
    | red _ x' k' hc' h' => have e' := h' p hp'; rw [e] at e'; cases e'
    | msg a b d k1 k2 hab ha hb =>
      rcases List.mem_pair.1 hp' with rfl | rfl
      · rw [e] at ha; cases ha
      · rw [e] at hb; cases hb
  | msg a b d k1 k2 hab ha hb =>
    have key : ∀ c' n', Ready J f c' n' → (a ∈ c' ∨ b ∈ c') → [a, b] = c' ∧ ∀ r ∈ [a, b], (if r = a then k1 else k2 d) = n' r := by
      intro c' n' h' hm
      cases h' with
      | red _ x k hc h => rcases hm with hm | hm <;> have e := h _ hm <;> simp_all
      | amin _ x k hc h => rcases hm with hm | hm <;> have e := h _ hm <;> simp_all
      | msg a' b' d' k1' k2' hab' ha' hb' =>
        have hb'' : a = a' ∧ b = b' := by
          rcases hm with hm | hm
          · rcases List.mem_pair.1 hm with rfl | rfl
            · rw [ha] at ha'; injection ha' with e1; exact ⟨rfl, e1⟩
            · rw [ha] at hb'; cases hb'
          · rcases List.mem_pair.1 hm with rfl | rfl
            · rw [hb] at ha'; cases ha'
            · rw [hb] at hb'; injection hb' with e1; exact ⟨e1, rfl⟩
        obtain ⟨rfl, rfl⟩ := hb''
        rw [ha] at ha'
        rw [hb] at hb'
        injection ha' with _ e2 e3
        injection hb' with _ e4
        subst e2 e3 e4
        exact ⟨rfl, fun r _ => rfl⟩
    exact key c' n' h' (by rcases List.mem_pair.1 hp with rfl | rfl <;> simp [hp'])

/-- two operations that are possible are the same, or can be carried out in any order -/
theorem Step.diamond {f g g' : ℕ → Prog α} (h : Step J f g) (h' : Step J f g') : g = g' ∨ ∃ k, Step J g k ∧ Step J g' k := by
  obtain ⟨c, n, hr, rfl⟩ := h
  obtain ⟨c', n', hr', rfl⟩ := h'
  by_cases hd : ∃ p, p ∈ c ∧ p ∈ c'
  · obtain ⟨p, hp, hp'⟩ := hd
    obtain ⟨rfl, he⟩ := hr.det hr' hp hp'
    left
    funext r
    by_cases m : r ∈ c
    · rw [if_pos m, if_pos m, he r m]
    · rw [if_neg m, if_neg m]
  · push Not at hd
    refine Or.inr ⟨fun p => if p ∈ c then n p else if p ∈ c' then n' p else f p, ⟨c', n', hr'.local fun p hp => ?_, ?_⟩, ⟨c, n, hr.local fun p hp => ?_, rfl⟩⟩
    · exact if_neg fun hc => hd p hc hp
    · funext p
      by_cases m : p ∈ c <;> by_cases m' : p ∈ c' <;> simp [m, m']
      exact (hd p m m').elim
    · exact if_neg (hd p hp)

/-- one execution is enough -/
theorem EndsIn.back {g f f' : ℕ → Prog α} (h : EndsIn J g f') (hs : Step J f f') : EndsIn J g f := by
  induction h generalizing f with
  | mk f' h0 h ih =>
    refine .mk f (Or.inr ⟨f', hs⟩) fun f2 h2 => ?_
    rcases hs.diamond h2 with rfl | ⟨k, hk, hk'⟩
    · exact .mk f' h0 h
    · exact ih k hk hk'

theorem EndsIn.backs {g f f' : ℕ → Prog α} (h : EndsIn J g f') (hs : Relation.ReflTransGen (Step J) f f') : EndsIn J g f := by
  induction hs using Relation.ReflTransGen.head_induction_on with
  | refl => exact h
  | head h1 _ ih => exact ih.back h1

theorem endsIn_self {g : ℕ → Prog α} (h : ¬∃ f', Step J g f') : EndsIn J g g := .mk g (Or.inl ⟨rfl, h⟩) fun f' hf => (h ⟨f', hf⟩).elim

/-- executions end in one state only -/
theorem EndsIn.unique {f g g' : ℕ → Prog α} (h : EndsIn J g f) (h' : EndsIn J g' f) : g = g' := by
  induction h with
  | mk f h0 h ih =>
    cases h' with
    | mk _ h0' h' =>
      by_cases he : ∃ f', Step J f f'
      · obtain ⟨f', hf⟩ := he
        exact ih f' hf (h' f' hf)
      · rcases h0 with ⟨rfl, _⟩ | x
        · rcases h0' with ⟨rfl, _⟩ | x
          · rfl
          · exact (he x).elim
        · exact (he x).elim

theorem no_step_ret (a : ℕ → α) : ¬∃ f', Step J (fun p => Prog.ret (a p)) f' := by
  rintro ⟨_, c, n, hr, -⟩
  cases hr with
  | red _ x k hc h => obtain ⟨p, hp⟩ := List.exists_mem_of_ne_nil c hc; cases h p hp
  | amin _ x k hc h => obtain ⟨p, hp⟩ := List.exists_mem_of_ne_nil c hc; cases h p hp
  | msg p q d k k' hpq hp hq => cases hp

/-- programs that hang do not finish -/
theorem AllHang.not_finish {f : ℕ → Prog α} {p : ℕ} (h : AllHang J f p) (a : ℕ → α) : ¬AllFinish J f a := by
  rintro hf
  obtain ⟨g, hg, hp⟩ := h
  exact hp (a p) (congrFun (hg.unique hf) p)

/-- the relation of steps is compatible with continuations -/
theorem Step.bind {f g : ℕ → Prog α} (h : Step J f g) (k : ℕ → α → Prog β) : Step J (fun p => (f p).bind (k p)) fun p => (g p).bind (k p) := by
  obtain ⟨c, n, hr, rfl⟩ := h
  have key : ∃ n', Ready J (fun p => (f p).bind (k p)) c n' ∧ ∀ p ∈ c, n' p = (n p).bind (k p) := by
    cases hr with
    | red _ x k' hc h => exact ⟨_, .red c x (fun p y => (k' p y).bind (k p)) hc fun p hp => by show (f p).bind _ = _; rw [h p hp]; rfl, fun p _ => rfl⟩
    | amin _ x k' hc h => exact ⟨_, .amin c x (fun p y => (k' p y).bind (k p)) hc fun p hp => by show (f p).bind _ = _; rw [h p hp]; rfl, fun p _ => rfl⟩
    | msg p q d k1 k2 hpq hp hq =>
      refine ⟨_, .msg p q d (k1.bind (k p)) (fun d => (k2 d).bind (k q)) hpq (by show (f p).bind _ = _; rw [hp]; rfl) (by show (f q).bind _ = _; rw [hq]; rfl),
        fun r hr => ?_⟩
      rcases List.mem_pair.1 hr with rfl | rfl
      · simp
      · simp [hpq.symm]
  obtain ⟨n', h1, h2⟩ := key
  refine ⟨c, n', h1, funext fun p => ?_⟩
  by_cases m : p ∈ c
  · simp [m, h2 p m]
  · simp [m]

theorem Steps.bind {f g : ℕ → Prog α} (h : Relation.ReflTransGen (Step J) f g) (k : ℕ → α → Prog β) :
    Relation.ReflTransGen (Step J) (fun p => (f p).bind (k p)) fun p => (g p).bind (k p) := by
  induction h with
  | refl => exact .refl
  | tail _ h ih => exact ih.tail (h.bind k)

end NgsAMG.SLog
