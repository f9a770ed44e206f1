import Verif.Model.Exchange
import Mathlib.Algebra.BigOperators.Intervals
import Mathlib.Algebra.Order.BigOperators.Group.Finset
import Mathlib.Order.Interval.Finset.Nat

/-! Every schedule of the communication phases gives the same result, without deadlock and without left-over messages. -/

namespace NgsAMG.Exch

variable {V Msg : Type*} [Inhabited Msg]

/-- specification: all processes execute one phase in lock step -/
def runPhase (ph : Phase V Msg) (v : ℕ → V) (p : ℕ) : V :=
  ph.apply p (ph.start p (v p)) fun q => if ph.recvs p q then ph.msg q (v q) p else default

/-- specification: all phases in lock step -/
def run (prog : List (Phase V Msg)) (v : ℕ → V) : ℕ → V := prog.foldl (fun v ph => runPhase ph v) v

/-- sender and receiver agree on who communicates -/
def Matched (np : ℕ) (prog : List (Phase V Msg)) : Prop :=
  ∀ ph ∈ prog, ∀ p < np, (∀ q < np, ph.sends p q = ph.recvs q p) ∧ (∀ q, ph.sends p q → q < np) ∧ ∀ q, ph.recvs p q → q < np

/-- all processes are done -/
def Final (np : ℕ) (prog : List (Phase V Msg)) (s : St V Msg) : Prop := ∀ p < np, s.idx p = prog.length ∧ s.mid p = false

/-- process `p` has started phase `i` -/
def started (s : St V Msg) (i p : ℕ) : Prop := i < s.idx p ∨ (i = s.idx p ∧ s.mid p = true)

/-- the invariant -/
structure Inv (np : ℕ) (prog : List (Phase V Msg)) (v : ℕ → V) (s : St V Msg) : Prop where
  le : ∀ p < np, s.idx p ≤ prog.length
  open' : ∀ p < np, s.mid p = true → s.idx p < prog.length
  vec : ∀ p < np, s.mid p = false → s.vec p = run (prog.take (s.idx p)) v p
  vecMid : ∀ p < np, ∀ ph, s.mid p = true → prog[s.idx p]? = some ph →
    s.vec p = ph.start p (run (prog.take (s.idx p)) v p)
  sync : ∀ i p q ph, p < np → q < np → prog[i]? = some ph → ph.sends p q = true → i < s.idx q → started s i p
  chan : ∀ i p q ph, p < np → q < np → prog[i]? = some ph → ph.sends p q = true → started s i p → s.idx q ≤ i →
    s.chan i p q = some (ph.msg p (run (prog.take i) v p) q)
  empty : ∀ i p q, p < np → q < np →
    ¬ (∃ ph, prog[i]? = some ph ∧ ph.sends p q = true ∧ started s i p ∧ s.idx q ≤ i) → s.chan i p q = none

theorem run_take_succ (prog : List (Phase V Msg)) (v : ℕ → V) (i : ℕ) (ph : Phase V Msg) (h : prog[i]? = some ph) :
    run (prog.take (i + 1)) v = runPhase ph (run (prog.take i) v) := by
  obtain ⟨hi, rfl⟩ := List.getElem?_eq_some_iff.1 h
  rw [run, List.take_succ_eq_append_getElem hi, List.foldl_append]
  rfl

theorem inv_init (np : ℕ) (prog : List (Phase V Msg)) (v : ℕ → V) : Inv np prog v (init v) where
  le := by simp [init]
  open' := by simp [init]
  vec := by intro p _ _; simp [init, run]
  vecMid := by simp [init]
  sync := by simp [init]
  chan := by intro i p q ph _ _ _ _ hs; simp [init, started] at hs
  empty := by simp [init]

theorem inv_step {np : ℕ} {prog : List (Phase V Msg)} (hm : Matched np prog) {v : ℕ → V} {s t : St V Msg}
    (h : Inv np prog v s) (hst : Step np prog s t) : Inv np prog v t := by
  cases hst with
  | start p ph hp hph hmid =>
    have hlt : s.idx p < prog.length := (List.getElem?_eq_some_iff.1 hph).1
    have hstarted : ∀ i a, started s i a → started
        ({ s with
          mid := Function.update s.mid p true
          vec := Function.update s.vec p (ph.start p (s.vec p))
          chan := fun i a b => if i = s.idx p ∧ a = p ∧ ph.sends p b then some (ph.msg p (s.vec p) b) else s.chan i a b } :
            St V Msg) i a := by
      intro i a hs
      rcases hs with h1 | ⟨h1, h2⟩
      · exact Or.inl h1
      · right
        refine ⟨h1, ?_⟩
        by_cases hap : a = p
        · subst hap; simp
        · simpa [Function.update_of_ne hap] using h2
    refine ⟨h.le, ?_, ?_, ?_, ?_, ?_, ?_⟩
    · intro q hq hmq
      by_cases hqp : q = p
      · subst hqp; exact hlt
      · exact h.open' q hq (by simpa [Function.update_of_ne hqp] using hmq)
    · intro q hq hmq
      by_cases hqp : q = p
      · subst hqp; simp at hmq
      · simp only [Function.update_of_ne hqp] at hmq ⊢
        exact h.vec q hq hmq
    · intro q hq ph' hmq hph'
      by_cases hqp : q = p
      · subst hqp
        simp only [Function.update_self]
        simp only [hph] at hph'
        cases hph'
        rw [h.vec q hq hmid]
      · simp only [Function.update_of_ne hqp] at hmq ⊢
        exact h.vecMid q hq ph' hmq hph'
    · intro i a b ph' ha hb hph' hs hidx
      exact hstarted i a (h.sync i a b ph' ha hb hph' hs hidx)
    · intro i a b ph' ha hb hph' hs hsta hidx
      simp only
      by_cases hc : i = s.idx p ∧ a = p ∧ ph.sends p b = true
      · rw [if_pos hc]
        obtain ⟨rfl, rfl, _⟩ := hc
        rw [hph] at hph'
        cases hph'
        rw [h.vec a ha hmid]
      · rw [if_neg hc]
        refine h.chan i a b ph' ha hb hph' hs ?_ hidx
        rcases hsta with hlt' | ⟨heq, hmt⟩
        · exact Or.inl hlt'
        · by_cases hap : a = p
          · subst hap
            simp only at heq
            rw [heq, hph] at hph'
            cases hph'
            exact absurd ⟨heq, rfl, hs⟩ hc
          · simp only [Function.update_of_ne hap] at hmt
            exact Or.inr ⟨heq, hmt⟩
    · intro i a b ha hb hn
      simp only
      by_cases hc : i = s.idx p ∧ a = p ∧ ph.sends p b = true
      · exfalso
        obtain ⟨rfl, rfl, hs⟩ := hc
        apply hn
        refine ⟨ph, hph, hs, Or.inr ⟨rfl, by simp⟩, ?_⟩
        by_contra hgt
        have := h.sync (s.idx a) a b ph ha hb hph hs (not_le.1 hgt)
        rcases this with h1 | ⟨_, h2⟩
        · exact lt_irrefl _ h1
        · rw [hmid] at h2; exact absurd h2 (by simp)
      · rw [if_neg hc]
        apply h.empty i a b ha hb
        rintro ⟨ph', hph', hs, hsta, hidx⟩
        exact hn ⟨ph', hph', hs, hstarted i a hsta, hidx⟩
  | finish p ph hp hph hmid hrecv =>
    have hlt : s.idx p < prog.length := (List.getElem?_eq_some_iff.1 hph).1
    have hmem : ph ∈ prog := List.mem_of_getElem? hph
    obtain ⟨hmatch, hsnp, hrnp⟩ := hm ph hmem p hp
    have hst2 : ∀ i a, started s i a ↔ started
        ({ idx := Function.update s.idx p (s.idx p + 1)
           mid := Function.update s.mid p false
           vec := Function.update s.vec p
             (ph.apply p (s.vec p) fun q => if ph.recvs p q then (s.chan (s.idx p) q p).getD default else default)
           chan := fun i a b => if i = s.idx p ∧ b = p ∧ ph.recvs p a then none else s.chan i a b } : St V Msg) i a := by
      intro i a
      simp only [started]
      by_cases hap : a = p
      · subst hap
        simp only [Function.update_self]
        constructor
        · rintro (h1 | ⟨h1, h2⟩)
          · left; omega
          · left; omega
        · rintro (h1 | ⟨h1, h2⟩)
          · rcases Nat.lt_or_ge i (s.idx a) with h3 | h3
            · exact Or.inl h3
            · exact Or.inr ⟨by omega, hmid⟩
          · simp at h2
      · simp only [Function.update_of_ne hap]
    have hmsgs : ∀ q, ph.recvs p q = true →
        s.chan (s.idx p) q p = some (ph.msg q (run (prog.take (s.idx p)) v q) p) := by
      intro q hq
      have hqn := hrnp q hq
      have hsq : ph.sends q p = true := by rw [((hm ph hmem q hqn).1 p hp)]; exact hq
      apply h.chan (s.idx p) q p ph hqn hp hph hsq _ le_rfl
      by_contra hns
      have hnone := h.empty (s.idx p) q p hqn hp (by
        rintro ⟨ph', hph', _, hst, _⟩
        exact hns hst)
      have := hrecv q hq
      rw [hnone] at this
      simp at this
    have hnew : ph.apply p (s.vec p) (fun q => if ph.recvs p q then (s.chan (s.idx p) q p).getD default else default) =
        run (prog.take (s.idx p + 1)) v p := by
      rw [run_take_succ prog v _ ph hph, runPhase, h.vecMid p hp ph hmid hph]
      congr 1
      funext q
      by_cases hq : ph.recvs p q = true
      · rw [if_pos hq, if_pos hq, hmsgs q hq]; rfl
      · rw [if_neg hq, if_neg hq]
    refine ⟨?_, ?_, ?_, ?_, ?_, ?_, ?_⟩
    · intro q hq
      by_cases hqp : q = p
      · subst hqp; simp only [Function.update_self]; omega
      · simpa only [Function.update_of_ne hqp] using h.le q hq
    · intro q hq hmq
      by_cases hqp : q = p
      · subst hqp; simp at hmq
      · simp only [Function.update_of_ne hqp] at hmq ⊢
        exact h.open' q hq hmq
    · intro q hq hmq
      by_cases hqp : q = p
      · subst hqp; simp only [Function.update_self]; exact hnew
      · simp only [Function.update_of_ne hqp] at hmq ⊢
        exact h.vec q hq hmq
    · intro q hq ph' hmq hph'
      by_cases hqp : q = p
      · subst hqp; simp at hmq
      · simp only [Function.update_of_ne hqp] at hmq hph' ⊢
        exact h.vecMid q hq ph' hmq hph'
    · intro i a b ph' ha hb hph' hs hidx
      rw [← hst2]
      by_cases hbp : b = p
      · subst hbp
        simp only [Function.update_self] at hidx
        rcases Nat.lt_or_ge i (s.idx b) with h1 | h1
        · exact h.sync i a b ph' ha hb hph' hs h1
        · have hi : i = s.idx b := by omega
          subst hi
          rw [hph] at hph'
          cases hph'
          by_contra hns
          have hnone := h.empty (s.idx b) a b ha hb (by
            rintro ⟨ph'', _, _, hst, _⟩
            exact hns hst)
          have hra : ph.recvs b a = true := by rw [← (hm ph hmem a ha).1 b hb]; exact hs
          have := hrecv a hra
          rw [hnone] at this
          simp at this
      · simp only [Function.update_of_ne hbp] at hidx
        exact h.sync i a b ph' ha hb hph' hs hidx
    · intro i a b ph' ha hb hph' hs hsta hidx
      simp only
      rw [← hst2] at hsta
      by_cases hc : i = s.idx p ∧ b = p ∧ ph.recvs p a = true
      · exfalso
        obtain ⟨rfl, rfl, _⟩ := hc
        simp only [Function.update_self] at hidx
        omega
      · rw [if_neg hc]
        apply h.chan i a b ph' ha hb hph' hs hsta
        by_cases hbp : b = p
        · subst hbp; simp only [Function.update_self] at hidx; omega
        · simpa only [Function.update_of_ne hbp] using hidx
    · intro i a b ha hb hn
      simp only
      by_cases hc : i = s.idx p ∧ b = p ∧ ph.recvs p a = true
      · rw [if_pos hc]
      · rw [if_neg hc]
        apply h.empty i a b ha hb
        rintro ⟨ph', hph', hs, hsta, hidx⟩
        apply hn
        refine ⟨ph', hph', hs, (hst2 i a).1 hsta, ?_⟩
        by_cases hbp : b = p
        · subst hbp
          simp only [Function.update_self]
          rcases Nat.lt_or_ge (s.idx b) i with h1 | h1
          · omega
          · exfalso
            have hi : i = s.idx b := by omega
            subst hi
            rw [hph] at hph'
            cases hph'
            apply hc
            refine ⟨rfl, rfl, ?_⟩
            rw [← (hm ph hmem a ha).1 b hb]; exact hs
        · simpa only [Function.update_of_ne hbp] using hidx

theorem inv_reach {np : ℕ} {prog : List (Phase V Msg)} (hm : Matched np prog) {v : ℕ → V} {n : ℕ} {s : St V Msg}
    (h : Reach np prog v n s) : Inv np prog v s := by
  induction h with
  | init => exact inv_init np prog v
  | step _ hst ih => exact inv_step hm ih hst

/-- all schedules end in the same local states, and no message is left over -/
theorem final_state {np : ℕ} {prog : List (Phase V Msg)} (hm : Matched np prog) {v : ℕ → V} {n : ℕ} {s : St V Msg}
    (h : Reach np prog v n s) (hf : Final np prog s) :
    (∀ p < np, s.vec p = run prog v p) ∧ ∀ i, ∀ p < np, ∀ q < np, s.chan i p q = none := by
  have hi := inv_reach hm h
  constructor
  · intro p hp
    obtain ⟨h1, h2⟩ := hf p hp
    rw [hi.vec p hp h2, h1, List.take_length]
  · intro i p hp q hq
    apply hi.empty i p q hp hq
    rintro ⟨ph, hph, _, _, hle⟩
    have := (List.getElem?_eq_some_iff.1 hph).1
    have := (hf q hq).1
    omega

/-- no deadlock: as long as not all processes are done, some process can make a step -/
theorem no_deadlock {np : ℕ} {prog : List (Phase V Msg)} (hm : Matched np prog) {v : ℕ → V} {n : ℕ} {s : St V Msg}
    (h : Reach np prog v n s) (hf : ¬ Final np prog s) : ∃ t, Step np prog s t := by
  have hi := inv_reach hm h
  -- a process with minimal progress
  let w : ℕ → ℕ := fun p => 2 * s.idx p + if s.mid p = true then 1 else 0
  have hex : ∃ p < np, ¬ (s.idx p = prog.length ∧ s.mid p = false) := by
    by_contra hn
    apply hf
    intro p hp
    by_contra hc
    exact hn ⟨p, hp, hc⟩
  obtain ⟨p0, hp0, hne0⟩ := hex
  obtain ⟨p, hp, hmin⟩ := Finset.exists_min_image (Finset.range np) w ⟨p0, by simpa using hp0⟩
  simp only [Finset.mem_range] at hp hmin
  have hne : s.idx p < prog.length := by
    by_contra hge
    have hle := hi.le p hp
    have hle0 := hi.le p0 hp0
    have hm0 := hmin p0 hp0
    by_cases hmid0 : s.mid p0 = true
    · have := hi.open' p0 hp0 hmid0
      simp only [w, hmid0, if_true] at hm0
      split at hm0 <;> omega
    · have hf0 : s.mid p0 = false := by simpa using hmid0
      simp only [w, hf0] at hm0
      have : s.idx p0 ≠ prog.length := fun h => hne0 ⟨h, hf0⟩
      split at hm0 <;> simp at hm0 <;> omega
  have hph : prog[s.idx p]? = some prog[s.idx p] := List.getElem?_eq_getElem hne
  by_cases hmid : s.mid p = true
  · refine ⟨_, Step.finish s p _ hp hph hmid ?_⟩
    intro q hq
    have hmem : prog[s.idx p] ∈ prog := List.getElem_mem hne
    have hqn := (hm _ hmem p hp).2.2 q hq
    have hsq : prog[s.idx p].sends q p = true := by rw [(hm _ hmem q hqn).1 p hp]; exact hq
    rw [hi.chan (s.idx p) q p _ hqn hp hph hsq _ le_rfl]
    · rfl
    · have := hmin q hqn
      simp only [w, hmid, if_true] at this
      by_cases hmq : s.mid q = true
      · simp only [hmq, if_true] at this
        rcases Nat.lt_or_ge (s.idx p) (s.idx q) with h1 | h1
        · exact Or.inl h1
        · exact Or.inr ⟨by omega, hmq⟩
      · simp only [hmq] at this
        left
        simp at this
        omega
  · exact ⟨_, Step.start s p _ hp hph (by simpa using hmid)⟩

/-- every schedule ends: the number of steps is bounded -/
theorem terminates {np : ℕ} {prog : List (Phase V Msg)} (hm : Matched np prog) {v : ℕ → V} {n : ℕ} {s : St V Msg}
    (h : Reach np prog v n s) : n ≤ 2 * prog.length * np := by
  have key : n = ∑ p ∈ Finset.range np, (2 * s.idx p + if s.mid p = true then 1 else 0) := by
    induction h with
    | init => simp [init]
    | step hr hst ih =>
      rename_i s t
      rw [ih]
      have one : ∀ (p : ℕ), p < np → ∀ f g : ℕ → ℕ, (∀ q, q ≠ p → g q = f q) → g p = f p + 1 →
          ∑ q ∈ Finset.range np, f q + 1 = ∑ q ∈ Finset.range np, g q := by
        intro p hp f g hfg hgp
        rw [← Finset.add_sum_erase _ f (Finset.mem_range.2 hp), ← Finset.add_sum_erase _ g (Finset.mem_range.2 hp), hgp]
        have : ∑ q ∈ (Finset.range np).erase p, f q = ∑ q ∈ (Finset.range np).erase p, g q :=
          Finset.sum_congr rfl (fun q hq => (hfg q (Finset.ne_of_mem_erase hq)).symm)
        rw [this]
        exact Nat.add_right_comm _ _ _
      cases hst with
      | start p ph hp hph hmid =>
        apply one p hp
        · intro q hq; simp [Function.update_of_ne hq]
        · simp [hmid]
      | finish p ph hp hph hmid hrecv =>
        apply one p hp
        · intro q hq; simp [Function.update_of_ne hq]
        · simp [hmid]; omega
  have hi := inv_reach hm h
  rw [key]
  calc _ ≤ ∑ _p ∈ Finset.range np, 2 * prog.length := by
        apply Finset.sum_le_sum
        intro p hp
        rw [Finset.mem_range] at hp
        have h1 := hi.le p hp
        by_cases hmid : s.mid p = true
        · have := hi.open' p hp hmid
          simp only [hmid, if_true]; omega
        · simp only [hmid]; simp; omega
    _ = 2 * prog.length * np := by rw [Finset.sum_const, Finset.card_range]; exact Nat.mul_comm _ _

/-- every program runs to the end: from each reachable state a final state can be reached -/
theorem exists_final {np : ℕ} {prog : List (Phase V Msg)} (hm : Matched np prog) (v : ℕ → V) :
    ∃ n s, Reach np prog v n s ∧ Final np prog s := by
  by_contra hno
  push Not at hno
  have : ∀ k, ∃ s, Reach np prog v k s := by
    intro k
    induction k with
    | zero => exact ⟨_, Reach.init⟩
    | succ k ih =>
      obtain ⟨s, hs⟩ := ih
      obtain ⟨t, ht⟩ := no_deadlock hm hs (hno k s hs)
      exact ⟨t, hs.step ht⟩
  obtain ⟨s, hs⟩ := this (2 * prog.length * np + 1)
  have := terminates hm hs
  omega

end NgsAMG.Exch
