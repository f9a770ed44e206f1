import Verif.Model.Exchange2
import Verif.Props.Exchange

/-! Every schedule of phases with data-dependent partners gives the result of the lock-step execution, without deadlock and
left-over messages, if in the lock-step execution everybody waits for exactly the messages that are sent. -/

namespace NgsAMG.Exch

variable {V Msg : Type*} [Inhabited Msg]

/-- specification: all processes execute one phase in lock step -/
def drunPhase (ph : DPhase V Msg) (v : ℕ → V) (p : ℕ) : V :=
  ph.apply p (v p) fun q => if ph.recvs p (v p) q then ph.msg q (v q) p else default

/-- specification: all phases in lock step -/
def drun (prog : List (DPhase V Msg)) (v : ℕ → V) : ℕ → V := prog.foldl (fun v ph => drunPhase ph v) v

/-- in the lock-step execution, sender and receiver agree on who communicates -/
def DMatched (np : ℕ) (prog : List (DPhase V Msg)) (v : ℕ → V) : Prop :=
  ∀ (i : ℕ) (ph : DPhase V Msg), prog[i]? = some ph → ∀ p < np,
    (∀ q < np, ph.sends p (drun (prog.take i) v p) q = ph.recvs q (drun (prog.take i) v q) p) ∧
    (∀ q, ph.sends p (drun (prog.take i) v p) q → q < np) ∧ ∀ q, ph.recvs p (drun (prog.take i) v p) q → q < np

/-- all processes are done -/
def DFinal (np : ℕ) (prog : List (DPhase V Msg)) (s : St V Msg) : Prop := ∀ p < np, s.idx p = prog.length ∧ s.mid p = false

/-- the phase with the partners of a fixed state -/
def frz (ph : DPhase V Msg) (v : ℕ → V) : Phase V Msg where
  sends p q := ph.sends p (v p) q
  recvs p q := ph.recvs p (v p) q
  msg := ph.msg
  start _ v := v
  apply := ph.apply

/-- the program with the partners of the lock-step execution -/
def freeze : List (DPhase V Msg) → (ℕ → V) → List (Phase V Msg)
  | [], _ => []
  | ph :: l, v => frz ph v :: freeze l (drunPhase ph v)

theorem run_freeze (prog : List (DPhase V Msg)) (v : ℕ → V) : run (freeze prog v) v = drun prog v := by
  induction prog generalizing v with
  | nil => rfl
  | cons ph l ih => exact ih (drunPhase ph v)

theorem freeze_length (prog : List (DPhase V Msg)) (v : ℕ → V) : (freeze prog v).length = prog.length := by
  induction prog generalizing v with
  | nil => rfl
  | cons ph l ih => simp [freeze, ih]

theorem freeze_take (prog : List (DPhase V Msg)) (v : ℕ → V) (i : ℕ) : (freeze prog v).take i = freeze (prog.take i) v := by
  induction prog generalizing v i with
  | nil => simp [freeze]
  | cons ph l ih =>
    cases i with
    | zero => simp [freeze]
    | succ i => simp [freeze, ih]

theorem freeze_get (prog : List (DPhase V Msg)) (v : ℕ → V) (i : ℕ) :
    (freeze prog v)[i]? = (prog[i]?).map fun ph => frz ph (drun (prog.take i) v) := by
  induction prog generalizing v i with
  | nil => simp [freeze]
  | cons ph l ih =>
    cases i with
    | zero => simp [freeze, drun]
    | succ i =>
      simp only [freeze, List.getElem?_cons_succ, ih, List.take_succ_cons]
      rfl

theorem freeze_matched {np : ℕ} {prog : List (DPhase V Msg)} {v : ℕ → V} (h : DMatched np prog v) :
    Matched np (freeze prog v) := by
  intro f hf p hp
  obtain ⟨i, hi, rfl⟩ := List.mem_iff_getElem.mp hf
  have hg := freeze_get prog v i
  rw [List.getElem?_eq_getElem hi] at hg
  obtain ⟨ph, h1, h2⟩ := Option.map_eq_some_iff.mp hg.symm
  rw [← h2]
  exact h i ph h1 p hp

theorem dreach_reach {np : ℕ} {prog : List (DPhase V Msg)} {v : ℕ → V} (hm : DMatched np prog v) {n : ℕ} {s : St V Msg}
    (h : DReach np prog v n s) : Reach np (freeze prog v) v n s := by
  induction h with
  | init => exact Reach.init
  | @step n s t _ hst ih =>
    have hi := inv_reach (freeze_matched hm) ih
    refine ih.step ?_
    cases hst with
    | start p ph hp hph hmid =>
      have hv := hi.vec p hp hmid
      rw [freeze_take, run_freeze] at hv
      have hg : (freeze prog v)[s.idx p]? = some (frz ph (drun (prog.take (s.idx p)) v)) := by rw [freeze_get, hph]; rfl
      have := Step.start _ p _ hp hg hmid
      simp only [frz, ← hv, Function.update_eq_self] at this
      exact this
    | finish p ph hp hph hmid hrecv =>
      have hg : (freeze prog v)[s.idx p]? = some (frz ph (drun (prog.take (s.idx p)) v)) := by rw [freeze_get, hph]; rfl
      have hv := hi.vecMid p hp _ hmid hg
      rw [freeze_take, run_freeze] at hv
      simp only [frz] at hv
      have := Step.finish _ p _ hp hg hmid (by
        intro q hq
        simp only [frz, ← hv] at hq
        exact hrecv q hq)
      simp only [frz, ← hv] at this
      exact this

theorem step_dstep {np : ℕ} {prog : List (DPhase V Msg)} {v : ℕ → V} {s t : St V Msg}
    (hi : Inv np (freeze prog v) v s) (h : Step np (freeze prog v) s t) : ∃ t, DStep np prog s t := by
  cases h with
  | start p f hp hf hmid =>
    rw [freeze_get] at hf
    obtain ⟨ph, h1, -⟩ := Option.map_eq_some_iff.mp hf
    exact ⟨_, DStep.start _ p ph hp h1 hmid⟩
  | finish p f hp hf hmid hrecv =>
    have hv := hi.vecMid p hp _ hmid hf
    rw [freeze_take, run_freeze] at hv
    rw [freeze_get] at hf
    obtain ⟨ph, h1, rfl⟩ := Option.map_eq_some_iff.mp hf
    refine ⟨_, DStep.finish _ p ph hp h1 hmid fun q hq => hrecv q ?_⟩
    simp only [frz] at hv ⊢
    rwa [← hv]

/-- all schedules end in the same local states, and no message is left over -/
theorem dfinal_state {np : ℕ} {prog : List (DPhase V Msg)} {v : ℕ → V} (hm : DMatched np prog v) {n : ℕ} {s : St V Msg}
    (h : DReach np prog v n s) (hf : DFinal np prog s) :
    (∀ p < np, s.vec p = drun prog v p) ∧ ∀ i, ∀ p < np, ∀ q < np, s.chan i p q = none := by
  have := final_state (freeze_matched hm) (dreach_reach hm h) (fun p hp => by rw [freeze_length]; exact hf p hp)
  rwa [run_freeze] at this

/-- no deadlock -/
theorem dno_deadlock {np : ℕ} {prog : List (DPhase V Msg)} {v : ℕ → V} (hm : DMatched np prog v) {n : ℕ} {s : St V Msg}
    (h : DReach np prog v n s) (hf : ¬ DFinal np prog s) : ∃ t, DStep np prog s t := by
  have hr := dreach_reach hm h
  obtain ⟨t, ht⟩ := no_deadlock (freeze_matched hm) hr (fun hf' => hf fun p hp => by rw [← freeze_length prog v]; exact hf' p hp)
  exact step_dstep (inv_reach (freeze_matched hm) hr) ht

/-- every schedule ends -/
theorem dterminates {np : ℕ} {prog : List (DPhase V Msg)} {v : ℕ → V} (hm : DMatched np prog v) {n : ℕ} {s : St V Msg}
    (h : DReach np prog v n s) : n ≤ 2 * prog.length * np := by
  have := terminates (freeze_matched hm) (dreach_reach hm h)
  rwa [freeze_length] at this

/-- every program runs to the end -/
theorem dexists_final {np : ℕ} {prog : List (DPhase V Msg)} {v : ℕ → V} (hm : DMatched np prog v) :
    ∃ n s, DReach np prog v n s ∧ DFinal np prog s := by
  by_contra hno
  push Not at hno
  have : ∀ k, ∃ s, DReach np prog v k s := by
    intro k
    induction k with
    | zero => exact ⟨_, DReach.init⟩
    | succ k ih =>
      obtain ⟨s, hs⟩ := ih
      obtain ⟨t, ht⟩ := dno_deadlock hm hs (hno k s hs)
      exact ⟨t, hs.step ht⟩
  obtain ⟨s, hs⟩ := this (2 * prog.length * np + 1)
  have := dterminates hm hs
  omega

theorem drun_append (a b : List (DPhase V Msg)) (v : ℕ → V) : drun (a ++ b) v = drun b (drun a v) := by
  simp [drun, List.foldl_append]

/-- matching of a program that consists of two parts -/
theorem DMatched.append {np : ℕ} {a b : List (DPhase V Msg)} {v : ℕ → V} (ha : DMatched np a v) (hb : DMatched np b (drun a v)) :
    DMatched np (a ++ b) v := by
  intro i ph h
  rcases Nat.lt_or_ge i a.length with hi | hi
  · rw [List.getElem?_append_left hi] at h
    rw [List.take_append_of_le_length hi.le]
    exact ha i ph h
  · rw [List.getElem?_append_right hi] at h
    rw [List.take_append, List.take_of_length_le hi, drun_append]
    exact hb _ ph h

theorem DMatched.cons {np : ℕ} {ph : DPhase V Msg} {b : List (DPhase V Msg)} {v : ℕ → V}
    (ha : ∀ p < np, (∀ q < np, ph.sends p (v p) q = ph.recvs q (v q) p) ∧ (∀ q, ph.sends p (v p) q → q < np) ∧
      ∀ q, ph.recvs p (v p) q → q < np) (hb : DMatched np b (drunPhase ph v)) : DMatched np (ph :: b) v := by
  intro i ph' h
  cases i with
  | zero =>
    simp only [List.getElem?_cons_zero, Option.some.injEq] at h
    subst h
    exact ha
  | succ i => exact hb i ph' h

theorem DMatched.nil (np : ℕ) (v : ℕ → V) : DMatched np ([] : List (DPhase V Msg)) v := by
  intro i ph h
  simp at h

end NgsAMG.Exch
