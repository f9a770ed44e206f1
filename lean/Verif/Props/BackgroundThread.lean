import Verif.Model.BackgroundThread
import Mathlib.Tactic.IntervalCases

/-! C38, C39: the background communication thread. -/

namespace NgsAMG.BG

/-- client program: each submitted task is awaited before the next one is submitted (this is how the hybrid smoothers use it) -/
def pairs (tasks : List ℕ) : List Op := tasks.flatMap fun i => [.start i, .wait]

@[simp] theorem pairs_nil : pairs [] = [] := rfl
@[simp] theorem pairs_cons (i : ℕ) (t : List ℕ) : pairs (i :: t) = .start i :: .wait :: pairs t := rfl

/-- worker holds the mtxex -/
def wHolds : WPC → Bool
  | .pred | .decided | .body | .exec | .setDone | .setReady | .notify | .unlock => true
  | _ => false

/-- client holds the mtxex -/
def cHolds : CPC → Bool
  | .sSet _ | .sNotify | .sUnlock | .wPred | .wDecided | .wUnlock => true
  | _ => false

/-- where the client is in its program; `tasks`: not yet submitted. Between a finished wait and the next submission no function is
stored. -/
def clientOK (cpc : CPC) (prog : List Op) (fn : Option ℕ) (done : Bool) (tasks : List ℕ) (tl : List Op) : Prop :=
  match cpc with
  | .idle => (prog = pairs tasks ++ tl ∧ fn = none) ∨ prog = .wait :: (pairs tasks ++ tl)
  | .sLock i | .sSet i => prog = .wait :: (pairs tasks.tail ++ tl) ∧ tasks.head? = some i ∧ fn = none
  | .sNotify | .sUnlock => prog = .wait :: (pairs tasks ++ tl)
  | .wLock | .wPred | .wDecided | .wAsleep | .wWoken => prog = pairs tasks ++ tl
  | .wUnlock => prog = pairs tasks ++ tl ∧ done = true
  | _ => False

theorem clientOK.mono {cpc : CPC} {prog : List Op} {fn fn' : Option ℕ} {done done' : Bool} {tasks : List ℕ}
    {tl : List Op} (h : clientOK cpc prog fn done tasks tl) (hf : fn = none → fn' = none) (hd : done = true → done' = true) :
    clientOK cpc prog fn' done' tasks tl := by
  cases cpc <;> simp only [clientOK] at h ⊢ <;> tauto

/-- the inductive invariant for programs of start/wait pairs; `tasks`: not yet submitted, `all`: all tasks, `tl`: what the client does afterwards -/
structure Inv (tl : List Op) (all tasks : List ℕ) (s : St) : Prop where
  noEnd : s.endT = false
  notExited : s.wpc ≠ .exited
  mw : s.mtx = some .w ↔ wHolds s.wpc = true
  mc : s.mtx = some .c ↔ cHolds s.cpc = true
  sub : s.sub ++ tasks = all
  client : clientOK s.cpc s.prog s.fn s.done tasks tl
  flags : s.wpc ≠ .setReady → s.ready = !s.done
  sd : s.wpc = .setDone → s.done = false ∧ s.fn = none
  sr : s.wpc = .setReady → s.done = true ∧ s.ready = true
  body : s.wpc = .body ∨ s.wpc = .exec → s.done = false ∧ s.ready = true
  tail : s.wpc = .notify ∨ s.wpc = .unlock → s.done = true
  dec : s.wpc = .decided → s.ready = false
  slp : s.wpc = .asleep → s.ready = true → s.cpc = .sNotify
  cdec : s.cpc = .wDecided → s.done = false
  cslp : s.cpc = .wAsleep → s.done = true → s.wpc = .setReady ∨ s.wpc = .notify
  logDone : s.done = true → s.fn = none
  log : s.log ++ s.fn.toList = s.sub

theorem inv_init (tasks : List ℕ) (tl : List Op) : Inv tl tasks tasks (init (pairs tasks ++ tl)) := by
  constructor <;> simp [init, wHolds, cHolds, clientOK]

theorem inv_wstep {tl : List Op} {all tasks : List ℕ} {s s' : St} (h : Inv tl all tasks s) (hs : wstep s = some s') : Inv tl all tasks s' := by
  obtain ⟨ready, done, endT, mtx, fn, wpc, cpc, prog, sub, log⟩ := s
  obtain ⟨h1, h2, h3, h4, h5, h6, h7, h8, h9, h10, h11, h12, h13, h14, h15, h16, h17⟩ := h
  simp only at h1 h2 h3 h4 h5 h6 h7 h8 h9 h10 h11 h12 h13 h14 h15 h16 h17
  subst h1
  cases wpc <;> simp only [wstep] at hs <;> (try split_ifs at hs) <;>
    simp only [Option.some.injEq, reduceCtorEq] at hs <;> subst hs
  all_goals constructor
  all_goals try (first | assumption | exact h6.mono (by simp) (by simp))
  all_goals try (simp_all [wHolds]; done)
  · intro hc; simp only at hc; subst hc; simp_all [wHolds, cHolds]
  all_goals subst cpc; simp_all [wHolds, cHolds, clientOK]

theorem inv_cstep {tl : List Op} {all tasks : List ℕ} {s s' : St} (h : Inv tl all tasks s) (hs : cstep s = some s')
    (hT : tl = [] ∨ tl = [.destroy]) : (∃ tasks', Inv tl all tasks' s') ∨ (s'.cpc = .d1 ∧ ∃ p, tl = .destroy :: p) := by
  obtain ⟨ready, done, endT, mtx, fn, wpc, cpc, prog, sub, log⟩ := s
  obtain ⟨h1, h2, h3, h4, h5, h6, h7, h8, h9, h10, h11, h12, h13, h14, h15, h16, h17⟩ := h
  simp only at h1 h2 h3 h4 h5 h6 h7 h8 h9 h10 h11 h12 h13 h14 h15 h16 h17
  subst h1
  have hwh : ∀ p, mtx = some .c → wpc = p → wHolds p = false := by
    rintro p hm rfl
    rw [hm] at h3
    simpa using h3
  have htl : (∀ i p, .start i :: p ≠ pairs [] ++ tl) ∧ ∀ p, .wait :: p ≠ pairs [] ++ tl := by
    rcases hT with rfl | rfl <;> simp
  cases cpc with
  | sSet i =>
    simp only [cstep, Option.some.injEq] at hs
    obtain ⟨hp, ht, hf⟩ := h6
    obtain ⟨t, rfl⟩ : ∃ t, tasks = i :: t := by
      cases tasks with
      | nil => simp at ht
      | cons a t => simp at ht; exact ⟨t, by rw [ht]⟩
    have hm : mtx = some .c := h4.2 rfl
    subst hs
    have no : ∀ p, wHolds p = true → wpc ≠ p := fun p hp h => by rw [hwh p hm h] at hp; simp at hp
    exact Or.inl ⟨t, {
      noEnd := rfl
      notExited := h2
      mw := h3
      mc := ⟨fun _ => rfl, fun _ => hm⟩
      sub := by simp [← h5]
      client := by simpa [clientOK] using hp
      flags := by simp
      sd := fun h => absurd h (no _ rfl)
      sr := fun h => absurd h (no _ rfl)
      body := by simp
      tail := fun h => h.elim (fun h => absurd h (no _ rfl)) (fun h => absurd h (no _ rfl))
      dec := fun h => absurd h (no _ rfl)
      slp := by simp
      cdec := by simp
      cslp := by simp
      logDone := by simp
      log := by subst hf; simp at h17; simp [h17] }⟩
  | idle =>
    simp only [cstep] at hs
    cases prog with
    | nil => simp at hs
    | cons a p =>
      simp only [clientOK] at h6
      cases a with
      | start i =>
        simp only [Option.some.injEq] at hs
        subst hs
        rcases h6 with ⟨h6, hf⟩ | h6
        · cases tasks with
          | nil =>
            exact absurd h6 (htl.1 _ _)
          | cons a t =>
            refine Or.inl ⟨a :: t, ?_⟩
            simp at h6
            constructor
            all_goals try (first | assumption)
            all_goals simp_all [cHolds, clientOK]
        · simp at h6
      | wait =>
        simp only [Option.some.injEq] at hs
        subst hs
        rcases h6 with ⟨h6, hf⟩ | h6
        · cases tasks with
          | nil => exact absurd h6 (htl.2 _)
          | cons a t => simp at h6
        · refine Or.inl ⟨tasks, ?_⟩
          constructor
          all_goals try (first | assumption)
          all_goals simp_all [cHolds, clientOK]
      | destroy =>
        rcases h6 with ⟨h6, hf⟩ | h6
        · cases tasks with
          | nil =>
            simp only [Option.some.injEq] at hs
            subst hs
            exact Or.inr ⟨rfl, p, by simpa using h6.symm⟩
          | cons a t => simp at h6
        · simp at h6
  | sNotify =>
    refine Or.inl ⟨tasks, ?_⟩
    simp only [cstep, Option.some.injEq] at hs
    subst hs
    by_cases hw : wpc = .asleep
    · subst hw
      constructor <;> simp_all [cHolds, clientOK, wHolds]
    · simp only [hw, if_false]
      constructor
      all_goals try (first | assumption)
      all_goals simp_all [cHolds, clientOK]
  | sLock i =>
    refine Or.inl ⟨tasks, ?_⟩
    simp only [cstep] at hs
    split_ifs at hs with hm
    simp only [Option.some.injEq] at hs; subst hs
    constructor
    all_goals try (first | assumption)
    all_goals simp_all [cHolds, clientOK]
  | sUnlock =>
    refine Or.inl ⟨tasks, ?_⟩
    simp only [cstep, Option.some.injEq] at hs
    subst hs
    constructor
    all_goals try (first | assumption)
    all_goals simp_all [cHolds, clientOK]
  | wLock =>
    refine Or.inl ⟨tasks, ?_⟩
    simp only [cstep] at hs
    split_ifs at hs with hm
    simp only [Option.some.injEq] at hs; subst hs
    constructor
    all_goals try (first | assumption)
    all_goals simp_all [cHolds, clientOK]
  | wWoken =>
    refine Or.inl ⟨tasks, ?_⟩
    simp only [cstep] at hs
    split_ifs at hs with hm
    simp only [Option.some.injEq] at hs; subst hs
    constructor
    all_goals try (first | assumption)
    all_goals simp_all [cHolds, clientOK]
  | wPred =>
    refine Or.inl ⟨tasks, ?_⟩
    simp only [cstep, Option.some.injEq] at hs
    subst hs
    cases done
    all_goals constructor
    all_goals try (first | assumption)
    all_goals simp_all [cHolds, clientOK]
  | wDecided =>
    refine Or.inl ⟨tasks, ?_⟩
    simp only [cstep, Option.some.injEq] at hs
    subst hs
    constructor
    all_goals try (first | assumption)
    all_goals simp_all [cHolds, clientOK]
  | wAsleep => simp [cstep] at hs
  | wUnlock =>
    refine Or.inl ⟨tasks, ?_⟩
    simp only [cstep, Option.some.injEq] at hs
    subst hs
    constructor
    all_goals try (first | assumption)
    all_goals simp_all [cHolds, clientOK]
  | d1 => exact h6.elim
  | d2 => exact h6.elim
  | d3 => exact h6.elim
  | d4 => exact h6.elim

theorem inv_spurious {tl : List Op} {all tasks : List ℕ} {s s' : St} (h : Inv tl all tasks s) (hs : Spurious s s') : Inv tl all tasks s' := by
  obtain ⟨ready, done, endT, mtx, fn, wpc, cpc, prog, sub, log⟩ := s
  obtain ⟨h1, h2, h3, h4, h5, h6, h7, h8, h9, h10, h11, h12, h13, h14, h15, h16, h17⟩ := h
  simp only at h1 h2 h3 h4 h5 h6 h7 h8 h9 h10 h11 h12 h13 h14 h15 h16 h17
  rcases hs with ⟨hw, rfl⟩ | ⟨hc, rfl⟩
  · simp only at hw; subst hw
    constructor
    all_goals try (first | assumption)
    all_goals simp_all [wHolds]
  · simp only at hc; subst hc
    constructor
    all_goals try (first | assumption)
    all_goals simp_all [cHolds, clientOK]

/-- the client is in the destructor or has executed it -/
def Later (s : St) : Prop :=
  s.cpc = .d1 ∨ s.cpc = .d2 ∨ s.cpc = .d3 ∨ s.cpc = .d4 ∨ (s.cpc = .idle ∧ s.prog = [])

theorem inv_reach2 {tasks : List ℕ} {s : St} {tl : List Op} (hT : tl = [] ∨ tl = [.destroy])
    (h : Reach (pairs tasks ++ tl) s) :
    (∃ rest, Inv tl tasks rest s) ∨ (tl = [.destroy] ∧ s.prog = [] ∧ Later s) := by
  induction h with
  | refl => exact Or.inl ⟨_, inv_init tasks tl⟩
  | @tail u v _ hs ih =>
    rcases ih with ⟨r, hr⟩ | ⟨h0, hp, hl⟩
    · rcases hs with (hs | hs) | hs
      · exact Or.inl ⟨r, inv_wstep hr hs⟩
      · rcases inv_cstep hr hs hT with h | ⟨h, p, hp⟩
        · exact Or.inl h
        · have hT' : tl = [.destroy] := by
            rcases hT with rfl | rfl
            · simp at hp
            · rfl
          refine Or.inr ⟨hT', ?_, Or.inl h⟩
          have hcl := hr.client
          obtain ⟨ready, done, endT, mtx, fn, wpc, cpc, prog, sub, log⟩ := u
          cases cpc <;> simp only [cstep] at hs
          · cases prog with
            | nil => simp at hs
            | cons a q =>
              cases a <;> simp only [Option.some.injEq] at hs <;> subst hs <;> simp at h
              simp only [clientOK] at hcl
              rcases hcl with ⟨hcl, -⟩ | hcl
              · cases r with
                | nil => subst hT'; simpa using hcl
                | cons a t => simp at hcl
              · simp at hcl
          all_goals (try split_ifs at hs)
          all_goals simp only [Option.some.injEq, reduceCtorEq] at hs
          all_goals (subst hs; first | (simp at h; done) | (split_ifs at h; done))
      · exact Or.inl ⟨r, inv_spurious hr hs⟩
    · refine Or.inr ⟨h0, ?_⟩
      obtain ⟨ready, done, endT, mtx, fn, wpc, cpc, prog, sub, log⟩ := u
      simp only at hp
      subst hp
      rcases hs with (hs | hs) | (⟨-, rfl⟩ | ⟨hs, -⟩)
      · have : v.prog = [] ∧ v.cpc = cpc := by
          have hne : cpc ≠ .wAsleep := by
            rintro rfl
            simp [Later] at hl
          cases wpc <;> simp only [wstep] at hs <;> (try split_ifs at hs) <;>
            simp only [Option.some.injEq, reduceCtorEq] at hs <;> subst hs <;> first | (simp; done) | exact absurd ‹_› hne
        refine ⟨this.1, ?_⟩
        unfold Later at hl ⊢
        rw [this.1, this.2]; exact hl
      · rcases hl with h | h | h | h | ⟨h, -⟩ <;> simp only at h <;> subst h <;> simp only [cstep] at hs
        · simp only [Option.some.injEq] at hs; subst hs; simp [Later]
        · simp only [Option.some.injEq] at hs; subst hs; simp [Later]
        · simp only [Option.some.injEq] at hs; subst hs; simp [Later]
        · split_ifs at hs
          simp only [Option.some.injEq] at hs; subst hs; simp [Later]
        · simp at hs
      · exact ⟨rfl, hl⟩
      · simp only at hs; subst hs; simp [Later] at hl

theorem inv_reach {tasks : List ℕ} {s : St} (h : Reach (pairs tasks) s) : ∃ rest, Inv [] tasks rest s := by
  rcases inv_reach2 (tl := []) (Or.inl rfl) (by simpa using h) with h | ⟨h, -⟩
  · exact h
  · simp at h

theorem pairs_length (t : List ℕ) : (pairs t).length = 2 * t.length := by
  induction t with
  | nil => rfl
  | cons a t ih => simp [ih]; omega

/-- **C38 (exactly once, in order, before the wait returns).** Under any interleaving and any spurious wakeups: whenever the client
has completed the first `k` submit/wait pairs, exactly the first `k` submitted functions have been executed, each once, in
the order of submission. -/
theorem executed_exactly_once (tasks : List ℕ) (s : St) (h : Reach (pairs tasks) s) (k : ℕ) (hk : k ≤ tasks.length)
    (hc : s.cpc = .idle) (hp : s.prog = pairs (tasks.drop k)) : s.log = tasks.take k := by
  obtain ⟨rest, hi⟩ := inv_reach h
  have h6 := hi.client
  rw [hc] at h6
  have hl : rest.length = tasks.length - k ∧ s.fn = none := by
    rcases h6 with ⟨h6, hf⟩ | h6
    · rw [hp, List.append_nil] at h6
      have := congrArg List.length h6
      rw [pairs_length, pairs_length, List.length_drop] at this
      exact ⟨by omega, hf⟩
    · rw [hp, List.append_nil] at h6
      have := congrArg List.length h6
      rw [List.length_cons, pairs_length, pairs_length] at this
      omega
  have h5 := hi.sub
  have h17 := hi.log
  rw [hl.2] at h17
  simp at h17
  have : s.sub.length = k := by
    have := congrArg List.length h5
    rw [List.length_append] at this
    omega
  rw [h17, ← h5, ← this]
  simp

/-- at no time has anything been executed that was not submitted, or twice -/
theorem executed_prefix (tasks : List ℕ) (s : St) (h : Reach (pairs tasks) s) :
    s.log <+: s.sub ∧ s.sub <+: tasks ∧ s.sub.length ≤ s.log.length + 1 := by
  obtain ⟨rest, hi⟩ := inv_reach h
  refine ⟨⟨_, hi.log⟩, ⟨_, hi.sub⟩, ?_⟩
  rw [← hi.log, List.length_append]
  rcases s.fn with _ | _ <;> simp

/-- **C38 (no deadlock).** As long as the client has not executed its whole program, one of the threads can make a regular step (not
relying on spurious wakeups). -/
theorem no_deadlock (tasks : List ℕ) (s : St) (h : Reach (pairs tasks) s) (hf : ¬ Finished s) : ∃ s', Step s s' := by
  obtain ⟨rest, hi⟩ := inv_reach h
  obtain ⟨ready, done, endT, mtx, fn, wpc, cpc, prog, sub, log⟩ := s
  by_contra hno
  push Not at hno
  have hw : ∀ s', wstep ⟨ready, done, endT, mtx, fn, wpc, cpc, prog, sub, log⟩ ≠ some s' := fun s' hs => hno s' (Or.inl hs)
  have hc : ∀ s', cstep ⟨ready, done, endT, mtx, fn, wpc, cpc, prog, sub, log⟩ ≠ some s' := fun s' hs => hno s' (Or.inr hs)
  obtain ⟨h1, h2, h3, h4, h5, h6, h7, h8, h9, h10, h11, h12, h13, h14, h15, h16, h17⟩ := hi
  simp only at h1 h2 h3 h4 h5 h6 h7 h8 h9 h10 h11 h12 h13 h14 h15 h16 h17
  have hm : mtx = none ∨ mtx = some .w ∨ mtx = some .c := by
    rcases mtx with _ | _ | _ <;> simp
  have wcase : wpc = .asleep ∨ ((wpc = .lock ∨ wpc = .woken) ∧ mtx = some .c) := by
    cases wpc <;> simp [wstep] at hw h2 ⊢ <;> rcases hm with rfl | rfl | rfl <;> simp_all [wHolds]
  have ccase : cpc = .wAsleep ∨ ((∃ i, cpc = .sLock i) ∨ cpc = .wLock ∨ cpc = .wWoken) ∧ mtx = some .w := by
    cases cpc <;> simp [cstep] at hc ⊢ <;> rcases hm with rfl | rfl | rfl <;> simp_all [cHolds, clientOK, Finished]
    all_goals
      cases prog with
      | nil => simp at hf
      | cons a p => cases a <;> simp at hc
  rcases wcase with rfl | ⟨hw1, hw2⟩
  · have hmw : mtx ≠ some .w := by rw [Ne, h3]; simp [wHolds]
    rcases ccase with rfl | ⟨-, hm⟩
    · have h7' := h7 (by simp)
      cases done
      · have := h13 rfl (by simpa using h7')
        simp at this
      · have := h15 rfl rfl
        simp at this
    · exact hmw hm
  · rcases ccase with rfl | ⟨-, hm⟩
    · have := h4.1 hw2
      simp [cHolds] at this
    · rw [hm] at hw2; simp at hw2

/-! ### termination: there are no infinite executions with finitely many spurious wakeups -/

/-- potential of the worker -/
def wPot : WPC → ℕ
  | .asleep => 10 | .decided => 11 | .pred => 12 | .lock => 13 | .woken => 13 | .head => 14 | .body => 11 | .exec => 10
  | .setDone => 9 | .setReady => 40 | .notify => 39 | .unlock => 15 | .exited => 0

/-- potential of the client within an operation -/
def cPot : CPC → ℕ
  | .idle => 0 | .sLock _ => 99 | .sSet _ => 98 | .sNotify => 50 | .sUnlock => 40
  | .wLock => 90 | .wPred => 89 | .wDecided => 88 | .wAsleep => 70 | .wWoken => 90 | .wUnlock => 10
  | .d1 => 90 | .d2 => 80 | .d3 => 70 | .d4 => 60

/-- potential of a state -/
def pot (s : St) : ℕ := 100 * s.prog.length + cPot s.cpc + wPot s.wpc + if s.done then 0 else 40

/-- every regular step decreases the potential -/
theorem pot_decreases {tl : List Op} {all tasks : List ℕ} {s s' : St} (h : Inv tl all tasks s) (hs : Step s s') : pot s' < pot s := by
  obtain ⟨ready, done, endT, mtx, fn, wpc, cpc, prog, sub, log⟩ := s
  obtain ⟨h1, h2, h3, h4, h5, h6, h7, h8, h9, h10, h11, h12, h13, h14, h15, h16, h17⟩ := h
  simp only at h1 h2 h3 h4 h5 h6 h7 h8 h9 h10 h11 h12 h13 h14 h15 h16 h17
  subst h1
  rcases hs with hs | hs
  · cases wpc with
    | notify =>
      simp only [wstep, Option.some.injEq] at hs; subst hs
      by_cases hc : cpc = .wAsleep
      · subst hc; simp [pot, wPot, cPot]
      · simp [pot, wPot, hc]
    | pred =>
      simp only [wstep, Option.some.injEq] at hs; subst hs
      cases ready <;> simp [pot, wPot]
    | body =>
      simp only [wstep, Option.some.injEq] at hs; subst hs
      have := h10 (Or.inl rfl)
      simp [pot, wPot, this.1]
    | setDone =>
      simp only [wstep, Option.some.injEq] at hs; subst hs
      have := h8 rfl
      simp [pot, wPot, this.1]
    | _ =>
      simp only [wstep] at hs
      try split_ifs at hs
      all_goals first
        | (simp only [Option.some.injEq] at hs; subst hs; simp [pot, wPot])
        | simp at hs
  · cases cpc with
    | idle =>
      simp only [cstep] at hs
      cases prog with
      | nil => simp at hs
      | cons a p =>
        cases a <;> simp only [Option.some.injEq] at hs <;> subst hs <;> simp [pot, cPot] <;> omega
    | sSet i =>
      simp only [cstep, Option.some.injEq] at hs; subst hs
      cases done <;> simp [pot, cPot] ; omega
    | sNotify =>
      simp only [cstep, Option.some.injEq] at hs; subst hs
      by_cases hw : wpc = .asleep
      · subst hw; simp [pot, cPot, wPot]
      · simp [pot, cPot, hw]
    | wPred =>
      simp only [cstep, Option.some.injEq] at hs; subst hs
      cases done <;> simp [pot, cPot]
    | d1 => exact h6.elim
    | d2 => exact h6.elim
    | d3 => exact h6.elim
    | d4 => exact h6.elim
    | _ =>
      simp only [cstep] at hs
      try split_ifs at hs
      all_goals first
        | (simp only [Option.some.injEq] at hs; subst hs; simp [pot, cPot])
        | simp at hs

/-- **C38 (wait returns).** From every reachable state, every run of regular steps is finite (of length at most `pot s`); and it
can only end when the client has executed its whole program. So every execution in which spurious wakeups occur finitely
often completes all start/wait pairs. -/
theorem runs_terminate (tasks : List ℕ) (s : St) (h : Reach (pairs tasks) s) (n : ℕ) (run : ℕ → St) (h0 : run 0 = s)
    (hr : ∀ i < n, Step (run i) (run (i + 1))) :
    n ≤ pot s ∧ ((∀ s', ¬ Step (run n) s') → Finished (run n) ∧ (run n).log = tasks) := by
  have key : ∀ i ≤ n, Reach (pairs tasks) (run i) ∧ pot (run i) + i ≤ pot s := by
    intro i
    induction i with
    | zero => intro _; rw [h0]; exact ⟨h, by simp⟩
    | succ i ih =>
      intro hi
      obtain ⟨r1, r2⟩ := ih (by omega)
      have hs := hr i (by omega)
      obtain ⟨rest, hinv⟩ := inv_reach r1
      have := pot_decreases hinv hs
      exact ⟨r1.tail (Or.inl hs), by omega⟩
  obtain ⟨r1, r2⟩ := key n le_rfl
  refine ⟨by omega, fun hstuck => ?_⟩
  have hfin : Finished (run n) := by
    by_contra hf
    obtain ⟨s', hs'⟩ := no_deadlock tasks _ r1 hf
    exact hstuck s' hs'
  refine ⟨hfin, ?_⟩
  have := executed_exactly_once tasks _ r1 tasks.length le_rfl hfin.1 (by rw [hfin.2]; simp)
  rwa [List.take_length] at this

/-! ### the awaiting is necessary -/

/-- regular steps along a schedule (`true`: worker) -/
def runSched (s : St) : List Bool → Option St
  | [] => some s
  | b :: l => (if b then wstep s else cstep s).bind fun s' => runSched s' l

theorem runSched_reach (prog : List Op) (s : St) (hs : Reach prog s) (l : List Bool) (s' : St)
    (h : runSched s l = some s') : Reach prog s' := by
  induction l generalizing s with
  | nil => simp only [runSched, Option.some.injEq] at h; exact h ▸ hs
  | cons b l ih =>
    rw [runSched] at h
    obtain ⟨t, ht, hl⟩ := Option.bind_eq_some_iff.1 h
    refine ih t (hs.tail (Or.inl ?_)) hl
    cases b
    · exact Or.inr ht
    · exact Or.inl ht

/-- submitting twice without waiting in between can lose the first function: there is an execution in which the program
`start 1; start 2; wait` finishes and function 1 was never executed -/
theorem start_start_drops : ∃ s, Reach [.start 1, .start 2, .wait] s ∧ Finished s ∧ s.log = [2] := by
  have : ∃ s, runSched (init [.start 1, .start 2, .wait])
      (List.replicate 10 false ++ List.replicate 9 true ++ List.replicate 4 false) = some s ∧ Finished s ∧ s.log = [2] := by
    refine ⟨_, rfl, ?_, ?_⟩
    · exact ⟨rfl, rfl⟩
    · rfl
  obtain ⟨s, h1, h2, h3⟩ := this
  exact ⟨s, runSched_reach _ _ Relation.ReflTransGen.refl _ s h1, h2, h3⟩

/-! ### destruction -/

/-- **C39 fails.** The destructor writes the flags without holding the mutex: there is an execution of
`start 1; wait; destroy` (even of just `destroy`) reaching a state in which the client waits for the worker in `join`, the
worker sleeps, and no regular step is possible. -/
theorem destroy_deadlock (tasks : List ℕ) : ∃ s, Reach (pairs tasks ++ [.destroy]) s ∧ ¬ Finished s ∧ ∀ s', ¬ Step s s' := by
  -- worker about to block, everything executed
  let Q : List Op → List ℕ → St := fun p l => ⟨false, true, false, some .w, none, .decided, .idle, p, l, l⟩
  have hQ : ∀ (t done : List ℕ), Reach (pairs (done ++ t) ++ [.destroy]) (Q (pairs t ++ [.destroy]) done) →
      Reach (pairs (done ++ t) ++ [.destroy]) (Q [.destroy] (done ++ t)) := by
    intro t
    induction t with
    | nil => intro done h; simpa using h
    | cons i t ih =>
      intro done h
      have h1 := runSched_reach _ _ h (List.replicate 1 true ++ List.replicate 5 false ++ List.replicate 8 true ++
        List.replicate 4 false ++ List.replicate 3 true) (Q (pairs t ++ [.destroy]) (done ++ [i])) rfl
      have := ih (done ++ [i]) (by simpa using h1)
      simpa using this
  have h0 : Reach (pairs tasks ++ [.destroy]) (Q (pairs tasks ++ [.destroy]) []) :=
    runSched_reach _ _ Relation.ReflTransGen.refl (List.replicate 12 true) _ rfl
  have h1 := hQ tasks [] h0
  have h2 := runSched_reach _ _ h1 (List.replicate 4 false ++ List.replicate 1 true)
    ⟨true, true, true, none, none, .asleep, .d4, [], tasks, tasks⟩ rfl
  refine ⟨_, h2, ?_, ?_⟩
  · simp [Finished]
  · rintro s' (hs | hs) <;> simp [wstep, cstep] at hs

/-- the states of a destruction that starts with a sleeping worker -/
def chain (s : St) : ℕ → St
  | 0 => s
  | 1 => { s with cpc := .d1, prog := [] }
  | 2 => { s with cpc := .d2, prog := [], ready := true }
  | 3 => { s with cpc := .d3, prog := [], ready := true, endT := true }
  | 4 => { s with cpc := .d4, prog := [], ready := true, endT := true, wpc := .woken }
  | 5 => { s with cpc := .d4, prog := [], ready := true, endT := true, wpc := .pred, mtx := some .w }
  | 6 => { s with cpc := .d4, prog := [], ready := true, endT := true, wpc := .body, mtx := some .w }
  | 7 => { s with cpc := .d4, prog := [], ready := true, endT := true, wpc := .unlock, mtx := some .w }
  | 8 => { s with cpc := .d4, prog := [], ready := true, endT := true, wpc := .head, mtx := none }
  | 9 => { s with cpc := .d4, prog := [], ready := true, endT := true, wpc := .exited, mtx := none }
  | _ => { s with cpc := .idle, prog := [], ready := true, endT := true, wpc := .exited, mtx := none }

/-- **C39, partial.** If the worker already sleeps when the destructor is called and is not woken spuriously, destruction
terminates: every run has at most 10 steps and ends with the worker exited and joined. Missing for the full property: the
worker may be about to block (see `destroy_deadlock`). -/
theorem destroy_terminates_partial (tasks : List ℕ) (s : St) (h : Reach (pairs tasks ++ [.destroy]) s)
    (hp : s.prog = [.destroy]) (hc : s.cpc = .idle) (hw : s.wpc = .asleep) (n : ℕ) (run : ℕ → St) (h0 : run 0 = s)
    (hr : ∀ i < n, Step (run i) (run (i + 1))) :
    n ≤ 10 ∧ ((∀ s', ¬ Step (run n) s') → Finished (run n) ∧ (run n).wpc = .exited ∧ (run n).log = tasks) := by
  rcases inv_reach2 (Or.inr rfl) h with ⟨rest, hi⟩ | ⟨-, hp', -⟩
  swap
  · rw [hp] at hp'; simp at hp'
  obtain ⟨ready, done, endT, mtx, fn, wpc, cpc, prog, sub, log⟩ := s
  obtain ⟨h1, h2, h3, h4, h5, h6, h7, h8, h9, h10, h11, h12, h13, h14, h15, h16, h17⟩ := hi
  simp only at h1 h2 h3 h4 h5 h6 h7 h8 h9 h10 h11 h12 h13 h14 h15 h16 h17 hp hc hw
  subst hp hc hw h1
  have hm : mtx = none := by
    rcases mtx with _ | _ | _
    · rfl
    · simp [wHolds] at h3
    · simp [cHolds] at h4
  subst hm
  have hrdy : ready = false := by
    cases ready
    · rfl
    · have := h13 rfl rfl; simp at this
  subst hrdy
  have hrest : rest = [] := by
    simp only [clientOK] at h6
    rcases h6 with ⟨h6, -⟩ | h6
    · cases rest with
      | nil => rfl
      | cons a t => simp at h6
    · simp at h6
  subst hrest
  have hdone : done = true := by
    have := h7 (by simp)
    cases done
    · simp at this
    · rfl
  subst hdone
  have hlog : log = tasks := by
    have := h16 rfl
    subst this
    simp at h17 h5
    rw [h17, h5]
  set s0 : St := ⟨false, true, false, none, fn, .asleep, .idle, [.destroy], sub, log⟩ with hs0
  have next : ∀ k ≤ 10, ∀ s', Step (chain s0 k) s' → k < 10 ∧ s' = chain s0 (k + 1) := by
    intro k hk s' hs
    interval_cases k <;> simp [Step, chain, hs0, wstep, cstep] at hs ⊢ <;> exact hs.symm
  have step10 : ∀ k < 10, Step (chain s0 k) (chain s0 (k + 1)) := by
    intro k hk
    interval_cases k <;> simp [Step, chain, hs0, wstep, cstep]
  have key : ∀ i ≤ n, i ≤ 10 ∧ run i = chain s0 i := by
    intro i
    induction i with
    | zero => intro _; exact ⟨by omega, h0⟩
    | succ i ih =>
      intro hi
      obtain ⟨a1, a2⟩ := ih (by omega)
      have hs := hr i (by omega)
      rw [a2] at hs
      obtain ⟨b1, b2⟩ := next i a1 _ hs
      exact ⟨by omega, b2⟩
  obtain ⟨a1, a2⟩ := key n le_rfl
  refine ⟨a1, fun hst => ?_⟩
  have : n = 10 := by
    by_contra hne
    exact hst _ (a2 ▸ step10 n (by omega))
  subst this
  rw [a2]
  simp [chain, hs0, Finished, hlog]

/-- such states are reachable -/
example : ∃ s, Reach (pairs [7] ++ [.destroy]) s ∧ s.prog = [.destroy] ∧ s.cpc = .idle ∧ s.wpc = .asleep := by
  refine ⟨_, runSched_reach _ _ Relation.ReflTransGen.refl (List.replicate 13 true ++ List.replicate 5 false ++
    List.replicate 8 true ++ List.replicate 4 false ++ List.replicate 4 true) _ rfl, rfl, rfl, rfl⟩

/-- complete executions of three pairs exist -/
example : ∃ s, Reach (pairs [7, 8, 7]) s ∧ Finished s ∧ s.log = [7, 8, 7] := by
  let blk := List.replicate 5 false ++ List.replicate 8 true ++ List.replicate 4 false ++ List.replicate 4 true
  refine ⟨_, runSched_reach _ _ Relation.ReflTransGen.refl (List.replicate 13 true ++ blk ++ blk ++ blk) _ rfl, ⟨rfl, rfl⟩, rfl⟩

end NgsAMG.BG
