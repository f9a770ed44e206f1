import Verif.Props.LevelCtrl3
import Mathlib.Tactic.FieldSimp
import Mathlib.Tactic.Linarith

/-! # Control of the levels (C97): the levels of every process -/

namespace NgsAMG.LC
open NgsAMG.Spec

variable {O : Opts} {W : World} {l : ℕ} {P : Finset ℕ}

theorem level_end {s : ℕ → PState} {a : ℕ → Outcome} (hw : WorldOK W P) (hs : SameState P s) (hne : P.Nonempty) (ha : Runs W l P (fun p => body O (s p)) a) : LevelEnd O W l P s a := by
  obtain ⟨b, hb, he⟩ := body_runs (O := O) (W := W) (l := l) hw hs hne
  have hab := ha.unique hb
  cases he with
  | stuck h why => exact .stuck (fun p hp => (hab p hp).trans (h p hp)) why
  | bad h why => exact .bad (fun p hp => (hab p hp).trans (h p hp)) why
  | step r h h1 h2 h3 h4 h5 h6 h7 => exact .step r (fun p hp => (hab p hp).trans (h p hp)) h1 h2 h3 h4 h5 h6 h7

theorem mapOK_fac {f c : ℕ} (h : mapOK O f c = true) : c < f ∧ (O.enableRd = true → (c : ℚ) < O.crsThresh * f) := by
  simp only [mapOK, Bool.and_eq_true, decide_eq_true_eq, Bool.or_eq_true, Bool.not_eq_true'] at h
  obtain ⟨h1, h2⟩ := h
  refine ⟨h1, fun he => ?_⟩
  have hf : (0 : ℚ) < f := by exact_mod_cast lt_of_le_of_lt (Nat.zero_le _) h1
  rcases h2 with h2 | h2
  · rw [he] at h2; cases h2
  · rw [cfac, if_neg (by omega), div_lt_iff₀ hf] at h2
    exact h2

theorem not_mapOK {f c : ℕ} (h : ¬ mapOK O f c = true) : f ≤ c ∨ (O.enableRd = true ∧ O.crsThresh * f ≤ c) := by
  by_cases h1 : f ≤ c
  · exact Or.inl h1
  · right
    have hlt : c < f := by omega
    have hf : (0 : ℚ) < f := by exact_mod_cast lt_of_le_of_lt (Nat.zero_le _) hlt
    simp only [mapOK, Bool.and_eq_true, decide_eq_true_eq, Bool.or_eq_true, Bool.not_eq_true', not_and_or, not_or, hlt, not_true_eq_false, false_or] at h
    refine ⟨by simpa using h.1, ?_⟩
    have := h.2
    rw [cfac, if_neg (by omega), not_lt, le_div_iff₀ hf] at this
    exact this

/-- the processes that go on and their states -/
theorem next_data {s s' : ℕ → PState} {a : ℕ → Outcome} {Q : Finset ℕ} (hw : WorldOK W P) (hs : SameState P s) (ha : Runs W l P (fun p => body O (s p)) a)
    (hQ : ∀ p, p ∈ Q ↔ p ∈ P ∧ ∃ m, added (a p) = some (some m)) (hne : Q.Nonempty) (hm : ∀ p ∈ Q, a p = .more (s' p)) :
    Q ⊆ P ∧ WorldOK W Q ∧ SameState Q s' ∧
      (∀ p ∈ Q, added (a p) = some (some (s' p).mesh) ∧ (s' p).level = (s p).level + 1 ∧ (s p).level + 2 ≠ O.maxLevels ∧ O.maxMeas < (s' p).mesh.meas ∧ (s' p).mesh.meas < (s p).mesh.meas ∧
        (O.enableRd = true → ((s' p).mesh.meas : ℚ) < O.crsThresh * (s p).mesh.meas) ∧ 0 < (s' p).mesh.meas ∧ O.minMeas ≤ (s' p).mesh.meas) ∧
      ∀ p ∈ P, p ∉ Q → added (a p) = some none := by
  have hQP : Q ⊆ P := fun p hp => ((hQ p).1 hp).1
  obtain ⟨q0, hq0⟩ := hne
  have he := level_end hw hs ⟨q0, hQP hq0⟩ ha
  cases he with
  | stuck h why => have := hm q0 hq0; rw [h q0 (hQP hq0)] at this; cases this
  | bad h why => have := hm q0 hq0; rw [h q0 (hQP hq0)] at this; cases this
  | step r h meas from_crs same lev first last need =>
    refine ⟨hQP, hw.mono hQP, next_same (O := O) hs hQP (fun p hp => by rw [← h p (hQP hp)]; exact hm p hp) same lev first last need, fun p hp => ?_, fun p hp hq => ?_⟩
    · have h1 := hm p hp
      have h1' := h1
      rw [h p (hQP hp)] at h1
      obtain ⟨c, hc, hl, hmm, ht⟩ := finish_more h1
      have hmeas := meas p (hQP hp) c hc
      obtain ⟨c', -, hok, hcc⟩ := from_crs p (hQP hp)
      have hms : (s' p).mesh = c := by rw [ht]
      have hls : (s' p).level = (r p).2.level + 1 := by rw [ht]
      refine ⟨?_, ?_, ?_, ?_, ?_, ?_, ?_, ?_⟩
      · rw [h p (hQP hp), finish_added, hc, hms]
      · rw [hls, lev p (hQP hp)]
      · rw [← lev p (hQP hp)]; exact hl
      · rw [hms]; exact hmm
      · rw [hms]; exact hmeas.1
      · rw [hms, hcc c hc]; exact (mapOK_fac hok).2
      · rw [hms]; exact hmeas.2.1
      · rw [hms]; exact hmeas.2.2
    · have : ¬ ∃ m, added (a p) = some (some m) := fun hx => hq ((hQ p).2 ⟨hp, hx⟩)
      rw [h p hp, finish_added] at this ⊢
      cases hr : (r p).1 with
      | none => rfl
      | some c => exact absurd ⟨c, by rw [hr]⟩ this

/-- the level that is added last -/
theorem done_data {s : ℕ → PState} {a : ℕ → Outcome} (hw : WorldOK W P) (hs : SameState P s) (ha : Runs W l P (fun p => body O (s p)) a) (hd : ∀ p ∈ P, ∀ t, a p ≠ .more t) {p0 : ℕ} (h0 : p0 ∈ P) :
    ((∀ p ∈ P, added (a p) = none) ∧ ∀ p ∈ P, ∀ c, W.crs l p = some c → Useless O (s p).mesh.meas c.meas) ∨
    ((∀ p ∈ P, ∀ m, added (a p) = some (some m) → m.meas < (s p).mesh.meas ∧ (O.enableRd = true → (m.meas : ℚ) < O.crsThresh * (s p).mesh.meas) ∧ 0 < m.meas ∧ O.minMeas ≤ m.meas ∧
        ((s p).level + 2 = O.maxLevels ∨ m.meas ≤ O.maxMeas)) ∧
      (∀ p ∈ P, ∀ q ∈ P, ∀ m m', added (a p) = some (some m) → added (a q) = some (some m') → SameMesh m m') ∧ ∀ p ∈ P, added (a p) ≠ none) := by
  have he := level_end hw hs ⟨p0, h0⟩ ha
  cases he with
  | stuck h why =>
    refine Or.inl ⟨fun p hp => by rw [h p hp]; rfl, fun p hp c hc => ?_⟩
    rcases not_mapOK (why p hp c hc) with h1 | h1
    · exact Or.inl h1
    · exact Or.inr (Or.inl h1)
  | bad h why => exact Or.inl ⟨fun p hp => by rw [h p hp]; rfl, fun p hp c hc => Or.inr (Or.inr (why p hp c hc))⟩
  | step r h meas from_crs same lev first last need =>
    have hadd : ∀ p ∈ P, added (a p) = some (r p).1 := fun p hp => by rw [h p hp, finish_added]
    refine Or.inr ⟨fun p hp m hm => ?_, fun p hp q hq m m' hm hm' => ?_, fun p hp => by rw [hadd p hp]; exact Option.some_ne_none _⟩
    · rw [hadd p hp, Option.some.injEq] at hm
      have hmeas := meas p hp m hm
      obtain ⟨c', -, hok, hcc⟩ := from_crs p hp
      refine ⟨hmeas.1, ?_, hmeas.2.1, hmeas.2.2, ?_⟩
      · rw [hcc m hm]; exact (mapOK_fac hok).2
      · by_contra hno
        push Not at hno
        refine hd p hp { (r p).2 with level := (r p).2.level + 1, mesh := m } ?_
        rw [h p hp, hm]
        simp only [finish]
        rw [if_neg]
        push Not
        rw [lev p hp]
        exact hno
    · rw [hadd p hp, Option.some.injEq] at hm
      rw [hadd q hq, Option.some.injEq] at hm'
      exact same p hp q hq m m' hm hm'

/-- **every level is smaller than the one before and not too small, and there is no level behind the coarsest one** -/
theorem levels_ok {s : ℕ → PState} {hist : ℕ → List (Option PMesh)} (h : SetUp O W l P s hist) (hw : WorldOK W P) (hs : SameState P s) : ∀ p ∈ P, LevelsOK O (s p).mesh.meas (hist p) := by
  induction h with
  | @done l P s hist a r hd =>
    intro p hp
    rw [(hd p hp).2]
    rcases done_data hw hs r (fun p hp => (hd p hp).1) hp with ⟨h1, -⟩ | ⟨h1, -, -⟩
    · rw [h1 p hp]; trivial
    · cases hx : added (a p) with
      | none => trivial
      | some m =>
        cases m with
        | none => exact rfl
        | some c =>
          obtain ⟨e1, e2, e3, e4, -⟩ := h1 p hp c hx
          exact ⟨e1, e2, e3, e4, fun hx => absurd rfl hx, trivial⟩
  | @next l P s hist a Q s' h2 r hQ hne hm hout hin rest ih =>
    intro p hp
    obtain ⟨hQP, hwQ, hsQ, hd, ho⟩ := next_data hw hs r hQ hne hm
    by_cases hq : p ∈ Q
    · obtain ⟨e1, -, -, e4, e5, e6, e7, e8⟩ := hd p hq
      rw [hin p hq, e1]
      exact ⟨e5, e6, e7, e8, fun _ => e4, ih hwQ hsQ p hq⟩
    · rw [hout p hp hq, ho p hp hq]
      exact rfl

/-- **there are never more levels than asked for, if at least two are asked for** -/
theorem level_limit {s : ℕ → PState} {hist : ℕ → List (Option PMesh)} (h : SetUp O W l P s hist) (hw : WorldOK W P) (hs : SameState P s) :
    ∀ p ∈ P, (s p).level + 2 ≤ O.maxLevels → (s p).level + 1 + (hist p).length ≤ O.maxLevels := by
  induction h with
  | @done l P s hist a r hd =>
    intro p hp hl
    rw [(hd p hp).2]
    have : (added (a p)).toList.length ≤ 1 := by cases added (a p) <;> simp
    omega
  | @next l P s hist a Q s' h2 r hQ hne hm hout hin rest ih =>
    intro p hp hl
    obtain ⟨hQP, hwQ, hsQ, hd, ho⟩ := next_data hw hs r hQ hne hm
    by_cases hq : p ∈ Q
    · obtain ⟨e1, e2, e3, -⟩ := hd p hq
      have := ih hwQ hsQ p hq (by rw [e2]; omega)
      rw [hin p hq, e1, List.length_append, Option.toList_some, List.length_singleton]
      rw [e2] at this
      omega
    · rw [hout p hp hq]
      have : (added (a p)).toList.length ≤ 1 := by cases added (a p) <;> simp
      omega

/-- **all processes have the same levels, until they drop out** -/
theorem same_levels {s : ℕ → PState} {hist : ℕ → List (Option PMesh)} (h : SetUp O W l P s hist) (hw : WorldOK W P) (hs : SameState P s) : ∀ p ∈ P, ∀ q ∈ P, SameLevels (hist p) (hist q) := by
  induction h with
  | @done l P s hist a r hd =>
    intro p hp q hq
    rw [(hd p hp).2, (hd q hq).2]
    rcases done_data hw hs r (fun p hp => (hd p hp).1) hp with ⟨h1, -⟩ | ⟨-, h2, h3⟩
    · rw [h1 p hp, h1 q hq]; trivial
    · cases hx : added (a p) with
      | none => exact absurd hx (h3 p hp)
      | some m =>
        cases hy : added (a q) with
        | none => exact absurd hy (h3 q hq)
        | some m' =>
          cases m with
          | none =>
            cases m' with
            | none => exact ⟨rfl, rfl⟩
            | some c' => exact rfl
          | some c =>
            cases m' with
            | none => exact rfl
            | some c' => exact ⟨h2 p hp q hq c c' hx hy, trivial⟩
  | @next l P s hist a Q s' h2 r hQ hne hm hout hin rest ih =>
    intro p hp q hq
    obtain ⟨hQP, hwQ, hsQ, hd, ho⟩ := next_data hw hs r hQ hne hm
    by_cases hpQ : p ∈ Q
    · by_cases hqQ : q ∈ Q
      · rw [hin p hpQ, hin q hqQ, (hd p hpQ).1, (hd q hqQ).1]
        exact ⟨hsQ.mesh p hpQ q hqQ, ih hwQ hsQ p hpQ q hqQ⟩
      · rw [hin p hpQ, hout q hq hqQ, (hd p hpQ).1, ho q hq hqQ]
        exact rfl
    · by_cases hqQ : q ∈ Q
      · rw [hout p hp hpQ, hin q hqQ, ho p hp hpQ, (hd q hqQ).1]
        exact rfl
      · rw [hout p hp hpQ, hout q hq hqQ, ho p hp hpQ, ho q hq hqQ]
        exact ⟨rfl, rfl⟩

/-- **why the set-up ended** for a process that has not dropped out: the number of levels or the size of the coarsest mesh is reached, or coarsening gave no usable mesh -/
theorem why_end {s : ℕ → PState} {hist : ℕ → List (Option PMesh)} (h : SetUp O W l P s hist) (hw : WorldOK W P) (hs : SameState P s) : ∀ p ∈ P, none ∉ hist p →
    ((s p).level + 1 + (hist p).length = O.maxLevels ∧ hist p ≠ []) ∨ (lastMeas (s p).mesh.meas (hist p) ≤ O.maxMeas ∧ hist p ≠ []) ∨
      ∀ c, W.crs (l + (hist p).length) p = some c → Useless O (lastMeas (s p).mesh.meas (hist p)) c.meas := by
  induction h with
  | @done l P s hist a r hd =>
    intro p hp hn
    rw [(hd p hp).2] at hn ⊢
    rcases done_data hw hs r (fun p hp => (hd p hp).1) hp with ⟨h1, h2⟩ | ⟨h1, h2, h3⟩
    · right; right
      intro c hc
      rw [h1 p hp] at hc ⊢
      exact h2 p hp c hc
    · cases hx : added (a p) with
      | none => exact absurd hx (h3 p hp)
      | some m =>
        cases m with
        | none => rw [hx] at hn; exact absurd (List.mem_singleton.2 rfl) hn
        | some c =>
          obtain ⟨-, -, -, -, h5⟩ := h1 p hp c hx
          rcases h5 with h5 | h5
          · exact Or.inl ⟨by simpa using h5, by simp⟩
          · exact Or.inr (Or.inl ⟨h5, by simp⟩)
  | @next l P s hist a Q s' h2 r hQ hne hm hout hin rest ih =>
    intro p hp hn
    obtain ⟨hQP, hwQ, hsQ, hd, ho⟩ := next_data hw hs r hQ hne hm
    by_cases hq : p ∈ Q
    · obtain ⟨e1, e2, -, e4, -⟩ := hd p hq
      have hcons : hist p = some (s' p).mesh :: h2 p := by rw [hin p hq, e1]; rfl
      rw [hcons] at hn ⊢
      rcases ih hwQ hsQ p hq (fun hx => hn (List.mem_cons_of_mem _ hx)) with ⟨i1, i2⟩ | ⟨i1, i2⟩ | i
      · refine Or.inl ⟨?_, List.cons_ne_nil _ _⟩
        rw [e2] at i1
        rw [List.length_cons]
        omega
      · exact Or.inr (Or.inl ⟨i1, List.cons_ne_nil _ _⟩)
      · right; right
        intro c hc
        rw [List.length_cons, show l + ((h2 p).length + 1) = l + 1 + (h2 p).length by omega] at hc
        exact i c hc
    · rw [hout p hp hq, ho p hp hq] at hn
      exact absurd (List.mem_singleton.2 rfl) hn

/-- the levels of a process get smaller with every level, so there are at most as many coarse levels as nodes -/
theorem LevelsOK.length_le {f : ℕ} {t : List (Option PMesh)} (h : LevelsOK O f t) : t.length ≤ f + 1 := by
  induction t generalizing f with
  | nil => exact Nat.zero_le _
  | cons m t ih =>
    cases m with
    | none =>
      have : t = [] := h
      subst this
      simp
    | some c =>
      obtain ⟨h1, -, -, -, -, h6⟩ := h
      have := ih h6
      rw [List.length_cons]
      omega

end NgsAMG.LC
