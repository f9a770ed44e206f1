import Verif.Props.LevelCtrl2

/-! # Control of the levels (C97): all levels -/

namespace NgsAMG.LC
open NgsAMG.Spec

variable {O : Opts} {W : World} {l : ℕ} {P : Finset ℕ}

theorem finish_added {O : Opts} {s : PState} {m : Option PMesh} : added (finish O s m) = some m := by
  cases m with
  | none => rfl
  | some c => simp only [finish]; split <;> rfl

theorem finish_more {O : Opts} {s t : PState} {m : Option PMesh} (h : finish O s m = .more t) :
    ∃ c, m = some c ∧ s.level + 2 ≠ O.maxLevels ∧ O.maxMeas < c.meas ∧ t = { s with level := s.level + 1, mesh := c } := by
  cases m with
  | none => cases h
  | some c =>
    simp only [finish] at h
    split at h
    · cases h
    · rename_i hn
      push Not at hn
      simp only [Outcome.more.injEq] at h
      exact ⟨c, rfl, hn.1, hn.2, h.symm⟩

/-- the set-up is the same whenever it is run -/
theorem setUp_unique {s : ℕ → PState} {hist hist' : ℕ → List (Option PMesh)} (h : SetUp O W l P s hist) (h' : SetUp O W l P s hist') : ∀ p ∈ P, hist p = hist' p := by
  induction h generalizing hist' with
  | @done l P s hist a r hd =>
    intro p hp
    cases h' with
    | done a' r' hd' => rw [(hd p hp).2, (hd' p hp).2, r.unique r' p hp]
    | next a' Q s' h2 r' hQ hne hm hout hin rest =>
      obtain ⟨q, hq⟩ := hne
      have hqP := ((hQ q).1 hq).1
      exact absurd ((r.unique r' q hqP).trans (hm q hq)) ((hd q hqP).1 _)
  | @next l P s hist a Q s' h2 r hQ hne hm hout hin rest ih =>
    intro p hp
    cases h' with
    | done a' r' hd' =>
      obtain ⟨q, hq⟩ := hne
      have hqP := ((hQ q).1 hq).1
      exact absurd ((r'.unique r q hqP).trans (hm q hq)) ((hd' q hqP).1 _)
    | next a' Q' s'' h2' r' hQ' hne' hm' hout' hin' rest' =>
      have haa := r.unique r'
      have hQQ : Q = Q' := by
        ext q
        rw [hQ, hQ']
        constructor
        · rintro ⟨h1, h2⟩; exact ⟨h1, by rw [← haa q h1]; exact h2⟩
        · rintro ⟨h1, h2⟩; exact ⟨h1, by rw [haa q h1]; exact h2⟩
      subst hQQ
      by_cases hq : p ∈ Q
      · have hss : ∀ q ∈ Q, s' q = s'' q := fun q hq => by
          have := (hm q hq).symm.trans ((haa q ((hQ q).1 hq).1).trans (hm' q hq))
          simpa using this
        have hrest : SetUp O W (l + 1) Q s' h2' := by
          clear ih hout hin hout' hin' r r' haa hm hm' hne hne' hQ hQ' rest hp hq
          have key : ∀ {l Q s' s'' h}, (∀ q ∈ Q, s' q = s'' q) → SetUp O W l Q s'' h → SetUp O W l Q s' h := by
            intro l Q s' s'' h hss hr
            cases hr with
            | done a r hd => exact .done a (Runs.congr (fun p hp => by rw [hss p hp]) r) hd
            | next a R t h r hQ hne hm hout hin rest => exact .next a R t h (Runs.congr (fun p hp => by rw [hss p hp]) r) hQ hne hm hout hin rest
          exact key hss rest'
        rw [hin p hq, hin' p hq, haa p hp, ih hrest p hq]
      · rw [hout p hp hq, hout' p hp hq, haa p hp]

/-- the state on the next level is the same for all processes that go on -/
theorem next_same {Q : Finset ℕ} {s s' : ℕ → PState} {r : ℕ → Option PMesh × PState} (hs : SameState P s) (hQ : Q ⊆ P) (hm : ∀ p ∈ Q, finish O (r p).2 (r p).1 = .more (s' p))
    (same : ∀ p ∈ P, ∀ q ∈ P, ∀ m m', (r p).1 = some m → (r q).1 = some m' → SameMesh m m')
    (lev : ∀ p ∈ P, (r p).2.level = (s p).level) (first : ∀ p ∈ P, ∀ q ∈ P, (r p).2.firstRdUsed = (r q).2.firstRdUsed)
    (last : ∀ p ∈ P, ∀ q ∈ P, (r p).2.lastRdMeas = (r q).2.lastRdMeas) (need : ∀ p ∈ P, ∀ q ∈ P, (r p).2.needRd = (r q).2.needRd) : SameState Q s' := by
  have hx : ∀ p ∈ Q, ∃ c, (r p).1 = some c ∧ s' p = { (r p).2 with level := (r p).2.level + 1, mesh := c } := fun p hp => by
    obtain ⟨c, h1, -, -, h4⟩ := finish_more (hm p hp)
    exact ⟨c, h1, h4⟩
  refine ⟨fun p hp q hq => ?_, fun p hp q hq => ?_, fun p hp q hq => ?_, fun p hp q hq => ?_, fun p hp q hq => ?_⟩
  all_goals
    obtain ⟨c, h1, h2⟩ := hx p hp
    obtain ⟨c', h1', h2'⟩ := hx q hq
  · show SameMesh (s' p).mesh (s' q).mesh
    rw [h2, h2']; exact same p (hQ hp) q (hQ hq) c c' h1 h1'
  · rw [h2, h2']
    show (r p).2.level + 1 = (r q).2.level + 1
    rw [lev p (hQ hp), lev q (hQ hq), hs.level p (hQ hp) q (hQ hq)]
  · rw [h2, h2']; exact first p (hQ hp) q (hQ hq)
  · rw [h2, h2']; exact last p (hQ hp) q (hQ hq)
  · rw [h2, h2']; exact need p (hQ hp) q (hQ hq)

/-- **the set-up ends on all processes**, whatever coarsening and contraction give -/
theorem setUp_exists (n : ℕ) : ∀ (l : ℕ) (P : Finset ℕ) (s : ℕ → PState), WorldOK W P → SameState P s → P.Nonempty → (∀ p ∈ P, (s p).mesh.meas ≤ n) → ∃ hist, SetUp O W l P s hist := by
  induction n with
  | zero =>
    intro l P s hw hs hne hn
    obtain ⟨a, ha, he⟩ := body_runs (O := O) (W := W) (l := l) hw hs hne
    refine ⟨fun p => (added (a p)).toList, .done a ha fun p hp => ⟨fun t ht => ?_, rfl⟩⟩
    cases he with
    | stuck h why => rw [h p hp] at ht; cases ht
    | bad h why => rw [h p hp] at ht; cases ht
    | step r h meas _ _ _ _ _ _ =>
      rw [h p hp] at ht
      obtain ⟨c, hc, -⟩ := finish_more ht
      have := (meas p hp c hc).1
      have := hn p hp
      omega
  | succ n ih =>
    intro l P s hw hs hne hn
    obtain ⟨a, ha, he⟩ := body_runs (O := O) (W := W) (l := l) hw hs hne
    cases he with
    | stuck h why => exact ⟨fun p => (added (a p)).toList, .done a ha fun p hp => ⟨fun t ht => (by rw [h p hp] at ht; cases ht), rfl⟩⟩
    | bad h why => exact ⟨fun p => (added (a p)).toList, .done a ha fun p hp => ⟨fun t ht => (by rw [h p hp] at ht; cases ht), rfl⟩⟩
    | step r h meas from_crs same lev first last need =>
      by_cases hmore : ∃ p ∈ P, ∃ t, a p = .more t
      · obtain ⟨p1, hp1, t1, ht1⟩ := hmore
        rw [h p1 hp1] at ht1
        obtain ⟨c1, hc1, hl1, hm1, -⟩ := finish_more ht1
        have hall : ∀ p ∈ P, ∀ c, (r p).1 = some c → a p = .more { (r p).2 with level := (r p).2.level + 1, mesh := c } := by
          intro p hp c hc
          rw [h p hp, hc]
          simp only [finish]
          rw [if_neg]
          push Not
          refine ⟨?_, ?_⟩
          · rw [lev p hp, hs.level p hp p1 hp1, ← lev p1 hp1]; exact hl1
          · rw [(same p hp p1 hp1 c c1 hc hc1).meas]; exact hm1
        let Q := P.filter fun p => (r p).1.isSome = true
        have hQm : ∀ p, p ∈ Q ↔ p ∈ P ∧ ∃ c, (r p).1 = some c := fun p => by
          simp only [Q, Finset.mem_filter, Option.isSome_iff_exists]
        have hQP : Q ⊆ P := Finset.filter_subset _ _
        obtain ⟨s', hs'⟩ : ∃ s' : ℕ → PState, ∀ p ∈ Q, a p = .more (s' p) := by
          have hx : ∀ p ∈ Q, ∃ t, a p = .more t := fun p hp => by
            obtain ⟨hpP, c, hc⟩ := (hQm p).1 hp
            exact ⟨_, hall p hpP c hc⟩
          haveI : Nonempty PState := ⟨t1⟩
          choose! s' hs' using hx
          exact ⟨s', hs'⟩
        have hss : SameState Q s' := next_same (O := O) hs hQP (fun p hp => by rw [← h p (hQP hp)]; exact hs' p hp) same lev first last need
        have hQne : Q.Nonempty := ⟨p1, (hQm p1).2 ⟨hp1, c1, hc1⟩⟩
        have hQn : ∀ p ∈ Q, (s' p).mesh.meas ≤ n := by
          intro p hp
          have h1 := hs' p hp
          rw [h p (hQP hp)] at h1
          obtain ⟨c, hc, -, -, h4⟩ := finish_more h1
          rw [h4]
          show c.meas ≤ n
          have := (meas p (hQP hp) c hc).1
          have := hn p (hQP hp)
          omega
        obtain ⟨hist', hr⟩ := ih (l + 1) Q s' (hw.mono hQP) hss hQne hQn
        classical
        refine ⟨fun p => if p ∈ Q then (added (a p)).toList ++ hist' p else (added (a p)).toList, .next a Q s' hist' ha ?_ hQne hs' ?_ ?_ hr⟩
        · intro p
          rw [hQm]
          constructor
          · rintro ⟨hp, c, hc⟩; exact ⟨hp, c, by rw [h p hp, finish_added, hc]⟩
          · rintro ⟨hp, c, hc⟩
            refine ⟨hp, c, ?_⟩
            rw [h p hp, finish_added] at hc
            exact Option.some.inj hc
        · intro p hp hq; exact if_neg hq
        · intro p hp; exact if_pos hp
      · refine ⟨fun p => (added (a p)).toList, .done a ha fun p hp => ⟨fun t ht => hmore ⟨p, hp, t, ht⟩, rfl⟩⟩

theorem init_same {m : ℕ → PMesh} (hm : SameOn P m) : SameState P fun p => init (m p) :=
  ⟨hm, fun _ _ _ _ => rfl, fun _ _ _ _ => rfl, fun p hp q hq => (hm p hp q hq).meas, fun _ _ _ _ => rfl⟩

/-- **the set-up ends on all processes, with the same result whenever it is run** -/
theorem setUp_total {m : ℕ → PMesh} (hw : WorldOK W P) (hm : SameOn P m) (hne : P.Nonempty) :
    ∃ hist, SetUp O W 0 P (fun p => init (m p)) hist ∧ ∀ hist', SetUp O W 0 P (fun p => init (m p)) hist' → ∀ p ∈ P, hist' p = hist p := by
  obtain ⟨p0, h0⟩ := hne
  obtain ⟨hist, h⟩ := setUp_exists (O := O) (W := W) (m p0).meas 0 P (fun p => init (m p)) hw (init_same hm) ⟨p0, h0⟩ (fun p hp => le_of_eq (hm p hp p0 h0).meas)
  exact ⟨hist, h, fun hist' h' p hp => setUp_unique h' h p hp⟩

end NgsAMG.LC
