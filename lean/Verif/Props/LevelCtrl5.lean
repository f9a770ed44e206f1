import Verif.Props.LevelCtrl4
import Mathlib.Tactic.NormNum
import Mathlib.Tactic.FinCases

/-! # Control of the levels (C97): redistribution, and what does not hold -/

namespace NgsAMG.LC
open NgsAMG.Spec

variable {O : Opts} {W : World} {l : ℕ} {P : Finset ℕ}

/-- **the levels are the meshes that coarsening gives**, in their order -/
theorem levels_from {s : ℕ → PState} {hist : ℕ → List (Option PMesh)} (h : SetUp O W l P s hist) (hw : WorldOK W P) (hs : SameState P s) :
    ∀ p ∈ P, ∀ (i : ℕ) (m : PMesh), (hist p)[i]? = some (some m) → ∃ c, W.crs (l + i) p = some c ∧ m.meas = c.meas := by
  have key : ∀ {l P} {s : ℕ → PState} {a : ℕ → Outcome}, WorldOK W P → SameState P s → Runs W l P (fun p => body O (s p)) a → ∀ p ∈ P, ∀ m, added (a p) = some (some m) →
      ∃ c, W.crs l p = some c ∧ m.meas = c.meas := by
    intro l P s a hw hs r p hp m hm
    have he := level_end hw hs ⟨p, hp⟩ r
    cases he with
    | stuck h why => rw [h p hp] at hm; cases hm
    | bad h why => rw [h p hp] at hm; cases hm
    | step r h meas from_crs same lev first last need =>
      obtain ⟨c, hc, -, hcm⟩ := from_crs p hp
      rw [h p hp, finish_added, Option.some.injEq] at hm
      exact ⟨c, hc, hcm m hm⟩
  induction h with
  | @done l P s hist a r hd =>
    intro p hp i m hm
    rw [(hd p hp).2] at hm
    cases hx : added (a p) with
    | none => rw [hx] at hm; simp at hm
    | some x =>
      rw [hx] at hm
      cases i with
      | zero =>
        simp only [Option.toList_some, List.getElem?_cons_zero, Option.some.injEq] at hm
        exact key hw hs r p hp m (by rw [hx, hm])
      | succ i => simp at hm
  | @next l P s hist a Q s' h2 r hQ hne hmo hout hin rest ih =>
    intro p hp i m hm
    obtain ⟨hQP, hwQ, hsQ, hd, ho⟩ := next_data hw hs r hQ hne hmo
    by_cases hq : p ∈ Q
    · rw [hin p hq, (hd p hq).1] at hm
      cases i with
      | zero =>
        simp only [Option.toList_some, List.cons_append, List.nil_append, List.getElem?_cons_zero, Option.some.injEq] at hm
        exact key hw hs r p hp m (by rw [(hd p hq).1, hm])
      | succ i =>
        simp only [Option.toList_some, List.cons_append, List.nil_append, List.getElem?_cons_succ] at hm
        obtain ⟨c, hc, hcm⟩ := ih hwQ hsQ p hq i m hm
        exact ⟨c, by rw [show l + (i + 1) = l + 1 + i by omega]; exact hc, hcm⟩
    · rw [hout p hp hq, ho p hp hq] at hm
      cases i with
      | zero => simp at hm
      | succ i => simp at hm

/-! ### Redistribution -/

/-- the factor for redistribution: one process (or one beside an idle one) if the mesh is small, else at most one half -/
theorem fac_values {c : ℕ → PMesh} (hc : SameOn P c) {a : ℕ → ℚ} (ha : Runs W l P (fun p => findRDFac O (c p)) a) :
    ∀ p ∈ P, truly (c p) = true → ((c p).meas < O.seqNv ∧ a p = -1) ∨ (O.seqNv ≤ (c p).meas ∧ a p ≤ 1/2) := by
  intro p hp ht
  have ht' : ¬ (c p).np ≤ (if (c p).idle then 2 else 1) := by
    simp only [truly, decide_eq_true_eq] at ht
    omega
  by_cases h2 : (c p).meas < O.seqNv
  · left
    refine ⟨h2, ha.unique (b := fun _ => -1) (.ret fun q hq => ?_) p hp⟩
    unfold findRDFac
    rw [(hc q hq p hp).np, (hc q hq p hp).idle, if_neg ht', (hc q hq p hp).meas, if_pos h2]
  · right
    refine ⟨not_lt.1 h2, ?_⟩
    have hrun : ∀ b, Runs W l P (fun q => facRest O (c q) (∑ q ∈ P, nnloc (c q))) b → a p = b p := by
      intro b hb
      refine ha.unique (b := b) (.sum (fun q => nnloc (c q)) (fun q n => facRest O (c q) n) (fun q hq => ?_) hb) p hp
      unfold findRDFac
      rw [(hc q hq p hp).np, (hc q hq p hp).idle, if_neg ht', (hc q hq p hp).meas, if_neg h2]
    by_cases h : locLow O (∑ q ∈ P, nnloc (c q)) (c p).nv = true
    · have := hrun (fun q => min (1/2) (min (baseFac O (c q)) (locFac O (c q).np (∑ q ∈ P, (c q).ndist) (((∑ q ∈ P, nnloc (c q) : ℕ) : ℚ) / (c q).nv))))
        (.sum (fun q => (c q).ndist) (fun q s => .ret (min (1/2) (min (baseFac O (c q)) (locFac O (c q).np s (((∑ q ∈ P, nnloc (c q) : ℕ) : ℚ) / (c q).nv))))) (fun q hq => by
          unfold facRest
          rw [(hc q hq p hp).nv, if_pos h]) (.ret fun q hq => rfl))
      rw [this]
      exact min_le_left _ _
    · have := hrun (fun q => min (1/2) (baseFac O (c q))) (.ret fun q hq => by
        unfold facRest
        rw [(hc q hq p hp).nv, if_neg h])
      rw [this]
      exact min_le_left _ _

/-- **contraction makes fewer processes**, except with two active processes that are not to be merged into one -/
theorem groups_fewer {m : PMesh} {fac : ℚ} (ht : truly m = true) (hf : fac = -1 ∨ fac ≤ 1/2) (h2 : m.np = 2 → fac = -1) : 1 ≤ nGroups m fac ∧ nGroups m fac < m.np := by
  simp only [truly, decide_eq_true_eq] at ht
  unfold nGroups
  by_cases h : fac = -1
  · rw [if_pos h]
    constructor
    · split <;> omega
    · exact ht
  · rw [if_neg h]
    have hf' : fac ≤ 1/2 := hf.resolve_left h
    have hnp : 3 ≤ m.np := by
      have : m.np ≠ 2 := fun h' => h (h2 h')
      split at ht <;> omega
    have hr : roundNat (((m.np : ℚ) - 1) * fac) ≤ m.np / 2 := by
      unfold roundNat
      have h1 : ((m.np : ℚ) - 1) * fac + 1/2 ≤ (m.np : ℚ) / 2 := by
        have : (0 : ℚ) ≤ (m.np : ℚ) - 1 := by
          have : (3 : ℚ) ≤ m.np := by exact_mod_cast hnp
          linarith
        nlinarith
      refine Nat.lt_succ_iff.1 ((Nat.floor_lt' (Nat.succ_ne_zero _)).2 (lt_of_le_of_lt h1 ?_))
      have h3 : m.np ≤ 2 * (m.np / 2) + 1 := by omega
      have h4 : (m.np : ℚ) ≤ 2 * ((m.np / 2 : ℕ) : ℚ) + 1 := by exact_mod_cast h3
      rw [Nat.succ_eq_add_one, Nat.cast_add, Nat.cast_one]
      linarith
    constructor
    · omega
    · have : 1 + m.np / 2 < m.np := by omega
      omega

/-- **a small mesh is moved to one process** (one beside the idle one), if the limit for the number of nodes per process is not below the limit for one process or redistribution is asked for -/
theorem seq_reached {s : ℕ → PState} {c : ℕ → PMesh} (hs : SameState P s) (hc : SameOn P c) {r : ℕ → Option PMesh × PState} (hr : Runs W l P (fun p => tryContract O (s p) (c p)) r)
    (he : O.enableRd = true) {p0 : ℕ} (h0 : p0 ∈ P) (ht : truly (c p0) = true) (hsm : (c p0).meas < O.seqNv) (hlim : O.seqNv ≤ (c p0).np * O.minNvTh ∨ (s p0).needRd = true) :
    ∀ p ∈ P, (r p).1 = W.ctr l (if (c p0).idle then 2 else 1) p := by
  obtain ⟨fac, hfac, hd⟩ := doContract_runs (O := O) (W := W) (l := l) (s := s) hc h0
  have hf : fac = -1 := by
    rcases fac_values hc hfac p0 h0 ht with ⟨-, h⟩ | ⟨h, -⟩
    · exact h
    · omega
  have hw : Runs W l P (fun p => want O (s p) (c p)) (fun _ => true) := by
    by_cases h : (s p0).needRd = true
    · refine .ret fun p hp => ?_
      unfold want
      rw [hs.need p hp p0 h0, if_pos h]
    · refine .sum (fun p => nnloc (c p)) (fun p n => .ret (locLow O n (c p).nv || wantLate O (s p) (c p))) (fun p hp => ?_) (.ret fun p hp => ?_)
      · unfold want
        rw [hs.need p hp p0 h0, if_neg h]
      · have : (c p).meas < (c p).np * O.minNvTh := by
          rw [(hc p hp p0 h0).meas, (hc p hp p0 h0).np]
          rcases hlim with hl | hl
          · omega
          · exact absurd hl h
        simp only [wantLate, decide_eq_true this, Bool.true_or, Bool.or_true]
  have hrun : Runs W l P (fun p => tryContract O (s p) (c p)) (fun p => (W.ctr l (nGroups (c p0) fac) p, ctrState (s p) (c p))) := by
    refine Runs.congr (fun p hp => ?_) (hw.bind (g := fun p w => if w then doContract O (s p) (c p) else .ret (some (c p), s p)) hd)
    unfold tryContract
    rw [truly_same (hc p hp p0 h0), ht, he, if_neg (by decide)]
  intro p hp
  rw [hr.unique hrun p hp, hf]
  simp only [nGroups, if_pos]

/-! ### What does not hold -/

/-- with redistribution, coarsening that is too slow ends the set-up: nothing is redistributed -/
theorem slow_gives_up {s : ℕ → PState} {hist : ℕ → List (Option PMesh)} (h : SetUp O W l P s hist) (hw : WorldOK W P) (hs : SameState P s) (he : O.enableRd = true)
    (hslow : ∀ p ∈ P, ∀ c, W.crs l p = some c → O.crsThresh * (s p).mesh.meas ≤ c.meas) : ∀ p ∈ P, hist p = [] := by
  have key : ∀ {a : ℕ → Outcome}, Runs W l P (fun p => body O (s p)) a → ∀ p ∈ P, added (a p) = none := by
    intro a r p hp
    have hle := level_end hw hs ⟨p, hp⟩ r
    cases hle with
    | stuck h why => rw [h p hp]; rfl
    | bad h why => rw [h p hp]; rfl
    | step r h meas from_crs same lev first last need =>
      obtain ⟨c, hc, hok, -⟩ := from_crs p hp
      exact absurd ((mapOK_fac hok).2 he) (not_lt.2 (hslow p hp c hc))
  intro p hp
  cases h with
  | done a r hd => rw [(hd p hp).2, key r p hp]; rfl
  | next a Q s' h2 r hQ hne hm hout hin rest =>
    obtain ⟨q, hq⟩ := hne
    obtain ⟨hqP, m, hm⟩ := (hQ q).1 hq
    rw [key r q hqP] at hm
    cases hm

/-- four processes; the mesh with `a` nodes is coarsened to `b` nodes, then to `d` nodes and so on (given by the list); contraction leaves the first `n` processes -/
def exW (ms : List ℕ) (np nloc : ℕ) : World where
  crs l _ := (ms[l]?).map fun k => ⟨k, k, np, false, nloc, 2, 2⟩
  ctr l n p := if p < n then (ms[l]?).map fun k => ⟨k, k, n, false, nloc, 2, 2⟩ else none

theorem exW_ok (ms : List ℕ) (np nloc : ℕ) (P : Finset ℕ) : WorldOK (exW ms np nloc) P := by
  refine ⟨?_, ?_, ?_, ?_⟩
  · intro l p _ q _ h; exact h
  · intro l p _ q _ m m' h h'
    have : (exW ms np nloc).crs l p = (exW ms np nloc).crs l q := rfl
    rw [this, h'] at h
    cases h
    exact ⟨rfl, rfl, rfl, rfl⟩
  · intro l n p _ q _ m m' h h'
    simp only [exW] at h h'
    split at h
    · split at h'
      · rw [h'] at h; cases h; exact ⟨rfl, rfl, rfl, rfl⟩
      · cases h'
    · cases h
  · intro l n p _ m c h h'
    simp only [exW] at h h'
    split at h
    · cases hk : ms[l]? with
      | none => rw [hk] at h; cases h
      | some k =>
        rw [hk] at h h'
        simp only [Option.map_some, Option.some.injEq] at h h'
        rw [← h, ← h']
    · cases h

/-- the finest mesh -/
def exM (k np nloc : ℕ) : PMesh := ⟨k, k, np, false, nloc, 2, 2⟩

theorem exM_same (k np nloc : ℕ) (P : Finset ℕ) : SameOn P fun _ => exM k np nloc := fun _ _ _ _ => ⟨rfl, rfl, rfl, rfl⟩

/-- the theorems apply: four processes, 10000 nodes, coarse meshes with 1500, 200 and 20 nodes -/
example : ∃ hist, SetUp {} (exW [1500, 200, 20] 4 100) 0 {0, 1, 2, 3} (fun _ => init (exM 10000 4 1000)) hist ∧ (∀ p ∈ ({0, 1, 2, 3} : Finset ℕ), LevelsOK {} 10000 (hist p)) ∧
    (∀ p ∈ ({0, 1, 2, 3} : Finset ℕ), (hist p).length ≤ 9) ∧ ∀ p ∈ ({0, 1, 2, 3} : Finset ℕ), hist p ≠ [] := by
  obtain ⟨hist, h, -⟩ := setUp_total (O := {}) (exW_ok [1500, 200, 20] 4 100 {0, 1, 2, 3}) (exM_same 10000 4 1000 {0, 1, 2, 3}) ⟨0, by decide⟩
  have hs := init_same (exM_same 10000 4 1000 {0, 1, 2, 3})
  have hw := exW_ok [1500, 200, 20] 4 100 {0, 1, 2, 3}
  refine ⟨hist, h, levels_ok h hw hs, fun p hp => ?_, fun p hp hn => ?_⟩
  · have := level_limit h hw hs p hp (by decide)
    have h2 : 0 + 1 + (hist p).length ≤ 10 := this
    omega
  · rcases why_end h hw hs p hp (by rw [hn]; exact List.not_mem_nil) with ⟨-, h2⟩ | ⟨-, h2⟩ | h2
    · exact h2 hn
    · exact h2 hn
    · rw [hn] at h2
      have := h2 _ rfl
      simp only [Useless, lastMeas, init, exM] at this
      norm_num at this

/-- **violated**: asking for one level gives (at least) two; the test for the number of levels is never true -/
theorem limit_ignored : ∃ hist, SetUp { maxLevels := 1 } (exW [100, 60, 55] 1 100) 0 {0} (fun _ => init (exM 1000 1 1000)) hist ∧ 2 < 1 + (hist 0).length := by
  obtain ⟨hist, h, -⟩ := setUp_total (O := { maxLevels := 1 }) (exW_ok [100, 60, 55] 1 100 {0}) (exM_same 1000 1 1000 {0}) ⟨0, by decide⟩
  have hs := init_same (exM_same 1000 1 1000 {0})
  have hw := exW_ok [100, 60, 55] 1 100 {0}
  have hok := levels_ok h hw hs 0 (by decide)
  refine ⟨hist, h, ?_⟩
  have hfrom := levels_from h hw hs 0 (by decide)
  have hwhy := why_end h hw hs 0 (by decide)
  have hlen : (hist 0).length ≠ 0 := by
    intro hn
    have hn' : hist 0 = [] := List.length_eq_zero_iff.1 hn
    rcases hwhy (by rw [hn']; exact List.not_mem_nil) with ⟨-, h2⟩ | ⟨-, h2⟩ | h2
    · exact h2 hn'
    · exact h2 hn'
    · rw [hn'] at h2
      have := h2 _ rfl
      simp only [Useless, lastMeas, init, exM] at this
      norm_num at this
  by_contra hlt
  have h1 : (hist 0).length = 1 := by omega
  obtain ⟨m, hm⟩ := List.length_eq_one_iff.1 h1
  cases m with
  | none =>
    -- a single process does not drop out: contraction is not done
    cases h with
    | done a r hd =>
      have h3 := (hd 0 (by decide)).2
      rw [hm] at h3
      have h4 : added (a 0) = some none := by
        cases hx : added (a 0) with
        | none => rw [hx] at h3; cases h3
        | some y => rw [hx] at h3; simp only [Option.toList_some, List.cons.injEq, and_true] at h3; rw [h3]
      have h5 : Runs (exW [100, 60, 55] 1 100) 0 {0} (fun _ => body { maxLevels := 1 } (init (exM 1000 1 1000)))
          (fun _ => .more { (afterCrs { maxLevels := 1 } (startLevel (init (exM 1000 1 1000))) (exM 100 1 100)) with level := 1, mesh := exM 100 1 100 }) := by
        refine .crs _ (fun _ _ => rfl) ?_
        refine .sum (fun _ => 0) (fun _ t => .ret (if t ≠ 0 then .bad else .more { (afterCrs { maxLevels := 1 } (startLevel (init (exM 1000 1 1000))) (exM 100 1 100)) with level := 1, mesh := exM 100 1 100 })) ?_ ?_
        · intro p _
          have e1 : tryCoarse { maxLevels := 1 } (init (exM 1000 1 1000)).mesh ((exW [100, 60, 55] 1 100).crs 0 p) = some (exM 100 1 100) := by
            have e2 : tryCoarse { maxLevels := 1 } (init (exM 1000 1 1000)).mesh (some (exM 100 1 100)) = some (exM 100 1 100) := by decide +kernel
            exact e2
          rw [e1]
          rfl
        · exact .ret fun p _ => rfl
      rw [r.unique h5 0 (by decide)] at h4
      cases h4
    | next a Q s' h2 r hQ hne hmo hout hin rest =>
      obtain ⟨hQP, hwQ, hsQ, hd, ho⟩ := next_data hw hs r hQ hne hmo
      obtain ⟨q, hq⟩ := hne
      have hq0 : q = 0 := by have := hQP hq; simpa using this
      subst hq0
      rw [hin 0 hq, (hd 0 hq).1] at hm
      cases hm
  | some c =>
    obtain ⟨c', hc', hcm⟩ := hfrom 0 c (by rw [hm]; rfl)
    have hc'' : c' = exM 100 1 100 := by
      have : some (exM 100 1 100) = some c' := hc'
      exact (Option.some.inj this).symm
    rw [hc''] at hcm
    rcases hwhy (by rw [hm]; simp) with ⟨h2, -⟩ | ⟨h2, -⟩ | h2
    · have h2' : 0 + 1 + (hist 0).length = 1 := h2
      omega
    · rw [hm] at h2
      have h2' : c.meas ≤ 50 := h2
      rw [hcm] at h2'
      revert h2'; decide
    · rw [hm] at h2
      have := h2 (exM 60 1 100) rfl
      simp only [Useless, lastMeas] at this
      rw [hcm] at this
      simp only [exM] at this
      norm_num at this

/-- **violated**: coarsening from 10000 to 9500 nodes is slower than `rd_crs_thresh`; the four processes do not redistribute, the set-up ends without any coarse level -/
theorem slow_not_redistributed : ∃ hist, SetUp {} (exW [9500] 4 1000) 0 {0, 1, 2, 3} (fun _ => init (exM 10000 4 1000)) hist ∧ truly (exM 10000 4 1000) = true ∧ ∀ p ∈ ({0, 1, 2, 3} : Finset ℕ), hist p = [] := by
  have hw := exW_ok [9500] 4 1000 {0, 1, 2, 3}
  have hs := init_same (exM_same 10000 4 1000 {0, 1, 2, 3})
  obtain ⟨hist, h, -⟩ := setUp_total (O := {}) hw (exM_same 10000 4 1000 {0, 1, 2, 3}) ⟨0, by decide⟩
  refine ⟨hist, h, by decide, slow_gives_up h hw hs rfl fun p _ c hc => ?_⟩
  have : c = exM 9500 4 1000 := by
    have : some (exM 9500 4 1000) = some c := hc
    exact (Option.some.inj this).symm
  subst this
  simp only [init, exM]
  norm_num

/-- **violated**: two active processes with few local vertices are contracted into two groups; nothing is merged, although the code promises "ALWAYS at least factor 2" -/
theorem two_stay_two : Runs (exW [1500] 2 100) 0 {0, 1} (fun _ => tryContract {} (init (exM 10000 2 1000)) (exM 1500 2 100))
    (fun p => ((exW [1500] 2 100).ctr 0 2 p, ctrState (init (exM 10000 2 1000)) (exM 1500 2 100))) ∧ ∀ p ∈ ({0, 1} : Finset ℕ), (exW [1500] 2 100).ctr 0 2 p = some (exM 1500 2 100) := by
  refine ⟨?_, fun p hp => ?_⟩
  · have hc : SameOn {0, 1} fun _ => exM 1500 2 100 := exM_same 1500 2 100 {0, 1}
    obtain ⟨fac, hfac, hd⟩ := doContract_runs (O := {}) (W := exW [1500] 2 100) (l := 0) (P := {0, 1}) (s := fun _ => init (exM 10000 2 1000)) hc (p0 := 0) (by decide)
    have hle : fac ≤ 1/2 := by
      rcases fac_values hc hfac 0 (by decide) (by decide) with ⟨h, -⟩ | ⟨-, h⟩
      · exact absurd h (by decide)
      · exact h
    have hng : nGroups (exM 1500 2 100) fac = 2 := by
      unfold nGroups
      have hne : fac ≠ -1 := by
        intro hf
        have hrun : Runs (exW [1500] 2 100) 0 {0, 1} (fun _ => findRDFac {} (exM 1500 2 100)) (fun _ => (1/8 : ℚ)) := by
          refine .sum (fun _ => 100) (fun _ n => facRest {} (exM 1500 2 100) n) (fun _ _ => rfl) ?_
          refine .sum (fun _ => 2) (fun _ s => .ret (min (1/2) (min (baseFac {} (exM 1500 2 100)) (locFac {} 2 s ((200 : ℚ) / 1500))))) (fun _ _ => ?_) (.ret fun _ _ => ?_)
          · have e1 : (∑ q ∈ ({0, 1} : Finset ℕ), 100) = 200 := by decide
            have e2 : locLow {} 200 (exM 1500 2 100).nv = true := by decide +kernel
            rw [e1]
            unfold facRest
            rw [if_pos e2]
            norm_num [exM]
          · have e1 : (∑ q ∈ ({0, 1} : Finset ℕ), 2) = 4 := by decide
            rw [e1]
            norm_num [baseFac, locFac, exM]
        have := hfac.unique hrun 0 (by decide)
        rw [hf] at this
        norm_num at this
      rw [if_neg hne]
      have : roundNat ((((exM 1500 2 100).np : ℚ) - 1) * fac) ≤ 1 := by
        unfold roundNat
        have h1 : (((exM 1500 2 100).np : ℚ) - 1) * fac + 1/2 ≤ 1 := by simp only [exM]; push_cast; linarith
        exact Nat.floor_le_one_of_le_one h1
      omega
    rw [hng] at hd
    have hw : Runs (exW [1500] 2 100) 0 {0, 1} (fun _ => want {} (init (exM 10000 2 1000)) (exM 1500 2 100)) (fun _ => true) := by
      refine .sum (fun _ => 100) (fun _ n => .ret (locLow {} n 1500 || wantLate {} (init (exM 10000 2 1000)) (exM 1500 2 100))) (fun _ _ => rfl) (.ret fun _ _ => ?_)
      have e1 : (∑ q ∈ ({0, 1} : Finset ℕ), 100) = 200 := by decide
      have e2 : locLow {} 200 1500 = true := by decide +kernel
      rw [e1, e2]
      rfl
    exact hw.bind (g := fun _ w => if w then doContract {} (init (exM 10000 2 1000)) (exM 1500 2 100) else .ret (some (exM 1500 2 100), init (exM 10000 2 1000))) hd
  · fin_cases hp <;> rfl

/-- **violated**: "always re-distribute to sequential once NV reaches this threshhold" holds only together with the other limits: 3000 nodes on four processes stay there although `rd_seq_nv` is 5000 -/
theorem seq_ignored : Runs (exW [3000] 4 700) 0 {0, 1, 2, 3} (fun _ => tryContract { seqNv := 5000 } (init (exM 10000 4 2000)) (exM 3000 4 700))
    (fun _ => (some (exM 3000 4 700), init (exM 10000 4 2000))) ∧ truly (exM 3000 4 700) = true ∧ (exM 3000 4 700).meas < 5000 := by
  refine ⟨?_, by decide, by decide⟩
  have hw : Runs (exW [3000] 4 700) 0 {0, 1, 2, 3} (fun _ => want { seqNv := 5000 } (init (exM 10000 4 2000)) (exM 3000 4 700)) (fun _ => false) := by
    refine .sum (fun _ => 700) (fun _ n => .ret (locLow { seqNv := 5000 } n 3000 || wantLate { seqNv := 5000 } (init (exM 10000 4 2000)) (exM 3000 4 700))) (fun _ _ => rfl) (.ret fun _ _ => ?_)
    have e1 : (∑ q ∈ ({0, 1, 2, 3} : Finset ℕ), 700) = 2800 := by simp
    have e2 : locLow { seqNv := 5000 } 2800 3000 = false := by decide +kernel
    have e3 : wantLate { seqNv := 5000 } (init (exM 10000 4 2000)) (exM 3000 4 700) = false := by decide +kernel
    rw [e1, e2, e3, Bool.or_false]
  exact hw.bind (g := fun _ w => if w then doContract { seqNv := 5000 } (init (exM 10000 4 2000)) (exM 3000 4 700) else .ret (some (exM 3000 4 700), init (exM 10000 4 2000))) (.ret fun _ _ => rfl)

end NgsAMG.LC
