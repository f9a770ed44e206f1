import Verif.Spec.Levels

/-! # Control of the levels (C97): running the programs of all processes -/

namespace NgsAMG.LC
open NgsAMG.Spec

variable {O : Opts} {W : World} {l : ℕ} {P : Finset ℕ}

theorem Runs.bind {α β : Type} {f : ℕ → Prog α} {g : ℕ → α → Prog β} {a : ℕ → α} {b : ℕ → β} (h : Runs W l P f a) (h2 : Runs W l P (fun p => g p (a p)) b) :
    Runs W l P (fun p => (f p).bind (g p)) b := by
  induction h with
  | @ret f a h =>
    have key : ∀ {f1 f2 : ℕ → Prog β} {b}, (∀ p ∈ P, f1 p = f2 p) → Runs W l P f1 b → Runs W l P f2 b := by
      intro f1 f2 b he hr
      cases hr with
      | ret h => exact .ret fun p hp => (he p hp).symm.trans (h p hp)
      | sum x k h r => exact .sum x k (fun p hp => (he p hp).symm.trans (h p hp)) r
      | crs k h r => exact .crs k (fun p hp => (he p hp).symm.trans (h p hp)) r
      | ctr n k h r => exact .ctr n k (fun p hp => (he p hp).symm.trans (h p hp)) r
    exact key (fun p hp => by rw [h p hp]; rfl) h2
  | sum x k h r ih => exact .sum x (fun p y => (k p y).bind (g p)) (fun p hp => by rw [h p hp]; rfl) (ih h2)
  | crs k h r ih => exact .crs (fun p y => (k p y).bind (g p)) (fun p hp => by rw [h p hp]; rfl) (ih h2)
  | ctr n k h r ih => exact .ctr n (fun p y => (k p y).bind (g p)) (fun p hp => by rw [h p hp]; rfl) (ih h2)

theorem Runs.congr {α : Type} {f1 f2 : ℕ → Prog α} {b : ℕ → α} (he : ∀ p ∈ P, f1 p = f2 p) (hr : Runs W l P f1 b) : Runs W l P f2 b := by
  cases hr with
  | ret h => exact .ret fun p hp => (he p hp).symm.trans (h p hp)
  | sum x k h r => exact .sum x k (fun p hp => (he p hp).symm.trans (h p hp)) r
  | crs k h r => exact .crs k (fun p hp => (he p hp).symm.trans (h p hp)) r
  | ctr n k h r => exact .ctr n k (fun p hp => (he p hp).symm.trans (h p hp)) r

/-- the result is the only one -/
theorem Runs.unique {α : Type} {f : ℕ → Prog α} {a b : ℕ → α} (h : Runs W l P f a) (h2 : Runs W l P f b) : ∀ p ∈ P, a p = b p := by
  intro p hp
  induction h with
  | ret h =>
    cases h2 with
    | ret h' => have := (h p hp).symm.trans (h' p hp); exact Prog.ret.inj this
    | sum x k h' r => have := (h p hp).symm.trans (h' p hp); cases this
    | crs k h' r => have := (h p hp).symm.trans (h' p hp); cases this
    | ctr n k h' r => have := (h p hp).symm.trans (h' p hp); cases this
  | sum x k h r ih =>
    cases h2 with
    | ret h' => have := (h p hp).symm.trans (h' p hp); cases this
    | sum x' k' h' r' =>
      have hx : ∑ q ∈ P, x' q = ∑ q ∈ P, x q := Finset.sum_congr rfl fun q hq => (Prog.sum.inj ((h q hq).symm.trans (h' q hq))).1.symm
      exact ih (Runs.congr (fun q hq => by rw [(Prog.sum.inj ((h q hq).symm.trans (h' q hq))).2, hx]) r')
    | crs k h' r => have := (h p hp).symm.trans (h' p hp); cases this
    | ctr n k h' r => have := (h p hp).symm.trans (h' p hp); cases this
  | crs k h r ih =>
    cases h2 with
    | ret h' => have := (h p hp).symm.trans (h' p hp); cases this
    | sum x k h' r => have := (h p hp).symm.trans (h' p hp); cases this
    | crs k' h' r' => exact ih (Runs.congr (fun q hq => by rw [Prog.crs.inj ((h q hq).symm.trans (h' q hq))]) r')
    | ctr n k h' r => have := (h p hp).symm.trans (h' p hp); cases this
  | ctr n k h r ih =>
    cases h2 with
    | ret h' => have := (h p hp).symm.trans (h' p hp); cases this
    | sum x k h' r => have := (h p hp).symm.trans (h' p hp); cases this
    | crs k h' r => have := (h p hp).symm.trans (h' p hp); cases this
    | ctr n' k' h' r' =>
      have hn : n' = n := (Prog.ctr.inj ((h p hp).symm.trans (h' p hp))).1.symm
      exact ih (Runs.congr (fun q hq => by rw [(Prog.ctr.inj ((h q hq).symm.trans (h' q hq))).2, hn]) r')

/-- the result of a run only matters for the processes that take part -/
theorem Runs.result {α : Type} {f : ℕ → Prog α} {a b : ℕ → α} (h : Runs W l P f a) (hab : ∀ p ∈ P, a p = b p) : Runs W l P f b := by
  induction h with
  | ret h => exact .ret fun p hp => (h p hp).trans (by rw [hab p hp])
  | sum x k h r ih => exact .sum x k h (ih hab)
  | crs k h r ih => exact .crs k h (ih hab)
  | ctr n k h r ih => exact .ctr n k h (ih hab)

/-- all processes know the same of their meshes -/
def SameOn (P : Finset ℕ) (c : ℕ → PMesh) : Prop := ∀ p ∈ P, ∀ q ∈ P, SameMesh (c p) (c q)

/-- all processes are in the same state -/
structure SameState (P : Finset ℕ) (s : ℕ → PState) : Prop where
  mesh : SameOn P fun p => (s p).mesh
  level : ∀ p ∈ P, ∀ q ∈ P, (s p).level = (s q).level
  first : ∀ p ∈ P, ∀ q ∈ P, (s p).firstRdUsed = (s q).firstRdUsed
  last : ∀ p ∈ P, ∀ q ∈ P, (s p).lastRdMeas = (s q).lastRdMeas
  need : ∀ p ∈ P, ∀ q ∈ P, (s p).needRd = (s q).needRd

theorem baseFac_same {m m' : PMesh} (h : SameMesh m m') : baseFac O m = baseFac O m' := by simp only [baseFac, h.meas, h.np]

theorem facRest_runs {c : ℕ → PMesh} (hc : SameOn P c) {p0 : ℕ} (h0 : p0 ∈ P) (n : ℕ) : ∃ fac, Runs W l P (fun p => facRest O (c p) n) (fun _ => fac) := by
  by_cases h : locLow O n (c p0).nv = true
  · refine ⟨min (1/2) (min (baseFac O (c p0)) (locFac O (c p0).np (∑ q ∈ P, (c q).ndist) ((n : ℚ) / (c p0).nv))), ?_⟩
    refine .sum (fun p => (c p).ndist) (fun p s => .ret (min (1/2) (min (baseFac O (c p)) (locFac O (c p).np s ((n : ℚ) / (c p).nv))))) ?_ ?_
    · intro p hp
      unfold facRest
      rw [(hc p hp p0 h0).nv, if_pos h]
    · refine .ret fun p hp => ?_
      rw [baseFac_same (hc p hp p0 h0), (hc p hp p0 h0).np, (hc p hp p0 h0).nv]
  · refine ⟨min (1/2) (baseFac O (c p0)), .ret fun p hp => ?_⟩
    unfold facRest
    rw [(hc p hp p0 h0).nv, if_neg h, baseFac_same (hc p hp p0 h0)]

theorem findRDFac_runs {c : ℕ → PMesh} (hc : SameOn P c) {p0 : ℕ} (h0 : p0 ∈ P) : ∃ fac, Runs W l P (fun p => findRDFac O (c p)) (fun _ => fac) := by
  by_cases h1 : (c p0).np ≤ (if (c p0).idle then 2 else 1)
  · refine ⟨1, .ret fun p hp => ?_⟩
    unfold findRDFac
    rw [(hc p hp p0 h0).np, (hc p hp p0 h0).idle, if_pos h1]
  by_cases h2 : (c p0).meas < O.seqNv
  · refine ⟨-1, .ret fun p hp => ?_⟩
    unfold findRDFac
    rw [(hc p hp p0 h0).np, (hc p hp p0 h0).idle, if_neg h1, (hc p hp p0 h0).meas, if_pos h2]
  · obtain ⟨fac, hf⟩ := facRest_runs (O := O) (W := W) (l := l) hc h0 (∑ q ∈ P, nnloc (c q))
    refine ⟨fac, .sum (fun p => nnloc (c p)) (fun p n => facRest O (c p) n) ?_ hf⟩
    intro p hp
    unfold findRDFac
    rw [(hc p hp p0 h0).np, (hc p hp p0 h0).idle, if_neg h1, (hc p hp p0 h0).meas, if_neg h2]

theorem wantLate_same {s s' : PState} {c c' : PMesh} (hc : SameMesh c c') (h1 : s.level = s'.level) (h2 : s.firstRdUsed = s'.firstRdUsed) (h3 : s.lastRdMeas = s'.lastRdMeas) :
    wantLate O s c = wantLate O s' c' := by
  have hg : rdGoal O s = rdGoal O s' := by
    cases s; cases s'; simp only at h1 h2 h3; subst h1 h2 h3; rfl
  simp only [wantLate, hg, hc.meas, hc.np]

theorem want_runs {s : ℕ → PState} {c : ℕ → PMesh} (hs : SameState P s) (hc : SameOn P c) {p0 : ℕ} (h0 : p0 ∈ P) : ∃ w, Runs W l P (fun p => want O (s p) (c p)) (fun _ => w) := by
  by_cases h : (s p0).needRd = true
  · refine ⟨true, .ret fun p hp => ?_⟩
    unfold want
    rw [hs.need p hp p0 h0, if_pos h]
  · refine ⟨locLow O (∑ q ∈ P, nnloc (c q)) (c p0).nv || wantLate O (s p0) (c p0), ?_⟩
    refine .sum (fun p => nnloc (c p)) (fun p n => .ret (locLow O n (c p).nv || wantLate O (s p) (c p))) ?_ (.ret fun p hp => ?_)
    · intro p hp
      unfold want
      rw [hs.need p hp p0 h0, if_neg h]
    · rw [(hc p hp p0 h0).nv, wantLate_same (hc p hp p0 h0) (hs.level p hp p0 h0) (hs.first p hp p0 h0) (hs.last p hp p0 h0)]

theorem nGroups_same {m m' : PMesh} (h : SameMesh m m') (fac : ℚ) : nGroups m fac = nGroups m' fac := by simp only [nGroups, h.np, h.idle]

theorem truly_same {m m' : PMesh} (h : SameMesh m m') : truly m = truly m' := by simp only [truly, h.np, h.idle]

/-- the state after a contraction -/
def ctrState (s : PState) (c : PMesh) : PState := { s with firstRdUsed := true, needRd := false, lastRdMeas := c.meas }

theorem doContract_runs {s : ℕ → PState} {c : ℕ → PMesh} (hc : SameOn P c) {p0 : ℕ} (h0 : p0 ∈ P) :
    ∃ fac, Runs W l P (fun p => findRDFac O (c p)) (fun _ => fac) ∧
      Runs W l P (fun p => doContract O (s p) (c p)) (fun p => (W.ctr l (nGroups (c p0) fac) p, ctrState (s p) (c p))) := by
  obtain ⟨fac, hf⟩ := findRDFac_runs (O := O) (W := W) (l := l) hc h0
  refine ⟨fac, hf, ?_⟩
  unfold doContract
  refine hf.bind (.ctr (nGroups (c p0) fac) (fun p m => .ret (m, ctrState (s p) (c p))) ?_ (.ret fun p hp => rfl))
  intro p hp
  rw [nGroups_same (hc p hp p0 h0)]
  rfl

/-- contraction is decided by all processes alike -/
theorem tryContract_runs {s : ℕ → PState} {c : ℕ → PMesh} (hs : SameState P s) (hc : SameOn P c) {p0 : ℕ} (h0 : p0 ∈ P) :
    ∃ r, Runs W l P (fun p => tryContract O (s p) (c p)) r ∧ ((∀ p, r p = (some (c p), s p)) ∨ ∃ n, ∀ p, r p = (W.ctr l n p, ctrState (s p) (c p))) := by
  by_cases h : (!O.enableRd || !truly (c p0)) = true
  · refine ⟨fun p => (some (c p), s p), .ret fun p hp => ?_, Or.inl fun p => rfl⟩
    unfold tryContract
    rw [truly_same (hc p hp p0 h0), if_pos h]
  · obtain ⟨w, hw⟩ := want_runs (O := O) (W := W) (l := l) hs hc h0
    have key : ∀ r, Runs W l P (fun p => if w then doContract O (s p) (c p) else .ret (some (c p), s p)) r → Runs W l P (fun p => tryContract O (s p) (c p)) r := by
      intro r hr
      refine Runs.congr (fun p hp => ?_) (hw.bind (g := fun p w => if w then doContract O (s p) (c p) else .ret (some (c p), s p)) hr)
      unfold tryContract
      rw [truly_same (hc p hp p0 h0), if_neg h]
    cases w with
    | true =>
      obtain ⟨fac, -, hd⟩ := doContract_runs (O := O) (W := W) (l := l) (s := s) hc h0
      exact ⟨_, key _ hd, Or.inr ⟨_, fun p => rfl⟩⟩
    | false => exact ⟨fun p => (some (c p), s p), key _ (.ret fun p hp => rfl), Or.inl fun p => rfl⟩

end NgsAMG.LC
