import Verif.Props.LevelCtrl1
import Mathlib.Algebra.Order.BigOperators.Group.Finset

/-! # Control of the levels (C97): one level, for all processes -/

namespace NgsAMG.LC
open NgsAMG.Spec

variable {O : Opts} {W : World} {l : ℕ} {P : Finset ℕ}

/-- what is assumed of coarsening and contraction, for the processes `P`: all processes get the global numbers of the same mesh (or all get none from coarsening), and a contracted mesh has the nodes of the mesh -/
structure WorldOK (W : World) (P : Finset ℕ) : Prop where
  none_iff : ∀ l, ∀ p ∈ P, ∀ q ∈ P, W.crs l p = none → W.crs l q = none
  crs_same : ∀ l, ∀ p ∈ P, ∀ q ∈ P, ∀ m m', W.crs l p = some m → W.crs l q = some m' → SameMesh m m'
  ctr_same : ∀ l n, ∀ p ∈ P, ∀ q ∈ P, ∀ m m', W.ctr l n p = some m → W.ctr l n q = some m' → SameMesh m m'
  ctr_meas : ∀ l n, ∀ p ∈ P, ∀ m c, W.ctr l n p = some m → W.crs l p = some c → m.meas = c.meas

theorem WorldOK.mono {Q : Finset ℕ} (h : WorldOK W P) (hQ : Q ⊆ P) : WorldOK W Q :=
  ⟨fun l p hp q hq => h.none_iff l p (hQ hp) q (hQ hq), fun l p hp q hq => h.crs_same l p (hQ hp) q (hQ hq), fun l n p hp q hq => h.ctr_same l n p (hQ hp) q (hQ hq),
    fun l n p hp => h.ctr_meas l n p (hQ hp)⟩

/-- one level ended the same way for all processes -/
inductive LevelEnd (O : Opts) (W : World) (l : ℕ) (P : Finset ℕ) (s : ℕ → PState) (a : ℕ → Outcome) : Prop
  | stuck (h : ∀ p ∈ P, a p = .stuck) (why : ∀ p ∈ P, ∀ c, W.crs l p = some c → ¬ mapOK O (s p).mesh.meas c.meas = true)
  | bad (h : ∀ p ∈ P, a p = .bad) (why : ∀ p ∈ P, ∀ c, W.crs l p = some c → c.meas = 0 ∨ c.meas < O.minMeas)
  | step (r : ℕ → Option PMesh × PState) (h : ∀ p ∈ P, a p = finish O (r p).2 (r p).1) (meas : ∀ p ∈ P, ∀ m, (r p).1 = some m → m.meas < (s p).mesh.meas ∧ 0 < m.meas ∧ O.minMeas ≤ m.meas)
      (from_crs : ∀ p ∈ P, ∃ c, W.crs l p = some c ∧ mapOK O (s p).mesh.meas c.meas = true ∧ ∀ m, (r p).1 = some m → m.meas = c.meas)
      (same : ∀ p ∈ P, ∀ q ∈ P, ∀ m m', (r p).1 = some m → (r q).1 = some m' → SameMesh m m')
      (lev : ∀ p ∈ P, (r p).2.level = (s p).level) (first : ∀ p ∈ P, ∀ q ∈ P, (r p).2.firstRdUsed = (r q).2.firstRdUsed)
      (last : ∀ p ∈ P, ∀ q ∈ P, (r p).2.lastRdMeas = (r q).2.lastRdMeas) (need : ∀ p ∈ P, ∀ q ∈ P, (r p).2.needRd = (r q).2.needRd)

theorem startLevel_same {s : ℕ → PState} (hs : SameState P s) : SameState P fun p => startLevel (s p) := by
  have h : ∀ p ∈ P, ∀ q ∈ P, ((s p).level = 0 ↔ (s q).level = 0) := fun p hp q hq => by rw [hs.level p hp q hq]
  have hm : ∀ t : PState, (startLevel t).mesh = t.mesh ∧ (startLevel t).level = t.level ∧ (startLevel t).firstRdUsed = t.firstRdUsed ∧ (startLevel t).needRd = t.needRd := by
    intro t; unfold startLevel; split <;> exact ⟨rfl, rfl, rfl, rfl⟩
  refine ⟨fun p hp q hq => ?_, fun p hp q hq => ?_, fun p hp q hq => ?_, fun p hp q hq => ?_, fun p hp q hq => ?_⟩
  · show SameMesh (startLevel (s p)).mesh (startLevel (s q)).mesh
    rw [(hm _).1, (hm _).1]; exact hs.mesh p hp q hq
  · show (startLevel (s p)).level = (startLevel (s q)).level
    rw [(hm _).2.1, (hm _).2.1]; exact hs.level p hp q hq
  · show (startLevel (s p)).firstRdUsed = (startLevel (s q)).firstRdUsed
    rw [(hm _).2.2.1, (hm _).2.2.1]; exact hs.first p hp q hq
  · show (startLevel (s p)).lastRdMeas = (startLevel (s q)).lastRdMeas
    unfold startLevel
    by_cases h0 : (s p).level = 0
    · rw [if_pos h0, if_pos ((h p hp q hq).1 h0)]; exact (hs.mesh p hp q hq).meas
    · rw [if_neg h0, if_neg (fun h1 => h0 ((h p hp q hq).2 h1))]; exact hs.last p hp q hq
  · show (startLevel (s p)).needRd = (startLevel (s q)).needRd
    rw [(hm _).2.2.2, (hm _).2.2.2]; exact hs.need p hp q hq

theorem startLevel_level (s : PState) : (startLevel s).level = s.level := by unfold startLevel; split <;> rfl

theorem startLevel_mesh (s : PState) : (startLevel s).mesh = s.mesh := by unfold startLevel; split <;> rfl

theorem afterCrs_same {s : ℕ → PState} {c : ℕ → PMesh} (hs : SameState P s) (hc : SameOn P c) : SameState P fun p => afterCrs O (s p) (c p) := by
  refine ⟨fun p hp q hq => hs.mesh p hp q hq, fun p hp q hq => hs.level p hp q hq, fun p hp q hq => hs.first p hp q hq, fun p hp q hq => hs.last p hp q hq, fun p hp q hq => ?_⟩
  simp only [afterCrs, hs.need p hp q hq, hs.level p hp q hq, (hs.mesh p hp q hq).meas, (hc p hp q hq).meas]

/-- every level is run to its end by all processes, with the same decisions -/
theorem body_runs {s : ℕ → PState} (hw : WorldOK W P) (hs : SameState P s) (hne : P.Nonempty) : ∃ a, Runs W l P (fun p => body O (s p)) a ∧ LevelEnd O W l P s a := by
  obtain ⟨p0, h0⟩ := hne
  have key : ∀ a, Runs W l P (fun p => match tryCoarse O (s p).mesh (W.crs l p) with
      | none => .ret .stuck
      | some c => (tryContract O (afterCrs O (startLevel (s p)) c) c).bind (afterStep O (s p))) a → Runs W l P (fun p => body O (s p)) a :=
    fun a ha => .crs _ (fun p hp => rfl) ha
  cases hc0 : W.crs l p0 with
  | none =>
    have hn : ∀ p ∈ P, W.crs l p = none := fun p hp => hw.none_iff l p0 h0 p hp hc0
    refine ⟨fun _ => .stuck, key _ (.ret fun p hp => ?_), .stuck (fun p hp => rfl) (fun p hp c hc => ?_)⟩
    · rw [hn p hp]; rfl
    · rw [hn p hp] at hc; cases hc
  | some c0 =>
    have hsome : ∀ p ∈ P, ∃ c, W.crs l p = some c := by
      intro p hp
      cases hcp : W.crs l p with
      | none => rw [hw.none_iff l p hp p0 h0 hcp] at hc0; cases hc0
      | some c => exact ⟨c, rfl⟩
    obtain ⟨c, hc⟩ : ∃ c : ℕ → PMesh, ∀ p ∈ P, W.crs l p = some (c p) := by
      haveI : Nonempty PMesh := ⟨c0⟩
      choose! c hc using hsome
      exact ⟨c, hc⟩
    have hsame : SameOn P c := fun p hp q hq => hw.crs_same l p hp q hq _ _ (hc p hp) (hc q hq)
    by_cases hok : mapOK O (s p0).mesh.meas (c p0).meas = true
    · have hokp : ∀ p ∈ P, mapOK O (s p).mesh.meas (c p).meas = true := fun p hp => by rw [(hs.mesh p hp p0 h0).meas, (hsame p hp p0 h0).meas]; exact hok
      have hs2 : SameState P fun p => afterCrs O (startLevel (s p)) (c p) := afterCrs_same (startLevel_same hs) hsame
      obtain ⟨r, hr, hrr⟩ := tryContract_runs (O := O) (W := W) (l := l) hs2 hsame h0
      have hbody : Runs W l P (fun p => (tryContract O (afterCrs O (startLevel (s p)) (c p)) (c p)).bind (afterStep O (s p)))
          (fun p => if (∑ q ∈ P, stepBad O (s q).mesh (r q).1) ≠ 0 then .bad else finish O (r p).2 (r p).1) :=
        hr.bind (.sum (fun p => stepBad O (s p).mesh (r p).1) (fun p t => .ret (if t ≠ 0 then .bad else finish O (r p).2 (r p).1)) (fun p hp => rfl) (.ret fun p hp => rfl))
      have hmeas : ∀ p ∈ P, ∀ m, (r p).1 = some m → m.meas = (c p).meas := by
        intro p hp m hm
        rcases hrr with h | ⟨n, h⟩
        · rw [h p] at hm; simp only [Option.some.injEq] at hm; rw [← hm]
        · rw [h p] at hm; exact hw.ctr_meas l n p hp m (c p) hm (hc p hp)
      have hlt : ∀ p ∈ P, (c p).meas < (s p).mesh.meas := by
        intro p hp
        have := hokp p hp
        simp only [mapOK, Bool.and_eq_true, decide_eq_true_eq] at this
        exact this.1
      refine ⟨_, key _ (Runs.congr (fun p hp => ?_) hbody), ?_⟩
      · rw [hc p hp]
        simp only [tryCoarse, if_pos (hokp p hp)]
      by_cases hz : (∑ q ∈ P, stepBad O (s q).mesh (r q).1) = 0
      · have hz' : ∀ q ∈ P, stepBad O (s q).mesh (r q).1 = 0 := fun q hq => by
          by_contra hne
          exact absurd hz (Nat.pos_iff_ne_zero.1 (lt_of_lt_of_le (Nat.pos_of_ne_zero hne) (Finset.single_le_sum (f := fun q => stepBad O (s q).mesh (r q).1) (fun _ _ => Nat.zero_le _) hq)))
        refine .step r (fun p hp => if_neg (not_not.2 hz)) (fun p hp m hm => ?_) (fun p hp => ⟨c p, hc p hp, hokp p hp, hmeas p hp⟩) ?_ ?_ ?_ ?_ ?_
        · have h := hz' p hp
          rw [hm] at h
          simp only [stepBad] at h
          split at h
          · exact absurd h one_ne_zero
          · rename_i hn
            push Not at hn
            refine ⟨?_, Nat.pos_of_ne_zero hn.1, hn.2.1⟩
            rw [hmeas p hp m hm]; exact hlt p hp
        · intro p hp q hq m m' hm hm'
          rcases hrr with h | ⟨n, h⟩
          · rw [h p] at hm; rw [h q] at hm'
            simp only [Option.some.injEq] at hm hm'
            rw [← hm, ← hm']; exact hsame p hp q hq
          · rw [h p] at hm; rw [h q] at hm'
            exact hw.ctr_same l n p hp q hq m m' hm hm'
        · intro p hp
          rcases hrr with h | ⟨n, h⟩
          · rw [h p]; exact startLevel_level _
          · rw [h p]; exact startLevel_level _
        · intro p hp q hq
          rcases hrr with h | ⟨n, h⟩
          · rw [h p, h q]; exact hs2.first p hp q hq
          · rw [h p, h q]; rfl
        · intro p hp q hq
          rcases hrr with h | ⟨n, h⟩
          · rw [h p, h q]; exact hs2.last p hp q hq
          · rw [h p, h q]; exact (hsame p hp q hq).meas
        · intro p hp q hq
          rcases hrr with h | ⟨n, h⟩
          · rw [h p, h q]; exact hs2.need p hp q hq
          · rw [h p, h q]; rfl
      · refine .bad (fun p hp => if_pos hz) (fun p hp c' hc' => ?_)
        obtain ⟨q, hq, hq0⟩ := Finset.exists_ne_zero_of_sum_ne_zero hz
        rw [hc p hp, Option.some.injEq] at hc'
        subst hc'
        cases hm : (r q).1 with
        | none => rw [hm] at hq0; exact absurd rfl hq0
        | some m =>
          rw [hm] at hq0
          simp only [stepBad] at hq0
          split at hq0
          · rename_i h
            rw [hmeas q hq m hm, (hsame q hq p hp).meas] at h
            rcases h with h | h | h
            · exact Or.inl h
            · exact Or.inr h
            · have := hlt p hp
              have e : (s p).mesh.meas = (s q).mesh.meas := (hs.mesh p hp q hq).meas
              omega
          · exact absurd rfl hq0
    · have hokp : ∀ p ∈ P, ¬ mapOK O (s p).mesh.meas (c p).meas = true := fun p hp => by rw [(hs.mesh p hp p0 h0).meas, (hsame p hp p0 h0).meas]; exact hok
      refine ⟨fun _ => .stuck, key _ (.ret fun p hp => ?_), .stuck (fun p hp => rfl) (fun p hp c' hc' => ?_)⟩
      · rw [hc p hp]
        simp only [tryCoarse, if_neg (hokp p hp)]
      · rw [hc p hp, Option.some.injEq] at hc'
        subst hc'
        exact hokp p hp

end NgsAMG.LC
