import Verif.Model.DofMaps
import Verif.Spec.DofNumbering
import Mathlib.Algebra.BigOperators.Group.List.Basic
import Mathlib.Tactic.Linarith
import Mathlib.Tactic.Ring

/-!
# C94: places of the degrees of freedom; sequences of assignments
-/

namespace NgsAMG.DofM
open NgsAMG.Spec

/-! ### places -/

theorem slot_at {nv : ℕ} {bs : List ℕ} {t b : ℕ} (h : bs[t]? = some b) {v j : ℕ} (hv : v < nv) (hj : j < b) :
    slot nv bs (nv * (bs.take t).sum + v * b + j) = some (v, (bs.take t).sum + j) := by
  induction bs generalizing t with
  | nil => simp at h
  | cons a bs ih =>
    cases t with
    | zero =>
      simp only [List.getElem?_cons_zero, Option.some.injEq] at h
      subst h
      have h1 : v * a + j < nv * a := by nlinarith
      have hd : (v * a + j) / a = v := by
        rw [Nat.mul_comm, Nat.mul_add_div (by omega), Nat.div_eq_of_lt hj, Nat.add_zero]
      have hm : (v * a + j) % a = j := by rw [Nat.mul_comm, Nat.mul_add_mod, Nat.mod_eq_of_lt hj]
      simp [slot, h1, hd, hm]
    | succ t =>
      simp only [List.getElem?_cons_succ] at h
      have := ih h
      have h1 : ¬ nv * ((a :: bs).take (t + 1)).sum + v * b + j < nv * a := by
        simp only [List.take_succ_cons, List.sum_cons]
        nlinarith [Nat.zero_le (nv * (bs.take t).sum)]
      have h2 : nv * ((a :: bs).take (t + 1)).sum + v * b + j - nv * a = nv * (bs.take t).sum + v * b + j := by
        simp only [List.take_succ_cons, List.sum_cons, Nat.mul_add]
        omega
      rw [slot, if_neg h1, h2, this]
      simp [Nat.add_assoc]

theorem sum_take_succ {bs : List ℕ} {t b : ℕ} (h : bs[t]? = some b) : (bs.take (t + 1)).sum = (bs.take t).sum + b := by
  rw [List.take_add_one, h, Option.toList_some, List.sum_append]; simp

theorem sum_take_mono (bs : List ℕ) {s t : ℕ} (h : s ≤ t) : (bs.take s).sum ≤ (bs.take t).sum := by
  obtain ⟨u, rfl⟩ := Nat.exists_eq_add_of_le h
  rw [List.take_add, List.sum_append]; omega

theorem sum_take_le (bs : List ℕ) (t : ℕ) : (bs.take t).sum ≤ bs.sum := by
  conv_rhs => rw [← List.take_append_drop t bs, List.sum_append]
  omega

/-- the places of a vertex and a component -/
theorem slot_iff {nv : ℕ} {bs : List ℕ} {k v c : ℕ} : slot nv bs k = some (v, c) ↔
    ∃ t b j, bs[t]? = some b ∧ v < nv ∧ j < b ∧ c = (bs.take t).sum + j ∧ k = nv * (bs.take t).sum + v * b + j := by
  constructor
  · intro h
    induction bs generalizing k c with
    | nil => simp [slot] at h
    | cons b bs ih =>
      unfold slot at h
      split at h
      · rename_i hk
        simp only [Option.some.injEq, Prod.mk.injEq] at h
        have hb : 0 < b := by
          rcases Nat.eq_zero_or_pos b with h0 | h0
          · subst h0; simp at hk
          · exact h0
        refine ⟨0, b, k % b, rfl, ?_, Nat.mod_lt _ hb, by simp [h.2], ?_⟩
        · rw [← h.1]; exact Nat.div_lt_of_lt_mul (by rwa [Nat.mul_comm] at hk)
        · rw [← h.1]; simp [Nat.div_add_mod']
      · rename_i hk
        rw [Option.map_eq_some_iff] at h
        obtain ⟨⟨v', c'⟩, h1, h2⟩ := h
        simp only [Prod.mk.injEq] at h2
        obtain ⟨rfl, rfl⟩ := h2
        obtain ⟨t, b', j, g1, g2, g3, g4, g5⟩ := ih h1
        refine ⟨t + 1, b', j, by simpa using g1, g2, g3, by simp [g4, Nat.add_assoc], ?_⟩
        simp only [List.take_succ_cons, List.sum_cons, Nat.mul_add]
        omega
  · rintro ⟨t, b, j, h1, h2, h3, rfl, rfl⟩
    exact slot_at h1 h2 h3

theorem slot_lt {nv : ℕ} {bs : List ℕ} {k v c : ℕ} (h : slot nv bs k = some (v, c)) : v < nv ∧ c < bs.sum ∧ k < nv * bs.sum := by
  obtain ⟨t, b, j, h1, h2, h3, rfl, rfl⟩ := slot_iff.mp h
  have e := sum_take_succ h1
  have e2 := sum_take_le bs (t + 1)
  refine ⟨h2, by omega, ?_⟩
  have : nv * ((bs.take t).sum + b) ≤ nv * bs.sum := Nat.mul_le_mul_left _ (by omega)
  nlinarith

theorem slot_some {nv : ℕ} {bs : List ℕ} {k : ℕ} (h : k < nv * bs.sum) : ∃ v c, slot nv bs k = some (v, c) := by
  induction bs generalizing k with
  | nil => simp at h
  | cons b bs ih =>
    unfold slot
    split
    · exact ⟨_, _, rfl⟩
    · rename_i hk
      obtain ⟨v, c, hs⟩ := ih (k := k - nv * b) (by rw [List.sum_cons, Nat.mul_add] at h; omega)
      exact ⟨v, b + c, by rw [hs]; rfl⟩

/-- positions within a sum -/
theorem locate_comp {bs : List ℕ} {t t' b b' j j' : ℕ} (h : bs[t]? = some b) (h' : bs[t']? = some b') (hj : j < b) (hj' : j' < b')
    (he : (bs.take t).sum + j ≤ (bs.take t').sum + j') : t < t' ∨ (t = t' ∧ j ≤ j') := by
  rcases Nat.lt_trichotomy t t' with hlt | rfl | hlt
  · exact Or.inl hlt
  · exact Or.inr ⟨rfl, by omega⟩
  · exfalso
    have e := sum_take_succ h'
    have m := sum_take_mono bs (show t' + 1 ≤ t by omega)
    omega

/-- components of a vertex are in the order of the degrees of freedom -/
theorem slot_mono {nv : ℕ} {bs : List ℕ} {k k' v c c' : ℕ} (h : slot nv bs k = some (v, c)) (h' : slot nv bs k' = some (v, c')) : c ≤ c' ↔ k ≤ k' := by
  obtain ⟨t, b, j, h1, h2, h3, rfl, rfl⟩ := slot_iff.mp h
  obtain ⟨t', b', j', g1, g2, g3, rfl, rfl⟩ := slot_iff.mp h'
  have key : ∀ {t t' b b' j j' : ℕ}, bs[t]? = some b → bs[t']? = some b' → j < b → j' < b' → (t < t' ∨ (t = t' ∧ j ≤ j')) →
      (bs.take t).sum + j ≤ (bs.take t').sum + j' ∧ nv * (bs.take t).sum + v * b + j ≤ nv * (bs.take t').sum + v * b' + j' := by
    intro t t' b b' j j' h1 g1 h3 g3 h
    rcases h with hlt | ⟨rfl, hle⟩
    · have e := sum_take_succ h1
      have m := sum_take_mono bs (show t + 1 ≤ t' by omega)
      have mm : nv * ((bs.take t).sum + b) ≤ nv * (bs.take t').sum := Nat.mul_le_mul_left _ (by omega)
      refine ⟨by omega, ?_⟩
      nlinarith
    · rw [h1] at g1; cases g1
      exact ⟨by omega, by omega⟩
  constructor
  · intro hc
    exact (key h1 g1 h3 g3 (locate_comp h1 g1 h3 g3 hc)).2
  · intro hk
    by_contra hc
    push Not at hc
    have h5 := locate_comp g1 h1 g3 h3 hc.le
    have h6 := (key g1 h1 g3 h3 h5).2
    have h7 : t' < t ∨ (t' = t ∧ j' < j) := by
      rcases h5 with h | ⟨rfl, h⟩
      · exact Or.inl h
      · refine Or.inr ⟨rfl, by omega⟩
    rcases h7 with hlt | ⟨rfl, hlt⟩
    · have e := sum_take_succ g1
      have m := sum_take_mono bs (show t' + 1 ≤ t by omega)
      have mm : nv * ((bs.take t').sum + b') ≤ nv * (bs.take t).sum := Nat.mul_le_mul_left _ (by omega)
      nlinarith
    · rw [h1] at g1; cases g1
      omega

theorem slot_inj {nv : ℕ} {bs : List ℕ} {k k' : ℕ} {p : ℕ × ℕ} (h : slot nv bs k = some p) (h' : slot nv bs k' = some p) : k = k' := by
  obtain ⟨v, c⟩ := p
  exact le_antisymm ((slot_mono h h').mp le_rfl) ((slot_mono h' h).mp le_rfl)

/-- every component of every vertex has a place -/
theorem slot_surj {nv : ℕ} {bs : List ℕ} {v c : ℕ} (hv : v < nv) (hc : c < bs.sum) : ∃ k, slot nv bs k = some (v, c) := by
  suffices h : ∀ (bs : List ℕ) (c : ℕ), c < bs.sum → ∃ t b j, bs[t]? = some b ∧ j < b ∧ c = (bs.take t).sum + j by
    obtain ⟨t, b, j, h1, h2, rfl⟩ := h bs c hc
    exact ⟨_, slot_at h1 hv h2⟩
  intro bs
  induction bs with
  | nil => intro c h; simp at h
  | cons b bs ih =>
    intro c h
    by_cases hb : c < b
    · exact ⟨0, b, c, rfl, hb, by simp⟩
    · rw [List.sum_cons] at h
      obtain ⟨t, b', j, h1, h2, h3⟩ := ih (c - b) (by omega)
      exact ⟨t + 1, b', j, by simpa using h1, h2, by simp only [List.take_succ_cons, List.sum_cons]; omega⟩

/-! ### assignments -/

/-- the assignment for the `k`-th chosen degree of freedom -/
def asg (nv : ℕ) (bs D : List ℕ) (m : Maps) (k : ℕ) : Option Maps :=
  (D[k]?).bind fun d => (slot nv bs k).bind fun p => putMaps m d p.1 (p.1 * bs.sum + p.2)

/-- what holds after the first `k` assignments -/
structure After (ndof nv : ℕ) (bs D : List ℕ) (k : ℕ) (m : Maps) : Prop where
  len : m.d2v.length = ndof
  size : m.v2d.length = nv * bs.sum
  on : ∀ (i d v c : ℕ), i < k → D[i]? = some d → slot nv bs i = some (v, c) → m.d2v[d]? = some (some v) ∧ m.v2d[v * bs.sum + c]? = some (some d)
  off : ∀ d < ndof, (∀ i < k, D[i]? ≠ some d) → m.d2v[d]? = some none

theorem after_zero (ndof nv : ℕ) (bs D : List ℕ) : After ndof nv bs D 0 (initMaps ndof (nv * bs.sum)) :=
  ⟨by simp [initMaps], by simp [initMaps], fun i _ _ _ h => absurd h (by omega), fun d hd _ => by simp [initMaps, hd]⟩

theorem place_lt {nv n v c : ℕ} (hv : v < nv) (hc : c < n) : v * n + c < nv * n := by nlinarith

theorem place_inj {n v c v' c' : ℕ} (hc : c < n) (hc' : c' < n) (h : v * n + c = v' * n + c') : v = v' ∧ c = c' := by
  have h1 : (v * n + c) / n = v := by rw [Nat.mul_comm, Nat.mul_add_div (by omega), Nat.div_eq_of_lt hc, Nat.add_zero]
  have h2 : (v' * n + c') / n = v' := by rw [Nat.mul_comm, Nat.mul_add_div (by omega), Nat.div_eq_of_lt hc', Nat.add_zero]
  have : v = v' := by rw [← h1, ← h2, h]
  subst this
  exact ⟨rfl, by omega⟩

theorem after_succ {ndof nv : ℕ} {bs D : List ℕ} (hnd : D.Nodup) (hlt : ∀ d ∈ D, d < ndof) {k d v c : ℕ} {m : Maps} (h : After ndof nv bs D k m)
    (hd : D[k]? = some d) (hs : slot nv bs k = some (v, c)) : ∃ m', putMaps m d v (v * bs.sum + c) = some m' ∧ After ndof nv bs D (k + 1) m' := by
  obtain ⟨hv, hc, hk⟩ := slot_lt hs
  have hd1 : d < ndof := hlt d (List.mem_of_getElem? hd)
  have hp := place_lt hv hc
  refine ⟨⟨m.d2v.set d (some v), m.v2d.set (v * bs.sum + c) (some d)⟩, by unfold putMaps; rw [if_pos ⟨by rw [h.len]; exact hd1, by rw [h.size]; exact hp⟩], ?_⟩
  refine ⟨by simp [h.len], by simp [h.size], ?_, ?_⟩
  · intro i e v' c' hi hie hsi
    dsimp only
    rcases Nat.lt_succ_iff_lt_or_eq.mp hi with hi | rfl
    · obtain ⟨g1, g2⟩ := h.on i e v' c' hi hie hsi
      have hne : d ≠ e := by
        rintro rfl
        have := (List.getElem?_inj (List.getElem?_eq_some_iff.mp hie).1 hnd).mp (hie.trans hd.symm)
        omega
      have hne2 : v * bs.sum + c ≠ v' * bs.sum + c' := by
        intro he
        obtain ⟨rfl, rfl⟩ := place_inj hc (slot_lt hsi).2.1 he
        have := slot_inj hs hsi
        omega
      rw [List.getElem?_set_ne hne, List.getElem?_set_ne hne2]
      exact ⟨g1, g2⟩
    · rw [hd] at hie; cases hie
      rw [hs] at hsi; cases hsi
      rw [List.getElem?_set_self (by rw [h.len]; exact hd1), List.getElem?_set_self (by rw [h.size]; exact hp)]
      exact ⟨rfl, rfl⟩
  · intro e he hno
    dsimp only
    have hne : d ≠ e := fun heq => hno k (by omega) (by rw [hd, heq])
    rw [List.getElem?_set_ne hne]
    exact h.off e he fun i hi => hno i (by omega)

theorem after_end {ndof nv : ℕ} {bs D : List ℕ} {m : Maps} (hl : D.length = nv * bs.sum) (h : After ndof nv bs D D.length m) :
    Numbering ndof nv bs D id m.d2v m.v2d := by
  refine ⟨h.len, h.size, ?_, ?_⟩
  · intro k d v c hd hs
    exact h.on k d v c (by rw [hl]; exact (slot_lt hs).2.2) hd hs
  · intro d hd hno
    exact h.off d hd fun i _ hi => hno (List.mem_of_getElem? hi)

end NgsAMG.DofM
