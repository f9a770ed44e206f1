import Verif.Props.EQC2

/-!
# Properties of the equivalence-class hierarchy, part 3: identifiers of the classes (C58)
-/

namespace NgsAMG.EQC

open NgsAMG.Exch NgsAMG.DCC

/-! ### the order of the classes depends only on the set of processes -/

/-- order of sets: by size, then by the smallest element in which they differ -/
def SetLt (S T : Finset ℕ) : Prop :=
  S.card < T.card ∨ (S.card = T.card ∧ ∃ m ∈ S, m ∉ T ∧ ∀ x < m, x ∈ S ↔ x ∈ T)

theorem lexLt_iff (a b : List ℕ) (ha : SL a) (hb : SL b) (hl : a.length = b.length) :
    lexLt a b = true ↔ ∃ m ∈ a, m ∉ b ∧ ∀ x < m, x ∈ a ↔ x ∈ b := by
  induction a generalizing b with
  | nil => cases b <;> simp [lexLt] at hl ⊢
  | cons a as ih =>
    cases b with
    | nil => simp at hl
    | cons b bs =>
      have hA := List.pairwise_cons.mp ha
      have hB := List.pairwise_cons.mp hb
      rw [lexLt]
      by_cases h1 : a < b
      · rw [if_pos h1]
        simp only [true_iff]
        refine ⟨a, by simp, ?_, ?_⟩
        · intro h
          rcases List.mem_cons.mp h with h | h
          · omega
          · have := hB.1 a h; omega
        · intro x hx
          constructor
          · intro h
            rcases List.mem_cons.mp h with h | h
            · omega
            · have := hA.1 x h; omega
          · intro h
            rcases List.mem_cons.mp h with h | h
            · omega
            · have := hB.1 x h; omega
      · rw [if_neg h1]
        by_cases h2 : b < a
        · rw [if_pos h2]
          simp only [Bool.false_eq_true, false_iff]
          rintro ⟨m, hm, hmb, hx⟩
          have hbm : b < m := by
            rcases List.mem_cons.mp hm with h | h
            · omega
            · have := hA.1 m h; omega
          have := (hx b hbm).mpr (by simp)
          rcases List.mem_cons.mp this with h | h
          · omega
          · have := hA.1 b h; omega
        · rw [if_neg h2]
          have hab : a = b := by omega
          subst hab
          rw [ih bs hA.2 hB.2 (by simpa using hl)]
          constructor
          · rintro ⟨m, hm, hmb, hx⟩
            have ham := hA.1 m hm
            refine ⟨m, by simp [hm], ?_, ?_⟩
            · intro h
              rcases List.mem_cons.mp h with h | h
              · omega
              · exact hmb h
            · intro x hxm
              simp only [List.mem_cons, hx x hxm]
          · rintro ⟨m, hm, hmb, hx⟩
            simp only [List.mem_cons, not_or] at hmb
            refine ⟨m, ?_, hmb.2, ?_⟩
            · rcases List.mem_cons.mp hm with h | h
              · exact absurd h hmb.1
              · exact h
            · intro x hxm
              have := hx x hxm
              simp only [List.mem_cons] at this
              constructor
              · intro h
                rcases this.mp (Or.inr h) with h' | h'
                · have := hA.1 x h; omega
                · exact h'
              · intro h
                rcases this.mpr (Or.inr h) with h' | h'
                · have := hB.1 x h; omega
                · exact h'

theorem members_card {np p : ℕ} {d : List ℕ} (h : Valid np p d) : (members p d).card = d.length + 1 := by
  unfold members
  rw [Finset.card_insert_of_notMem (by simpa using h.notSelf),
    List.toFinset_card_of_nodup (h.sorted.imp fun h => Nat.ne_of_lt h)]

theorem eqLt_iff {np p : ℕ} {a b : List ℕ} (ha : Valid np p a) (hb : Valid np p b) :
    eqLt a b = true ↔ SetLt (members p a) (members p b) := by
  unfold eqLt SetLt
  rw [members_card ha, members_card hb]
  split_ifs with h1 h2
  · simp only [Bool.false_eq_true, false_iff]
    rintro (h | ⟨h, -⟩) <;> omega
  · simp only [true_iff]; left; omega
  · have hl : a.length = b.length := by omega
    rw [lexLt_iff a b ha.sorted hb.sorted hl]
    constructor
    · rintro ⟨m, hm, hmb, hx⟩
      refine Or.inr ⟨by omega, m, mem_members.mpr (Or.inr hm), ?_, ?_⟩
      · intro h
        rcases mem_members.mp h with rfl | h
        · exact ha.notSelf hm
        · exact hmb h
      · intro x hxm
        rw [mem_members, mem_members, hx x hxm]
    · rintro (h | ⟨-, m, hm, hmb, hx⟩)
      · omega
      · rw [mem_members, not_or] at hmb
        refine ⟨m, ?_, hmb.2, ?_⟩
        · rcases mem_members.mp hm with h | h
          · exact absurd h hmb.1
          · exact h
        · intro x hxm
          have := hx x hxm
          rw [mem_members, mem_members] at this
          by_cases hxp : x = p
          · subst hxp
            exact ⟨fun h => absurd h ha.notSelf, fun h => absurd h hb.notSelf⟩
          · simpa [hxp] using this

theorem setLt_asymm {S T : Finset ℕ} (h1 : SetLt S T) (h2 : SetLt T S) : False := by
  rcases h1 with h1 | ⟨h1, m, hm, hmT, hx⟩
  · rcases h2 with h2 | ⟨h2, -⟩ <;> omega
  · rcases h2 with h2 | ⟨-, n, hn, hnS, hy⟩
    · omega
    · rcases Nat.lt_trichotomy m n with h | h | h
      · exact hmT ((hy m h).mpr hm)
      · subst h; exact hmT hn
      · exact hnS ((hx n h).mpr hn)

theorem lexLt_total (a b : List ℕ) (hl : a.length = b.length) (h : a ≠ b) (hn : lexLt b a = false) : lexLt a b = true := by
  induction a generalizing b with
  | nil => cases b with
    | nil => exact absurd rfl h
    | cons b bs => simp at hl
  | cons a as ih =>
    cases b with
    | nil => simp at hl
    | cons b bs =>
      rw [lexLt] at hn ⊢
      split_ifs at hn ⊢ with h1 h2 <;> first | omega | rfl | skip
      have hab : a = b := by omega
      subst hab
      exact ih bs (by simpa using hl) (fun he => h (by rw [he])) hn

theorem eqLt_total (a b : List ℕ) (h : a ≠ b) (hn : eqLt b a = false) : eqLt a b = true := by
  unfold eqLt at *
  by_cases h1 : b.length < a.length
  · rw [if_neg (by omega), if_pos h1] at hn
    exact absurd hn (by simp)
  · by_cases h2 : a.length < b.length
    · rw [if_neg h1, if_pos h2]
    · rw [if_neg h2, if_neg h1] at hn
      rw [if_neg h1, if_neg h2]
      exact lexLt_total a b (by omega) h hn

theorem lexLt_asymm (a b : List ℕ) (h : lexLt a b = true) : lexLt b a = false := by
  induction a generalizing b with
  | nil => cases b <;> rfl
  | cons a as ih =>
    cases b with
    | nil => rfl
    | cons b bs =>
      rw [lexLt] at *
      by_cases h1 : b < a
      · rw [if_neg (by omega), if_pos h1] at h
        exact absurd h (by simp)
      · rw [if_neg h1]
        by_cases h2 : a < b
        · rw [if_pos h2]
        · rw [if_neg h2]
          rw [if_neg h2, if_neg h1] at h
          exact ih bs h

theorem lexLt_trans_ge (a b c : List ℕ) (h1 : a.length = b.length) (h2 : b.length = c.length) (hab : lexLt b a = false)
    (hbc : lexLt c b = false) : lexLt c a = false := by
  induction a generalizing b c with
  | nil => cases c <;> simp [lexLt]
  | cons a as ih =>
    cases b with
    | nil => simp at h1
    | cons b bs =>
      cases c with
      | nil => simp at h2
      | cons c cs =>
        rw [lexLt] at *
        split_ifs at * <;> first | omega | rfl | simp at * | skip
        exact ih bs cs (by simpa using h1) (by simpa using h2) hab hbc

/-- the sorted table is in strictly ascending order -/
theorem sortEqcs_pairwise (F : List (List ℕ)) (hn : F.Nodup) : (sortEqcs F).Pairwise fun a b => eqLt a b = true := by
  have htot : Std.Total fun a b : List ℕ => eqLt b a = false := by
    constructor
    intro a b
    by_cases h : eqLt b a = false
    · exact Or.inl h
    · right
      rw [Bool.not_eq_false] at h
      unfold eqLt at *
      by_cases h1 : a.length < b.length
      · rw [if_pos h1] at h; exact absurd h (by simp)
      · by_cases h2 : b.length < a.length
        · rw [if_pos h2]
        · rw [if_neg h1, if_neg h2] at h
          rw [if_neg h2, if_neg h1]
          exact lexLt_asymm _ _ h
  have htr : IsTrans (List ℕ) fun a b : List ℕ => eqLt b a = false := by
    constructor
    intro a b c h1 h2
    unfold eqLt at *
    by_cases k1 : a.length < c.length
    · rw [if_pos k1]
    · by_cases k2 : c.length < a.length
      · exfalso
        by_cases k3 : a.length < b.length
        · rw [if_neg (by omega), if_pos (by omega)] at h2; exact absurd h2 (by simp)
        · rw [if_neg k3] at h1
          by_cases k4 : b.length < a.length
          · rw [if_pos k4] at h1; exact absurd h1 (by simp)
          · rw [if_neg (by omega), if_pos (by omega)] at h2; exact absurd h2 (by simp)
      · rw [if_neg k1, if_neg k2]
        by_cases k3 : a.length < b.length
        · rw [if_neg (by omega), if_pos (by omega)] at h2; exact absurd h2 (by simp)
        · by_cases k4 : b.length < a.length
          · rw [if_neg k3, if_pos k4] at h1; exact absurd h1 (by simp)
          · rw [if_neg k3, if_neg k4] at h1
            rw [if_neg (by omega), if_neg (by omega)] at h2
            exact lexLt_trans_ge a b c (by omega) (by omega) h1 h2
  have h1 : (sortEqcs F).Pairwise fun a b => eqLt b a = false := List.pairwise_insertionSort (fun a b => eqLt b a = false) F
  have h2 : (sortEqcs F).Nodup := (sortEqcs_perm F).nodup_iff.mpr hn
  exact (h1.and h2).imp fun h => eqLt_total _ _ h.2 h.1

/-! ### the identifiers -/

/-- `p` is the master of a shared class -/
def MasterNE (p : ℕ) (d : List ℕ) : Bool := !d.isEmpty && isMaster p d

theorem sendIds_eq (p q : ℕ) (f : List ℕ → ℕ) (T : List (List ℕ)) (t : ℕ)
    (h : (T.filter (MasterNE p)).map f = List.range' t (T.filter (MasterNE p)).length) :
    sendIds p q T t = (T.filter fun d => MasterNE p d && d.contains q).map f := by
  induction T generalizing t with
  | nil => rfl
  | cons d T ih =>
    rw [sendIds]
    by_cases hm : MasterNE p d = true
    · have hm' : (!d.isEmpty && isMaster p d) = true := hm
      rw [if_pos hm']
      rw [List.filter_cons_of_pos hm, List.map_cons, List.length_cons, List.range'_succ] at h
      injection h with hd ht
      by_cases hq : d.contains q = true
      · rw [if_pos hq, List.filter_cons_of_pos (by simpa [hm] using hq), List.map_cons, hd, ih _ ht]
      · rw [if_neg hq, List.filter_cons_of_neg (by simp [hm]; simpa using hq), ih _ ht]
    · have hm' : ¬ (!d.isEmpty && isMaster p d) = true := hm
      rw [if_neg hm']
      rw [List.filter_cons_of_neg hm] at h
      rw [List.filter_cons_of_neg (by simp [hm]), ih _ h]

/-- a class whose master is another process `h` -/
def SlaveOf (p h : ℕ) (d : List ℕ) : Bool := !isMaster p d && (d.head? == some h)

theorem assignIds_eq (p : ℕ) (f : List ℕ → ℕ) (T : List (List ℕ)) (t : ℕ) (Q : ℕ → List ℕ)
    (h0 : [] ∈ T → f [] = tagBase + p)
    (h1 : (T.filter (MasterNE p)).map f = List.range' t (T.filter (MasterNE p)).length)
    (h2 : ∀ h, (T.filter (SlaveOf p h)) ≠ [] → Q h = (T.filter (SlaveOf p h)).map f) :
    assignIds p T t Q = some (T.map f) := by
  induction T generalizing t Q with
  | nil => rfl
  | cons d T ih =>
    cases d with
    | nil =>
      rw [assignIds, ih t Q (fun h => h0 (by simp [h])) (by simpa [MasterNE] using h1)
        (fun h hne => by
          have := h2 h
          rw [List.filter_cons_of_neg (by simp [SlaveOf, isMaster])] at this
          exact this hne)]
      rw [List.map_cons, h0 (by simp)]
      rfl
    | cons h ds =>
      rw [assignIds]
      by_cases hm : p < h
      · rw [if_pos hm]
        have hM : MasterNE p (h :: ds) = true := by simp [MasterNE, isMaster, hm]
        rw [List.filter_cons_of_pos hM, List.map_cons, List.length_cons, List.range'_succ] at h1
        injection h1 with hd ht
        rw [ih (t + 1) Q (fun h => h0 (by simp [h])) ht
          (fun h' hne => by
            have := h2 h'
            rw [List.filter_cons_of_neg (by simp [SlaveOf, isMaster, hm])] at this
            exact this hne)]
        rw [List.map_cons, hd]
        rfl
      · rw [if_neg hm]
        have hM : ¬ MasterNE p (h :: ds) = true := by simp [MasterNE, isMaster]; omega
        rw [List.filter_cons_of_neg hM] at h1
        have hS : SlaveOf p h (h :: ds) = true := by simp [SlaveOf, isMaster]; omega
        have hQ := h2 h
        rw [List.filter_cons_of_pos hS] at hQ
        rw [hQ (by simp), List.map_cons]
        dsimp only
        rw [ih t (Function.update Q h ((T.filter (SlaveOf p h)).map f)) (fun h => h0 (by simp [h])) h1 ?_]
        · rfl
        · intro h' hne
          by_cases hh : h' = h
          · subst hh; rw [Function.update_self]
          · rw [Function.update_of_ne hh]
            have := h2 h'
            rw [List.filter_cons_of_neg (by simp [SlaveOf]; intro _ e; exact absurd e.symm hh)] at this
            exact this hne

end NgsAMG.EQC
