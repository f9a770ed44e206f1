import Verif.Model.DCC
import Verif.Props.Exchange
import Verif.Props.Traversal
import Mathlib.Algebra.BigOperators.Group.Finset.Basic
import Mathlib.Algebra.BigOperators.Group.Finset.Piecewise

/-! C18: vector status conversion preserves the represented global vector. -/

namespace NgsAMG.DCC

open NgsAMG.Exch NgsAMG.Traversal

/-! ### specification -/

/-- what NGSolve guarantees: a process has a global DOF at most once, and two processes number the DOFs they share in the same
order -/
structure PD.WF (P : PD) : Prop where
  inj : ∀ p < P.np, ∀ d < P.ndof p, ∀ e < P.ndof p, P.glob p d = P.glob p e → d = e
  mono : ∀ p < P.np, ∀ q < P.np, ∀ d < P.ndof p, ∀ d' < P.ndof p, ∀ e < P.ndof q, ∀ e' < P.ndof q,
    P.glob p d = P.glob q e → P.glob p d' = P.glob q e' → d < d' → e < e'

/-- the global vector represented by a distributed vector: sum over all copies -/
def gsum {M : Type*} [AddCommMonoid M] (P : PD) (v : ℕ → ℕ → M) (g : ℕ) : M :=
  ∑ p ∈ Finset.range P.np, ∑ d ∈ Finset.range (P.ndof p), if P.glob p d = g then v p d else 0

/-- the master of a global DOF: the lowest rank that has it -/
def PD.owner (P : PD) (g : ℕ) : ℕ := ((List.range P.np).find? fun q => P.shares q g).getD 0

/-- the local number of a global DOF -/
def PD.loc (P : PD) (q g : ℕ) : ℕ := ((List.range (P.ndof q)).find? fun e => P.glob q e == g).getD 0

/-! ### the sharing pattern -/

section
variable {P : PD}

theorem shares_iff {q g : ℕ} : P.shares q g = true ↔ ∃ e < P.ndof q, P.glob q e = g := by simp [PD.shares]

theorem shares_glob {p d : ℕ} (hd : d < P.ndof p) : P.shares p (P.glob p d) = true := shares_iff.2 ⟨d, hd, rfl⟩

theorem loc_spec {q g : ℕ} (h : P.shares q g = true) : P.loc q g < P.ndof q ∧ P.glob q (P.loc q g) = g := by
  obtain ⟨e, he, hg⟩ := shares_iff.1 h
  rw [PD.loc]
  cases hf : (List.range (P.ndof q)).find? fun e => P.glob q e == g with
  | none =>
    rw [List.find?_eq_none] at hf
    exact absurd (by simpa using hg) (hf e (by simpa using he))
  | some x =>
    have h1 := List.find?_some hf
    have h2 := List.mem_of_find?_eq_some hf
    simp only [Option.getD_some]
    exact ⟨by simpa using h2, by simpa using h1⟩

theorem loc_glob (hP : P.WF) {p d : ℕ} (hp : p < P.np) (hd : d < P.ndof p) : P.loc p (P.glob p d) = d := by
  have h := loc_spec (shares_glob hd)
  exact hP.inj p hp _ h.1 _ hd h.2

theorem owner_spec {p g : ℕ} (hp : p < P.np) (h : P.shares p g = true) :
    P.shares (P.owner g) g = true ∧ P.owner g ≤ p ∧ ∀ q < P.owner g, P.shares q g = false := by
  have hf : ∃ x, (List.range P.np).find? (fun q => P.shares q g) = some x := by
    cases hf : (List.range P.np).find? fun q => P.shares q g with
    | none =>
      rw [List.find?_eq_none] at hf
      exact absurd h (hf p (by simpa using hp))
    | some x => exact ⟨x, rfl⟩
  obtain ⟨x, hx⟩ := hf
  have how : P.owner g = x := by simp [PD.owner, hx]
  rw [how]
  rw [List.find?_range_eq_some] at hx
  obtain ⟨h1, h2, h3⟩ := hx
  refine ⟨h1, ?_, fun q hq => by simpa using h3 q hq⟩
  by_contra hlt
  have := h3 p (by omega)
  rw [h] at this
  simp at this

theorem owner_eq {q g : ℕ} (hq : q < P.np) (h : P.shares q g = true) (hlow : ∀ r < q, P.shares r g = false) :
    P.owner g = q := by
  have := owner_spec hq h
  by_contra hne
  have := hlow (P.owner g) (by omega)
  simp_all

theorem mem_dps {p d q : ℕ} : q ∈ P.dps p d ↔ q < P.np ∧ q ≠ p ∧ P.shares q (P.glob p d) = true := by
  simp [PD.dps]

theorem dps_sorted (p d : ℕ) : (P.dps p d).Pairwise (· < ·) := by
  rw [PD.dps]; exact (List.pairwise_lt_range).filter _

/-- a DOF is a ghost iff another process is its owner, and then the owner is the first of the sharing processes -/
theorem ghost_iff {p d : ℕ} (hp : p < P.np) (hd : d < P.ndof p) :
    (P.ghost p d = true ↔ P.owner (P.glob p d) ≠ p) ∧
      (P.ghost p d = true → (P.dps p d).head? = some (P.owner (P.glob p d))) := by
  have ho := owner_spec hp (shares_glob hd)
  have hs := dps_sorted (P := P) p d
  rw [PD.ghost]
  cases hl : P.dps p d with
  | nil =>
    simp only [Bool.false_eq_true, ne_eq, false_iff, not_not, List.head?_nil, false_implies, and_true]
    by_contra hne
    have : P.owner (P.glob p d) ∈ P.dps p d := mem_dps.2 ⟨by omega, hne, ho.1⟩
    rw [hl] at this
    simp at this
  | cons q l =>
    have hq : q ∈ P.dps p d := by rw [hl]; simp
    obtain ⟨hqn, hqp, hqs⟩ := mem_dps.1 hq
    have hoq := owner_spec hqn hqs
    simp only [decide_eq_true_eq, ne_eq, List.head?_cons, Option.some.injEq]
    have hhead : P.owner (P.glob p d) ≠ p → q = P.owner (P.glob p d) := by
      intro hne
      have hm : P.owner (P.glob p d) ∈ P.dps p d := mem_dps.2 ⟨by omega, hne, ho.1⟩
      rw [hl] at hm hs
      rcases List.mem_cons.1 hm with h | h
      · exact h.symm
      · have := (List.pairwise_cons.1 hs).1 _ h
        omega
    refine ⟨⟨fun hlt => by omega, fun hne => ?_⟩, fun hlt => hhead (by omega)⟩
    have := hhead hne
    omega

theorem mem_mEx {p d q : ℕ} (hp : p < P.np) :
    d ∈ P.mEx p q ↔ d < P.ndof p ∧ P.owner (P.glob p d) = p ∧ q < P.np ∧ q ≠ p ∧ P.shares q (P.glob p d) = true := by
  simp only [PD.mEx, List.mem_filter, List.mem_range, Bool.and_eq_true, Bool.not_eq_true', List.contains_iff_mem]
  constructor
  · rintro ⟨hd, hg, hq⟩
    have := (ghost_iff hp hd).1
    rw [hg] at this
    simp only [Bool.false_eq_true, ne_eq, false_iff, not_not] at this
    exact ⟨hd, this, mem_dps.1 hq⟩
  · rintro ⟨hd, ho, hq⟩
    refine ⟨hd, ?_, mem_dps.2 hq⟩
    have := (ghost_iff hp hd).1
    by_contra hg
    rw [Bool.not_eq_false] at hg
    exact (this.1 hg) ho

theorem mem_gEx {p d q : ℕ} (hp : p < P.np) : d ∈ P.gEx p q ↔ d < P.ndof p ∧ P.owner (P.glob p d) = q ∧ q ≠ p := by
  simp only [PD.gEx, List.mem_filter, List.mem_range, Bool.and_eq_true, beq_iff_eq]
  constructor
  · rintro ⟨hd, hg, hq⟩
    have h := ghost_iff hp hd
    have h2 := h.2 hg
    rw [hq] at h2
    simp only [Option.some.injEq] at h2
    exact ⟨hd, h2.symm, by rw [h2]; exact h.1.1 hg⟩
  · rintro ⟨hd, ho, hq⟩
    have h := ghost_iff hp hd
    have hg := h.1.2 (by omega)
    exact ⟨hd, hg, by rw [h.2 hg, ho]⟩

theorem mEx_sorted (p q : ℕ) : (P.mEx p q).Pairwise (· < ·) := by rw [PD.mEx]; exact (List.pairwise_lt_range).filter _

theorem gEx_sorted (p q : ℕ) : (P.gEx p q).Pairwise (· < ·) := by rw [PD.gEx]; exact (List.pairwise_lt_range).filter _

theorem mem_exProcs {p q : ℕ} : q ∈ P.exProcs p ↔ q < P.np ∧ ∃ d < P.ndof p, q ≠ p ∧ P.shares q (P.glob p d) = true := by
  simp only [PD.exProcs, List.mem_filter, List.mem_range, List.any_eq_true, List.contains_iff_mem, mem_dps]
  constructor
  · rintro ⟨h, d, hd, h1⟩; exact ⟨h, d, hd, h1.2⟩
  · rintro ⟨h, d, hd, h1⟩; exact ⟨h, d, hd, h, h1⟩

theorem exProcs_nodup (p : ℕ) : (P.exProcs p).Nodup := by rw [PD.exProcs]; exact List.nodup_range.filter _

/-- the two sides of a connection list the same DOFs in the same order -/
theorem gEx_eq_map (hP : P.WF) {p q : ℕ} (hp : p < P.np) (hq : q < P.np) (hne : p ≠ q) :
    P.gEx q p = (P.mEx p q).map fun d => P.loc q (P.glob p d) := by
  apply eq_of_pairwise_of_mem (gEx_sorted q p)
  · rw [List.pairwise_map]
    refine (mEx_sorted p q).imp_of_mem ?_
    intro a b ha hb hab
    rw [mem_mEx hp] at ha hb
    have la := loc_spec ha.2.2.2.2
    have lb := loc_spec hb.2.2.2.2
    exact hP.mono p hp q hq a ha.1 b hb.1 _ la.1 _ lb.1 la.2.symm lb.2.symm hab
  · intro e
    rw [mem_gEx hq, List.mem_map]
    constructor
    · rintro ⟨he, ho, _⟩
      have hs := owner_spec hq (shares_glob he)
      rw [ho] at hs
      have hl := loc_spec hs.1
      refine ⟨P.loc p (P.glob q e), ?_, ?_⟩
      · rw [mem_mEx hp, hl.2]
        exact ⟨hl.1, ho, hq, fun h => hne h.symm, shares_glob he⟩
      · rw [hl.2]; exact loc_glob hP hq he
    · rintro ⟨d, hd, rfl⟩
      rw [mem_mEx hp] at hd
      have hl := loc_spec hd.2.2.2.2
      rw [hl.2]
      exact ⟨hl.1, hd.2.1, hne⟩

end

/-! ### buffers -/

section
variable {M : Type*} {P : PD}

/-- every shared DOF of a process belongs to a neighbour -/
theorem gEx_exProcs {p d q : ℕ} (hp : p < P.np) (h : d ∈ P.gEx p q) : q ∈ P.exProcs p := by
  rw [mem_gEx hp] at h
  have ho := owner_spec hp (shares_glob h.1)
  rw [mem_exProcs]
  exact ⟨by omega, d, h.1, h.2.2, by rw [← h.2.1]; exact ho.1⟩

theorem mEx_exProcs {p d q : ℕ} (hp : p < P.np) (h : d ∈ P.mEx p q) : q ∈ P.exProcs p := by
  rw [mem_mEx hp] at h
  rw [mem_exProcs]
  exact ⟨h.2.2.1, d, h.1, h.2.2.2⟩

/-- one row of `BufferG` -/
theorem bufferG_row [Zero M] (q : ℕ) (l : List ℕ) (s : (ℕ → M) × (ℕ → List M)) (hn : l.Nodup) :
    l.foldl (fun s d => (Function.update s.1 d 0, Function.update s.2 q (s.2 q ++ [s.1 d]))) s =
      (fun d => if d ∈ l then 0 else s.1 d, Function.update s.2 q (s.2 q ++ l.map s.1)) := by
  induction l generalizing s with
  | nil => simp
  | cons a l ih =>
    have hnd := List.nodup_cons.1 hn
    rw [List.foldl_cons, ih _ hnd.2]
    refine Prod.ext ?_ ?_
    · funext d
      by_cases hd : d = a <;> simp [hd]
    · simp only [Function.update_self, Function.update_idem, List.map_cons, List.append_assoc, List.singleton_append]
      congr 3
      apply List.map_congr_left
      intro d hd
      exact Function.update_of_ne (by rintro rfl; exact hnd.1 hd) _ _

theorem bufferG_fold [Zero M] (gEx : ℕ → List ℕ) (qs : List ℕ) (s : (ℕ → M) × (ℕ → List M)) (hn : qs.Nodup)
    (hg : ∀ q ∈ qs, (gEx q).Nodup) (hd : ∀ q ∈ qs, ∀ r ∈ qs, ∀ d, d ∈ gEx q → d ∈ gEx r → q = r) :
    qs.foldl (fun s q => (gEx q).foldl
      (fun s d => (Function.update s.1 d 0, Function.update s.2 q (s.2 q ++ [s.1 d]))) s) s =
      (fun d => if ∃ q ∈ qs, d ∈ gEx q then 0 else s.1 d, fun q => if q ∈ qs then s.2 q ++ (gEx q).map s.1 else s.2 q) := by
  induction qs generalizing s with
  | nil => simp
  | cons a qs ih =>
    have hnd := List.nodup_cons.1 hn
    rw [List.foldl_cons, bufferG_row a _ _ (hg a List.mem_cons_self),
      ih _ hnd.2 (fun q hq => hg q (List.mem_cons_of_mem _ hq))
        (fun q hq r hr => hd q (List.mem_cons_of_mem _ hq) r (List.mem_cons_of_mem _ hr))]
    refine Prod.ext ?_ ?_
    · funext d
      by_cases h1 : ∃ q ∈ qs, d ∈ gEx q
      · have : ∃ q ∈ a :: qs, d ∈ gEx q := by
          obtain ⟨q, hq, h⟩ := h1; exact ⟨q, List.mem_cons_of_mem _ hq, h⟩
        simp only [if_pos h1, if_pos this]
      · by_cases h2 : d ∈ gEx a
        · have : ∃ q ∈ a :: qs, d ∈ gEx q := ⟨a, List.mem_cons_self, h2⟩
          simp only [if_neg h1, if_pos h2, if_pos this]
        · have : ¬ ∃ q ∈ a :: qs, d ∈ gEx q := by
            rintro ⟨q, hq, h⟩
            rcases List.mem_cons.1 hq with rfl | hq
            · exact h2 h
            · exact h1 ⟨q, hq, h⟩
          simp only [if_neg h1, if_neg h2, if_neg this]
    · funext q
      by_cases hqa : q = a
      · subst hqa
        simp [hnd.1]
      · by_cases hq : q ∈ qs
        · simp only [hq, if_true, List.mem_cons, or_true, Function.update_of_ne hqa]
          congr 1
          apply List.map_congr_left
          intro d hdq
          rw [if_neg]
          intro hda
          exact hqa (hd q (List.mem_cons_of_mem _ hq) a List.mem_cons_self d hdq hda)
        · simp [hq, hqa]

/-- `BufferG`: zero at the ghosts, their values in the buffer -/
theorem bufferG_spec [Zero M] {p : ℕ} (hp : p < P.np) (v : ℕ → M) :
    (∀ d < P.ndof p, (bufferG P p v).1 d = if P.owner (P.glob p d) = p then v d else 0) ∧
      ∀ q < P.np, (bufferG P p v).2 q = (P.gEx p q).map v := by
  rw [bufferG, bufferG_fold (P.gEx p) _ _ (exProcs_nodup p)
    (fun q _ => (gEx_sorted p q).imp (fun h => ne_of_lt h))
    (fun q _ r _ d h1 h2 => by rw [mem_gEx hp] at h1 h2; rw [← h1.2.1, ← h2.2.1])]
  constructor
  · intro d hd
    simp only
    by_cases ho : P.owner (P.glob p d) = p
    · rw [if_pos ho, if_neg]
      rintro ⟨q, _, h⟩
      rw [mem_gEx hp] at h
      exact h.2.2 (by rw [← h.2.1, ho])
    · rw [if_neg ho, if_pos]
      have h : d ∈ P.gEx p (P.owner (P.glob p d)) := (mem_gEx hp).2 ⟨hd, rfl, ho⟩
      exact ⟨_, gEx_exProcs hp h, h⟩
  · intro q hq
    simp only [List.nil_append]
    split
    · rfl
    · rename_i h
      symm
      rw [List.map_eq_nil_iff, List.eq_nil_iff_forall_not_mem]
      intro d hd
      exact h (gEx_exProcs hp hd)

/-- one row of `ApplyM` -/
theorem applyM_row [AddCommMonoid M] (l : List ℕ) (f : ℕ → M) (v : ℕ → M) (hn : l.Nodup) :
    (l.zip (l.map f)).foldl (fun v e => Function.update v e.1 (v e.1 + e.2)) v =
      fun d => v d + if d ∈ l then f d else 0 := by
  induction l generalizing v with
  | nil => funext d; simp
  | cons a l ih =>
    have hnd := List.nodup_cons.1 hn
    rw [List.map_cons, List.zip_cons_cons, List.foldl_cons, ih _ hnd.2]
    funext d
    by_cases hd : d = a
    · subst hd; simp [hnd.1]
    · simp [hd]

theorem applyM_fold [AddCommMonoid M] (mEx : ℕ → List ℕ) (f : ℕ → ℕ → M) (qs : List ℕ) (v : ℕ → M)
    (hm : ∀ q ∈ qs, (mEx q).Nodup) :
    qs.foldl (fun v q => ((mEx q).zip ((mEx q).map (f q))).foldl (fun v e => Function.update v e.1 (v e.1 + e.2)) v) v =
      fun d => v d + (qs.map fun q => if d ∈ mEx q then f q d else 0).sum := by
  induction qs generalizing v with
  | nil => funext d; simp
  | cons a qs ih =>
    rw [List.foldl_cons, applyM_row _ _ _ (hm a List.mem_cons_self), ih _ (fun q hq => hm q (List.mem_cons_of_mem _ hq))]
    funext d
    simp [add_assoc]

/-- one row of `ApplyG` -/
theorem applyG_row (l : List ℕ) (f : ℕ → M) (v : ℕ → M) :
    (l.zip (l.map f)).foldl (fun v e => Function.update v e.1 e.2) v = fun d => if d ∈ l then f d else v d := by
  induction l generalizing v with
  | nil => funext d; simp
  | cons a l ih =>
    rw [List.map_cons, List.zip_cons_cons, List.foldl_cons, ih]
    funext d
    by_cases hd : d = a
    · subst hd; by_cases h : d ∈ l <;> simp [h]
    · simp [hd]

theorem applyG_fold (gEx : ℕ → List ℕ) (f : ℕ → M) (qs : List ℕ) (v : ℕ → M) :
    qs.foldl (fun v q => ((gEx q).zip ((gEx q).map f)).foldl (fun v e => Function.update v e.1 e.2) v) v =
      fun d => if ∃ q ∈ qs, d ∈ gEx q then f d else v d := by
  induction qs generalizing v with
  | nil => funext d; simp
  | cons a qs ih =>
    rw [List.foldl_cons, applyG_row, ih]
    funext d
    by_cases h1 : ∃ q ∈ qs, d ∈ gEx q
    · have : ∃ q ∈ a :: qs, d ∈ gEx q := by
        obtain ⟨q, hq, h⟩ := h1; exact ⟨q, List.mem_cons_of_mem _ hq, h⟩
      rw [if_pos h1, if_pos this]
    · by_cases h2 : d ∈ gEx a
      · have : ∃ q ∈ a :: qs, d ∈ gEx q := ⟨a, List.mem_cons_self, h2⟩
        rw [if_neg h1, if_pos h2, if_pos this]
      · have : ¬ ∃ q ∈ a :: qs, d ∈ gEx q := by
          rintro ⟨q, hq, h⟩
          rcases List.mem_cons.1 hq with rfl | hq
          · exact h2 h
          · exact h1 ⟨q, hq, h⟩
        rw [if_neg h1, if_neg h2, if_neg this]

theorem foldl_congr' {α β : Type*} (l : List β) (f g : α → β → α) (a : α) (h : ∀ b ∈ l, ∀ a, f a b = g a b) :
    l.foldl f a = l.foldl g a := by
  induction l generalizing a with
  | nil => rfl
  | cons b l ih =>
    rw [List.foldl_cons, List.foldl_cons, h b List.mem_cons_self, ih _ (fun c hc => h c (List.mem_cons_of_mem _ hc))]

theorem exProcs_ne {p q : ℕ} (h : q ∈ P.exProcs p) : q < P.np ∧ q ≠ p := by
  rw [mem_exProcs] at h
  obtain ⟨h1, d, _, h2, _⟩ := h
  exact ⟨h1, h2⟩

/-- the sum over all processes at one DOF -/
theorem gsum_at [AddCommMonoid M] (hP : P.WF) (p d : ℕ) (v : ℕ → ℕ → M) :
    gsum P v (P.glob p d) = ∑ q ∈ Finset.range P.np,
      if P.shares q (P.glob p d) = true then v q (P.loc q (P.glob p d)) else 0 := by
  rw [gsum]
  apply Finset.sum_congr rfl
  intro q hq
  rw [Finset.mem_range] at hq
  by_cases hs : P.shares q (P.glob p d) = true
  · have hl := loc_spec hs
    rw [if_pos hs, Finset.sum_eq_single (P.loc q (P.glob p d))]
    · rw [if_pos hl.2]
    · intro e he hne
      rw [Finset.mem_range] at he
      rw [if_neg]
      intro h
      exact hne (hP.inj q hq e he _ hl.1 (h.trans hl.2.symm))
    · intro h; exact absurd (Finset.mem_range.2 hl.1) h
  · rw [if_neg hs]
    apply Finset.sum_eq_zero
    intro e he
    rw [Finset.mem_range] at he
    rw [if_neg]
    intro h
    exact hs (shares_iff.2 ⟨e, he, h⟩)

/-- `ApplyM` with the messages of all ghosts -/
theorem applyM_spec [AddCommMonoid M] (hP : P.WF) {p : ℕ} (hp : p < P.np) (u : ℕ → M) (v : ℕ → ℕ → M) (buf : ℕ → List M)
    (hbuf : ∀ q < P.np, q ≠ p → buf q = (P.gEx q p).map (v q)) (d : ℕ) (hd : d < P.ndof p) :
    applyM P p u buf d = u d + if P.owner (P.glob p d) = p then
      ∑ q ∈ (Finset.range P.np).erase p, (if P.shares q (P.glob p d) = true then v q (P.loc q (P.glob p d)) else 0) else 0 := by
  rw [applyM]
  rw [foldl_congr' (P.exProcs p) _ (fun w q => ((P.mEx p q).zip ((P.mEx p q).map fun d => v q (P.loc q (P.glob p d)))).foldl
      (fun v e => Function.update v e.1 (v e.1 + e.2)) w) u]
  · rw [applyM_fold (P.mEx p) (fun q d => v q (P.loc q (P.glob p d))) _ _
      (fun q _ => (mEx_sorted p q).imp (fun h => ne_of_lt h))]
    simp only
    congr 1
    by_cases ho : P.owner (P.glob p d) = p
    · rw [if_pos ho]
      have hl : ((P.exProcs p).map fun q => if d ∈ P.mEx p q then v q (P.loc q (P.glob p d)) else 0).sum =
          ∑ q ∈ (P.exProcs p).toFinset, if d ∈ P.mEx p q then v q (P.loc q (P.glob p d)) else 0 :=
        (List.sum_toFinset _ (exProcs_nodup p)).symm
      rw [hl]
      have hsub : (P.exProcs p).toFinset ⊆ (Finset.range P.np).erase p := by
        intro q hq
        rw [List.mem_toFinset] at hq
        have := exProcs_ne hq
        simp [this]
      rw [← Finset.sum_subset hsub]
      · apply Finset.sum_congr rfl
        intro q hq
        rw [List.mem_toFinset] at hq
        have h1 := exProcs_ne hq
        have : d ∈ P.mEx p q ↔ P.shares q (P.glob p d) = true := by
          rw [mem_mEx hp]; exact ⟨fun h => h.2.2.2.2, fun h => ⟨hd, ho, h1.1, h1.2, h⟩⟩
        simp only [this]
      · intro q hq hnq
        rw [Finset.mem_erase, Finset.mem_range] at hq
        rw [List.mem_toFinset, mem_exProcs] at hnq
        rw [if_neg]
        intro hs
        exact hnq ⟨hq.2, d, hd, hq.1, hs⟩
    · rw [if_neg ho]
      apply List.sum_eq_zero
      intro x hx
      obtain ⟨q, _, rfl⟩ := List.mem_map.1 hx
      rw [if_neg]
      intro h
      rw [mem_mEx hp] at h
      exact ho h.2.1
  · intro q hq w
    have h1 := exProcs_ne hq
    rw [hbuf q h1.1 h1.2, gEx_eq_map hP hp h1.1 (Ne.symm h1.2), List.map_map]
    rfl

/-- `ApplyG` with the messages of all masters -/
theorem applyG_spec (hP : P.WF) {p : ℕ} (hp : p < P.np) (u : ℕ → M) (v : ℕ → ℕ → M) (buf : ℕ → List M)
    (hbuf : ∀ q < P.np, q ≠ p → buf q = (P.mEx q p).map (v q)) (d : ℕ) (hd : d < P.ndof p) :
    applyG P p u buf d = if P.owner (P.glob p d) = p then u d else
      v (P.owner (P.glob p d)) (P.loc (P.owner (P.glob p d)) (P.glob p d)) := by
  have hro : ∀ q < P.np, q ≠ p → (P.mEx q p).map (v q) = (P.gEx p q).map fun d => v q (P.loc q (P.glob p d)) := by
    intro q hq hqp
    rw [gEx_eq_map hP hq hp hqp, List.map_map]
    apply List.map_congr_left
    intro e he
    rw [mem_mEx hq] at he
    have hl := loc_spec he.2.2.2.2
    simp only [Function.comp, hl.2, loc_glob hP hq he.1]
  rw [applyG]
  rw [foldl_congr' (P.exProcs p) _ (fun w q => ((P.gEx p q).zip ((P.gEx p q).map fun d =>
      v (P.owner (P.glob p d)) (P.loc (P.owner (P.glob p d)) (P.glob p d)))).foldl
      (fun v e => Function.update v e.1 e.2) w) u]
  · rw [applyG_fold (P.gEx p)]
    simp only
    by_cases ho : P.owner (P.glob p d) = p
    · rw [if_pos ho, if_neg]
      rintro ⟨q, _, h⟩
      rw [mem_gEx hp] at h
      exact h.2.2 (by rw [← h.2.1, ho])
    · rw [if_neg ho, if_pos]
      have h : d ∈ P.gEx p (P.owner (P.glob p d)) := (mem_gEx hp).2 ⟨hd, rfl, ho⟩
      exact ⟨_, gEx_exProcs hp h, h⟩
  · intro q hq w
    have h1 := exProcs_ne hq
    rw [hbuf q h1.1 h1.2, hro q h1.1 h1.2]
    congr 2
    apply List.map_congr_left
    intro e he
    rw [mem_gEx hp] at he
    rw [he.2.1]

theorem gComm_iff {a b : ℕ} (ha : a < P.np) : gComm P a b = true ↔ P.gEx a b ≠ [] := by
  simp only [gComm, Bool.and_eq_true, List.contains_iff_mem, Bool.not_eq_true', List.isEmpty_eq_false_iff]
  constructor
  · exact fun h => h.2
  · intro h
    obtain ⟨d, hd⟩ := List.exists_mem_of_ne_nil _ h
    exact ⟨gEx_exProcs ha hd, h⟩

theorem mComm_iff {a b : ℕ} (ha : a < P.np) : mComm P a b = true ↔ P.mEx a b ≠ [] := by
  simp only [mComm, Bool.and_eq_true, List.contains_iff_mem, Bool.not_eq_true', List.isEmpty_eq_false_iff]
  constructor
  · exact fun h => h.2
  · intro h
    obtain ⟨d, hd⟩ := List.exists_mem_of_ne_nil _ h
    exact ⟨mEx_exProcs ha hd, h⟩

theorem comm_matched (hP : P.WF) {p q : ℕ} (hp : p < P.np) (hq : q < P.np) : gComm P p q = mComm P q p := by
  rw [Bool.eq_iff_iff, gComm_iff hp, mComm_iff hq, not_iff_not]
  by_cases hpq : q = p
  · subst hpq
    have h1 : P.gEx q q = [] := by
      rw [List.eq_nil_iff_forall_not_mem]; intro d hd; rw [mem_gEx hp] at hd; exact hd.2.2 rfl
    have h2 : P.mEx q q = [] := by
      rw [List.eq_nil_iff_forall_not_mem]; intro d hd; rw [mem_mEx hp] at hd; exact hd.2.2.2.1 rfl
    rw [h1, h2]
  · rw [gEx_eq_map hP hq hp hpq, List.map_eq_nil_iff]

theorem matched (hP : P.WF) (prog : List (Phase (ℕ → M) (List M))) [Zero M] [Add M]
    (h : ∀ ph ∈ prog, ph = dis2co P ∨ ph = co2cu P) : Matched P.np prog := by
  have hg : ∀ p q, gComm P p q = true → q < P.np := by
    intro p q h
    simp only [gComm, Bool.and_eq_true, List.contains_iff_mem] at h
    exact (exProcs_ne h.1).1
  have hm : ∀ p q, mComm P p q = true → q < P.np := by
    intro p q h
    simp only [mComm, Bool.and_eq_true, List.contains_iff_mem] at h
    exact (exProcs_ne h.1).1
  intro ph hph p hp
  rcases h ph hph with rfl | rfl
  · exact ⟨fun q hq => comm_matched hP hp hq, hg p, hm p⟩
  · exact ⟨fun q hq => (comm_matched hP hq hp).symm, hm p, hg p⟩

/-- one gather, in lock step -/
theorem runPhase_dis2co [AddCommMonoid M] (hP : P.WF) (v : ℕ → ℕ → M) {p d : ℕ} (hp : p < P.np) (hd : d < P.ndof p) :
    runPhase (dis2co P) v p d = if P.owner (P.glob p d) = p then gsum P v (P.glob p d) else 0 := by
  show applyM P p (bufferG P p (v p)).1 (fun q => if mComm P p q = true then (bufferG P q (v q)).2 p else default) d = _
  rw [applyM_spec hP hp _ v _ ?_ d hd, (bufferG_spec hp (v p)).1 d hd]
  · by_cases ho : P.owner (P.glob p d) = p
    · simp only [if_pos ho]
      rw [gsum_at hP p d, ← Finset.add_sum_erase _ _ (Finset.mem_range.2 hp), if_pos (shares_glob hd), loc_glob hP hp hd]
    · simp only [if_neg ho, add_zero]
  · intro q hq _
    by_cases hc : mComm P p q = true
    · rw [if_pos hc, (bufferG_spec hq (v q)).2 p hp]
    · rw [if_neg hc]
      rw [← comm_matched hP hq hp, gComm_iff hq, not_not] at hc
      rw [hc]; rfl

/-- one scatter, in lock step -/
theorem runPhase_co2cu (hP : P.WF) (v : ℕ → ℕ → M) {p d : ℕ} (hp : p < P.np) (hd : d < P.ndof p) :
    runPhase (co2cu P) v p d = v (P.owner (P.glob p d)) (P.loc (P.owner (P.glob p d)) (P.glob p d)) := by
  show applyG P p (v p) (fun q => if gComm P p q = true then bufferM P q (v q) p else default) d = _
  rw [applyG_spec hP hp _ v _ ?_ d hd]
  · by_cases ho : P.owner (P.glob p d) = p
    · rw [if_pos ho, ho, loc_glob hP hp hd]
    · rw [if_neg ho]
  · intro q hq _
    by_cases hc : gComm P p q = true
    · rw [if_pos hc]; rfl
    · rw [if_neg hc]
      rw [comm_matched hP hp hq, mComm_iff hq, not_not] at hc
      rw [hc]; rfl

theorem gsum_congr [AddCommMonoid M] {v w : ℕ → ℕ → M} (h : ∀ p < P.np, ∀ d < P.ndof p, v p d = w p d) (g : ℕ) :
    gsum P v g = gsum P w g := by
  apply Finset.sum_congr rfl
  intro p hp
  apply Finset.sum_congr rfl
  intro d hd
  rw [Finset.mem_range] at hp hd
  rw [h p hp d hd]

theorem gsum_unshared [AddCommMonoid M] (v : ℕ → ℕ → M) {g : ℕ} (h : ∀ p < P.np, P.shares p g = false) : gsum P v g = 0 := by
  apply Finset.sum_eq_zero
  intro p hp
  apply Finset.sum_eq_zero
  intro d hd
  rw [Finset.mem_range] at hp hd
  rw [if_neg]
  rintro rfl
  have := h p hp
  rw [shares_glob hd] at this
  simp at this

/-- a vector which is concentrated on the masters represents its master values -/
theorem gsum_masters [AddCommMonoid M] (hP : P.WF) (f : ℕ → M) {p d : ℕ} (hp : p < P.np) (hd : d < P.ndof p) :
    gsum P (fun q e => if P.owner (P.glob q e) = q then f (P.glob q e) else 0) (P.glob p d) = f (P.glob p d) := by
  have ho := owner_spec hp (shares_glob hd)
  rw [gsum_at hP p d, Finset.sum_eq_single (P.owner (P.glob p d))]
  · have hl := loc_spec ho.1
    rw [if_pos ho.1, hl.2, if_pos rfl]
  · intro q _ hne
    by_cases hs : P.shares q (P.glob p d) = true
    · rw [if_pos hs, (loc_spec hs).2, if_neg (Ne.symm hne)]
    · rw [if_neg hs]
  · intro h
    exact absurd (Finset.mem_range.2 (by omega)) h

/-! ### C18 -/

/-- **C18**, gather: in every schedule of the processes, when all of them are done, every master has the sum over all copies, all
other copies are zero, and the represented global vector is unchanged. -/
theorem gather [AddCommMonoid M] (hP : P.WF) (v : ℕ → ℕ → M) {n : ℕ} {s : St (ℕ → M) (List M)}
    (hr : Reach P.np [dis2co P] v n s) (hf : Final P.np [dis2co P] s) :
    (∀ p < P.np, ∀ d < P.ndof p, s.vec p d = if P.owner (P.glob p d) = p then gsum P v (P.glob p d) else 0) ∧
      ∀ g, gsum P s.vec g = gsum P v g := by
  have hfin := (final_state (matched hP _ (by simp)) hr hf).1
  have h1 : ∀ p < P.np, ∀ d < P.ndof p, s.vec p d = if P.owner (P.glob p d) = p then gsum P v (P.glob p d) else 0 := by
    intro p hp d hd
    rw [hfin p hp, run, List.foldl_cons, List.foldl_nil, runPhase_dis2co hP v hp hd]
  refine ⟨h1, fun g => ?_⟩
  by_cases hg : ∃ p < P.np, P.shares p g = true
  · obtain ⟨p, hp, hs⟩ := hg
    obtain ⟨d, hd, rfl⟩ := shares_iff.1 hs
    rw [gsum_congr h1, gsum_masters hP (gsum P v) hp hd]
  · push Not at hg
    have : ∀ p < P.np, P.shares p g = false := fun p hp => by simpa using hg p hp
    rw [gsum_unshared _ this, gsum_unshared _ this]

/-- **C18**, scatter: in every schedule, when all processes are done, every copy has the value of the master. -/
theorem scatter [Zero M] [Add M] (hP : P.WF) (v : ℕ → ℕ → M) {n : ℕ} {s : St (ℕ → M) (List M)}
    (hr : Reach P.np [co2cu P] v n s) (hf : Final P.np [co2cu P] s) :
    ∀ p < P.np, ∀ d < P.ndof p, s.vec p d = v (P.owner (P.glob p d)) (P.loc (P.owner (P.glob p d)) (P.glob p d)) := by
  have hfin := (final_state (matched hP _ (by simp)) hr hf).1
  intro p hp d hd
  rw [hfin p hp, run, List.foldl_cons, List.foldl_nil, runPhase_co2cu hP v hp hd]

/-- **C18**, gather and scatter: every copy has the sum over all copies, even if some processes are still gathering while others
scatter. -/
theorem gather_scatter [AddCommMonoid M] (hP : P.WF) (v : ℕ → ℕ → M) {n : ℕ} {s : St (ℕ → M) (List M)}
    (hr : Reach P.np [dis2co P, co2cu P] v n s) (hf : Final P.np [dis2co P, co2cu P] s) :
    ∀ p < P.np, ∀ d < P.ndof p, s.vec p d = gsum P v (P.glob p d) := by
  have hfin := (final_state (matched hP _ (by simp)) hr hf).1
  intro p hp d hd
  have ho := owner_spec hp (shares_glob hd)
  have hl := loc_spec ho.1
  rw [hfin p hp, run, List.foldl_cons, List.foldl_cons, List.foldl_nil, runPhase_co2cu hP _ hp hd,
    runPhase_dis2co hP v (by omega) hl.1, hl.2, if_pos rfl]

/-- **C18**, no process hangs: unless all processes are done one of them can proceed, and there are at most `4 np` steps. -/
theorem gather_scatter_progress [AddCommMonoid M] (hP : P.WF) (v : ℕ → ℕ → M) {n : ℕ} {s : St (ℕ → M) (List M)}
    (hr : Reach P.np [dis2co P, co2cu P] v n s) :
    (¬ Final P.np [dis2co P, co2cu P] s → ∃ t, Step P.np [dis2co P, co2cu P] s t) ∧ n ≤ 4 * P.np :=
  ⟨fun h => no_deadlock (matched hP _ (by simp)) hr h, terminates (matched hP _ (by simp)) hr⟩

end

/-! ### a concrete case -/

/-- three processes in a row, process 1 shares DOF 1 with process 0 and DOF 2 with process 2; DOF 7 belongs to all -/
def exPD : PD where
  np := 3
  ndof := fun _ => 3
  glob := fun p d => if d = 2 then 7 else p + d

theorem exPD_WF : exPD.WF where
  inj := by decide
  mono := by
    intro p hp q hq d hd d' hd' e he e' he' h h' hlt
    simp only [exPD] at *
    split_ifs at * <;> omega

/-- the initial state is reachable, the gather has all three processes to wait for, the sum at the DOF of all processes -/
example : exPD.owner 7 = 0 ∧ exPD.mEx 0 1 = [1, 2] ∧ exPD.gEx 1 0 = [0, 2] ∧ exPD.mEx 0 2 = [2] ∧
    Reach exPD.np [dis2co exPD] (fun p d => (10 * p + d : ℤ)) 0 (Exch.init fun p d => (10 * p + d : ℤ)) ∧
    gsum exPD (fun p d => (10 * p + d : ℤ)) 7 = 36 :=
  ⟨by decide, by decide, by decide, by decide, Reach.init, by decide⟩

/-- hypotheses of `gather`, `scatter`, `gather_scatter` are met -/
example : ∃ n s, Reach exPD.np [dis2co exPD, co2cu exPD] (fun p d => (10 * p + d : ℤ)) n s ∧
    Final exPD.np [dis2co exPD, co2cu exPD] s ∧ s.vec 2 2 = 36 := by
  obtain ⟨n, s, hr, hf⟩ := exists_final (matched exPD_WF [dis2co exPD, co2cu exPD] (by simp)) (fun p d => (10 * p + d : ℤ))
  exact ⟨n, s, hr, hf, (gather_scatter exPD_WF _ hr hf 2 (by decide) 2 (by decide)).trans (by decide)⟩

/-- A vector that is already cumulated (all copies have the same value) is not gathered correctly: the receive buffer of an
earlier gather is added to the master values (here 5 instead of 1). -/
theorem gather_cumulated_wrong : ∃ (P : PD) (v : ℕ → ℕ → ℤ) (stale : ℕ → List ℤ), P.WF ∧
    (∀ p < P.np, ∀ q < P.np, ∀ d < P.ndof p, ∀ e < P.ndof q, P.glob p d = P.glob q e → v p d = v q e) ∧
    dis2coCumulated P 0 (v 0) stale 0 ≠ v 0 0 := by
  refine ⟨⟨2, fun _ => 1, fun _ _ => 0⟩, fun _ _ => 1, fun _ => [4], ⟨by decide, ?_⟩, by simp, by decide⟩
  intro p hp q hq d hd d' hd' e he e' he' h h' hlt
  simp only at *
  omega

/-- With an empty (zero) buffer it is correct. -/
theorem gather_cumulated_partial {M : Type*} [AddCommMonoid M] {P : PD} (hP : P.WF) (v : ℕ → M) {p d : ℕ} (hp : p < P.np)
    (hd : d < P.ndof p) : dis2coCumulated P p v (fun q => (P.mEx p q).map fun _ => 0) d =
      if P.owner (P.glob p d) = p then v d else 0 := by
  rw [dis2coCumulated, applyM_spec hP hp _ (fun _ _ => (0 : M)) _ ?_ d hd, (bufferG_spec hp v).1 d hd]
  · simp
  · intro q hq hne
    rw [gEx_eq_map hP hp hq (Ne.symm hne), List.map_map]
    rfl

end NgsAMG.DCC
