import Verif.Props.EQC3
import Mathlib.Order.ConditionallyCompleteLattice.Basic
import Mathlib.Order.Lattice.Nat

/-!
# Properties of the equivalence-class hierarchy, part 4: identifiers of the classes (C58)
-/

namespace NgsAMG.EQC

open NgsAMG.Exch NgsAMG.DCC

/-- what the processes know before the identifiers are handed out: sorted tables without duplicates, the same classes everywhere -/
structure Tables (np : ℕ) (T : ℕ → List (List ℕ)) : Prop where
  ok : ∀ p < np, FamOK np p (T p)
  sorted : ∀ p < np, (T p).Pairwise fun a b => eqLt a b = true
  cons : Consistent np T

/-- the smallest process -/
noncomputable def least (S : Finset ℕ) : ℕ := sInf (S : Set ℕ)

theorem least_eq {S : Finset ℕ} {m : ℕ} (hm : m ∈ S) (h : ∀ x ∈ S, m ≤ x) : least S = m := by
  unfold least
  apply le_antisymm
  · exact Nat.sInf_le (by simpa using hm)
  · exact h _ (by simpa using Nat.sInf_mem (s := (S : Set ℕ)) ⟨m, by simpa using hm⟩)

theorem least_mem {S : Finset ℕ} {m : ℕ} (hm : m ∈ S) : least S ∈ S ∧ ∀ x ∈ S, least S ≤ x := by
  constructor
  · have := Nat.sInf_mem (s := (S : Set ℕ)) ⟨m, by simpa using hm⟩
    simpa [least] using this
  · intro x hx; exact Nat.sInf_le (by simpa using hx)

section
variable {np p : ℕ} {d : List ℕ}

theorem master_iff (hd : Valid np p d) : MasterNE p d = true ↔ d ≠ [] ∧ least (members p d) = p := by
  cases d with
  | nil => simp [MasterNE]
  | cons h ds =>
    have hs := List.pairwise_cons.mp hd.sorted
    simp only [MasterNE, List.isEmpty_cons, Bool.not_false, Bool.true_and, isMaster, decide_eq_true_eq, ne_eq, reduceCtorEq,
      not_false_eq_true, true_and]
    constructor
    · intro hlt
      refine least_eq (mem_members.mpr (Or.inl rfl)) ?_
      intro x hx
      rcases mem_members.mp hx with rfl | hx
      · exact le_refl _
      · rcases List.mem_cons.mp hx with rfl | hx
        · omega
        · have := hs.1 x hx; omega
    · intro he
      have h1 := (least_mem (S := members p (h :: ds)) (mem_members.mpr (Or.inl rfl))).2 h (mem_members.mpr (Or.inr (by simp)))
      rw [he] at h1
      have : p ≠ h := fun e => hd.notSelf (by simp [e])
      omega

theorem slave_iff (hd : Valid np p d) (h : ℕ) : SlaveOf p h d = true ↔ h ≠ p ∧ least (members p d) = h := by
  cases d with
  | nil =>
    have : least (members p []) = p := least_eq (mem_members.mpr (Or.inl rfl)) (by
      intro x hx
      rcases mem_members.mp hx with rfl | hx
      · exact le_refl _
      · simp at hx)
    rw [this]
    simp [SlaveOf]
    intro h1 h2; exact h1 h2.symm
  | cons k ds =>
    have hs := List.pairwise_cons.mp hd.sorted
    have hpk : p ≠ k := fun e => hd.notSelf (by simp [e])
    simp only [SlaveOf, isMaster, List.head?_cons, Bool.and_eq_true, Bool.not_eq_true', decide_eq_false_iff_not, beq_iff_eq,
      Option.some.injEq]
    have hl : least (members p (k :: ds)) = min p k := by
      refine least_eq ?_ ?_
      · rcases Nat.lt_or_ge p k with h | h
        · rw [min_eq_left (by omega)]; exact mem_members.mpr (Or.inl rfl)
        · rw [min_eq_right (by omega)]; exact mem_members.mpr (Or.inr (by simp))
      · intro x hx
        rcases mem_members.mp hx with rfl | hx
        · exact min_le_left _ _
        · rcases List.mem_cons.mp hx with rfl | hx
          · exact min_le_right _ _
          · have := hs.1 x hx
            exact le_trans (min_le_right _ _) (le_of_lt this)
    rw [hl]
    omega

end

/-- the shared classes whose master is `p`, in the order of the table of `p` -/
def masterSets (T : ℕ → List (List ℕ)) (p : ℕ) : List (Finset ℕ) := ((T p).filter (MasterNE p)).map (members p)

/-- the identifier of a class -/
noncomputable def gid (np : ℕ) (T : ℕ → List (List ℕ)) (S : Finset ℕ) : ℕ :=
  if S.card ≤ 1 then tagBase + least S
  else tagStart np (least S) (fun q => nblocksLoc q (T q)) + (masterSets T (least S)).idxOf S

section
variable {np : ℕ} {T : ℕ → List (List ℕ)} (hT : Tables np T)
include hT

theorem mem_masterSets {p : ℕ} (hp : p < np) (S : Finset ℕ) :
    S ∈ masterSets T p ↔ Has p (T p) S ∧ 1 < S.card ∧ least S = p := by
  unfold masterSets
  rw [List.mem_map]
  constructor
  · rintro ⟨d, hd, rfl⟩
    rw [List.mem_filter] at hd
    have hv := (hT.ok p hp).2 d hd.1
    obtain ⟨h1, h2⟩ := (master_iff hv).mp hd.2
    refine ⟨⟨d, hd.1, rfl⟩, ?_, h2⟩
    rw [members_card hv]
    have := List.length_pos_iff.mpr h1
    omega
  · rintro ⟨⟨d, hd, rfl⟩, h1, h2⟩
    have hv := (hT.ok p hp).2 d hd
    refine ⟨d, List.mem_filter.mpr ⟨hd, (master_iff hv).mpr ⟨?_, h2⟩⟩, rfl⟩
    rintro rfl
    rw [members_card hv] at h1
    simp at h1

theorem masterSets_nodup {p : ℕ} (hp : p < np) : (masterSets T p).Nodup := by
  unfold masterSets
  rw [List.nodup_map_iff_inj_on ((hT.ok p hp).1.filter _)]
  intro a ha b hb h
  rw [List.mem_filter] at ha hb
  exact members_inj ((hT.ok p hp).2 a ha.1) ((hT.ok p hp).2 b hb.1) h

omit hT in
theorem nblocksLoc_eq (p : ℕ) : nblocksLoc p (T p) = (masterSets T p).length := by
  unfold nblocksLoc masterSets
  rw [List.length_map]
  rfl

/-- the classes sent from `p` to `q` and the classes for which `q` receives from `p` are the same, in the same order -/
theorem order_agrees {p q : ℕ} (hp : p < np) (hq : q < np) :
    ((T p).filter fun d => MasterNE p d && d.contains q).map (members p) = ((T q).filter (SlaveOf q p)).map (members q) := by
  have hpw : ∀ r < np, ∀ P : List ℕ → Bool, (((T r).filter P).map (members r)).Pairwise SetLt := by
    intro r hr P
    rw [List.pairwise_map]
    refine List.Pairwise.filter _ ?_
    refine (List.Pairwise.and_mem.mp (hT.sorted r hr)).imp ?_
    rintro a b ⟨ha, hb, h⟩
    exact (eqLt_iff ((hT.ok r hr).2 a ha) ((hT.ok r hr).2 b hb)).mp h
  have hnd : ∀ r < np, ∀ P : List ℕ → Bool, (((T r).filter P).map (members r)).Nodup := by
    intro r hr P
    refine (hpw r hr P).imp ?_
    rintro a b h rfl
    exact setLt_asymm h h
  have hperm := (List.perm_ext_iff_of_nodup (hnd p hp fun d => MasterNE p d && d.contains q) (hnd q hq (SlaveOf q p))).mpr (by
    intro S
    rw [List.mem_map, List.mem_map]
    constructor
    · rintro ⟨d, hd, rfl⟩
      rw [List.mem_filter, Bool.and_eq_true] at hd
      have hv := (hT.ok p hp).2 d hd.1
      have hqd : q ∈ d := by simpa using hd.2.2
      obtain ⟨e, he, hme⟩ := hT.cons p hp d hd.1 q hqd
      refine ⟨e, List.mem_filter.mpr ⟨he, ?_⟩, hme⟩
      rw [slave_iff ((hT.ok q hq).2 e he), hme]
      refine ⟨?_, ((master_iff hv).mp hd.2.1).2⟩
      rintro rfl
      exact hv.notSelf hqd
    · rintro ⟨e, he, rfl⟩
      rw [List.mem_filter] at he
      have hv := (hT.ok q hq).2 e he.1
      obtain ⟨hne, hl⟩ := (slave_iff hv p).mp he.2
      have hpe : p ∈ e := by
        have := (least_mem (S := members q e) (mem_members.mpr (Or.inl rfl))).1
        rw [hl] at this
        rcases mem_members.mp this with h | h
        · exact absurd h hne
        · exact h
      obtain ⟨d, hd, hmd⟩ := hT.cons q hq e he.1 p hpe
      have hqd : q ∈ d := by
        have : q ∈ members p d := by rw [hmd]; exact mem_members.mpr (Or.inl rfl)
        rcases mem_members.mp this with h | h
        · exact absurd h.symm hne
        · exact h
      refine ⟨d, List.mem_filter.mpr ⟨hd, ?_⟩, hmd⟩
      rw [Bool.and_eq_true, master_iff ((hT.ok p hp).2 d hd), hmd]
      exact ⟨⟨List.ne_nil_of_mem hqd, hl⟩, by simpa using hqd⟩)
  exact hperm.eq_of_pairwise (fun a b _ _ h1 h2 => absurd h1 (fun h1 => setLt_asymm h1 h2)) (hpw p hp _) (hpw q hq _)

theorem gid_master {p : ℕ} (hp : p < np) :
    ((T p).filter (MasterNE p)).map (fun d => gid np T (members p d)) =
      List.range' (tagStart np p fun q => nblocksLoc q (T q)) ((T p).filter (MasterNE p)).length := by
  have h1 : ((T p).filter (MasterNE p)).map (fun d => gid np T (members p d)) = (masterSets T p).map (gid np T) := by
    unfold masterSets; rw [List.map_map]; rfl
  rw [h1]
  apply List.ext_getElem
  · simp [masterSets]
  · intro i hi1 hi2
    rw [List.getElem_map, List.getElem_range']
    have hi : i < (masterSets T p).length := by simpa using hi1
    obtain ⟨-, hc, hl⟩ := (mem_masterSets hT hp _).mp (List.getElem_mem hi)
    rw [gid, if_neg (by omega), hl, (masterSets_nodup hT hp).idxOf_getElem i hi]
    ring

/-- the receives of every process are served with the identifiers -/
theorem assign_spec {p : ℕ} (hp : p < np) (m : ℕ → List ℕ)
    (hm : ∀ h < np, ((T p).any fun d => !isMaster p d && (d.head? == some h)) = true →
      m h = sendIds h p (T h) (tagStart np h fun q => nblocksLoc q (T q))) :
    assignIds p (T p) (tagStart np p fun q => nblocksLoc q (T q)) m = some ((T p).map fun d => gid np T (members p d)) := by
  refine assignIds_eq p _ (T p) _ m ?_ (gid_master hT hp) ?_
  · intro _
    show gid np T (members p []) = _
    have hc : (members p []).card = 1 := by simp [members]
    rw [gid, if_pos (by omega), least_eq (m := p) (mem_members.mpr (Or.inl rfl))]
    intro x hx
    rcases mem_members.mp hx with rfl | hx
    · exact le_refl _
    · simp at hx
  · intro h hne
    obtain ⟨d, hd⟩ := List.exists_mem_of_ne_nil _ hne
    rw [List.mem_filter] at hd
    have hv := (hT.ok p hp).2 d hd.1
    obtain ⟨hhp, hl⟩ := (slave_iff hv h).mp hd.2
    have hhd : h ∈ d := by
      have := (least_mem (S := members p d) (mem_members.mpr (Or.inl rfl))).1
      rw [hl] at this
      rcases mem_members.mp this with h | h
      · exact absurd h hhp
      · exact h
    have hhn := hv.range h hhd
    rw [hm h hhn (by rw [List.any_eq_true]; exact ⟨d, hd.1, hd.2⟩)]
    rw [sendIds_eq h p (fun d => gid np T (members h d)) (T h) _ (gid_master hT hhn)]
    have := congrArg (List.map (gid np T)) (order_agrees hT hhn hp)
    rw [List.map_map, List.map_map] at this
    exact this

omit hT in
theorem tagStart_mono (nb : ℕ → ℕ) {a b : ℕ} (h : a < b) : tagStart np a nb + nb a ≤ tagStart np b nb := by
  induction b with
  | zero => omega
  | succ b ih =>
    have e : tagStart np (b + 1) nb = tagStart np b nb + nb b := by
      unfold tagStart
      rw [List.range_succ, List.map_append, List.sum_append]
      simp
      ring
    rw [e]
    by_cases hab : a = b
    · subst hab; omega
    · have := ih (by omega); omega

/-- position of the identifier of a class -/
theorem gid_range {p : ℕ} (hp : p < np) {S : Finset ℕ} (hS : Has p (T p) S) :
    least S < np ∧ (S.card = 1 → S = {least S} ∧ gid np T S = tagBase + least S) ∧
    (S.card ≠ 1 → S ∈ masterSets T (least S) ∧
      gid np T S = tagStart np (least S) (fun q => nblocksLoc q (T q)) + (masterSets T (least S)).idxOf S) := by
  obtain ⟨d, hd, rfl⟩ := hS
  have hv := (hT.ok p hp).2 d hd
  have hmem := least_mem (S := members p d) (mem_members.mpr (Or.inl rfl))
  have hln : least (members p d) < np := by
    rcases mem_members.mp hmem.1 with h | h
    · rw [h]; exact hp
    · exact hv.range _ h
  refine ⟨hln, ?_, ?_⟩
  · intro hc
    obtain ⟨a, ha⟩ := Finset.card_eq_one.mp hc
    rw [ha] at hmem ⊢
    have : least {a} = a := Finset.mem_singleton.mp hmem.1
    rw [this]
    refine ⟨rfl, ?_⟩
    rw [gid, if_pos (by simp), this]
  · intro hc
    have hc2 : 1 < (members p d).card := by
      rw [members_card hv] at hc ⊢; omega
    refine ⟨(mem_masterSets hT hln _).mpr ⟨?_, hc2, rfl⟩, by rw [gid, if_neg (by omega)]⟩
    rcases mem_members.mp hmem.1 with h | h
    · rw [h]; exact ⟨d, hd, rfl⟩
    · exact hT.cons p hp d hd _ h

/-- different classes have different identifiers -/
theorem gid_inj {p q : ℕ} (hp : p < np) (hq : q < np) {S S' : Finset ℕ} (hS : Has p (T p) S) (hS' : Has q (T q) S')
    (h : gid np T S = gid np T S') : S = S' := by
  obtain ⟨l1, a1, b1⟩ := gid_range hT hp hS
  obtain ⟨l2, a2, b2⟩ := gid_range hT hq hS'
  have base : ∀ m, tagBase + np ≤ tagStart np m fun q => nblocksLoc q (T q) := by
    intro m; unfold tagStart; omega
  by_cases c1 : S.card = 1
  · obtain ⟨e1, g1⟩ := a1 c1
    by_cases c2 : S'.card = 1
    · obtain ⟨e2, g2⟩ := a2 c2
      rw [e1, e2, show least S = least S' by omega]
    · obtain ⟨e2, g2⟩ := b2 c2
      have := base (least S')
      omega
  · obtain ⟨e1, g1⟩ := b1 c1
    by_cases c2 : S'.card = 1
    · obtain ⟨e2, g2⟩ := a2 c2
      have := base (least S)
      omega
    · obtain ⟨e2, g2⟩ := b2 c2
      have i1 := List.idxOf_lt_length_iff.mpr e1
      have i2 := List.idxOf_lt_length_iff.mpr e2
      have n1 := nblocksLoc_eq (T := T) (least S)
      have n2 := nblocksLoc_eq (T := T) (least S')
      rcases Nat.lt_trichotomy (least S) (least S') with hl | hl | hl
      · have := tagStart_mono (np := np) (fun q => nblocksLoc q (T q)) hl
        omega
      · rw [← hl] at e2 g2 i2
        rw [g1, g2] at h
        have hidx : (masterSets T (least S)).idxOf S = (masterSets T (least S)).idxOf S' := by omega
        exact (List.idxOf_inj e1).mp hidx
      · have := tagStart_mono (np := np) (fun q => nblocksLoc q (T q)) hl
        omega

end

end NgsAMG.EQC
