import Verif.Props.EQC5
import Verif.Props.SPW3
import Verif.Props.DCC

/-!
# Properties of the equivalence-class hierarchy, part 6: queries (C59), classes of the DOFs of parallel DOFs
-/

namespace NgsAMG.EQC

open NgsAMG.Exch NgsAMG.DCC

/-! ### position of a class -/

theorem lastPos_fold (T : List (List ℕ)) (c : List ℕ) (n : ℕ) :
    match (List.range n).foldl (fun pos k => if T.getD k [] = c then some k else pos) none with
    | some k => k < n ∧ T.getD k [] = c
    | none => ∀ k < n, T.getD k [] ≠ c := by
  induction n with
  | zero => simp
  | succ n ih =>
    rw [List.range_succ, List.foldl_append]
    simp only [List.foldl_cons, List.foldl_nil]
    by_cases h : T.getD n [] = c
    · rw [if_pos h]; exact ⟨by omega, h⟩
    · rw [if_neg h]
      split
      · rename_i k hk
        rw [hk] at ih
        exact ⟨by omega, ih.2⟩
      · rename_i hk
        rw [hk] at ih
        intro k hlt
        by_cases hkn : k = n
        · rw [hkn]; exact h
        · exact ih k (by omega)

theorem getD_eq {T : List (List ℕ)} {k : ℕ} (hk : k < T.length) : T.getD k [] = T[k] := by
  rw [List.getD_eq_getElem?_getD, List.getElem?_eq_getElem hk]; rfl

theorem lastPos_iff {T : List (List ℕ)} (hn : T.Nodup) (c : List ℕ) (k : ℕ) : lastPos T c = some k ↔ T[k]? = some c := by
  have h := lastPos_fold T c T.length
  unfold lastPos
  split at h
  · rename_i k' hk'
    rw [hk', Option.some.injEq]
    have hT : T[k']? = some c := by rw [List.getElem?_eq_getElem h.1, ← getD_eq h.1, h.2]
    constructor
    · rintro rfl; exact hT
    · intro hk
      obtain ⟨h1, h2⟩ := List.getElem?_eq_some_iff.mp hT
      obtain ⟨h3, h4⟩ := List.getElem?_eq_some_iff.mp hk
      exact (hn.getElem_inj_iff (hi := h1) (hj := h3)).mp (h2.trans h4.symm)
  · rename_i hk'
    rw [hk']
    constructor
    · intro h; cases h
    · intro hk
      obtain ⟨h1, h2⟩ := List.getElem?_eq_some_iff.mp hk
      exact absurd (by rw [getD_eq h1, h2]) (h k h1)

/-! ### the symmetric tables -/

theorem symTable_fold (n : ℕ) (f : ℕ → ℕ → Option ℕ) (x : ℕ) (v : Option ℕ) (l : List (ℕ × ℕ))
    (hval : ∀ e ∈ l, (x = e.1 + n * e.2 ∨ x = e.2 + n * e.1) → f e.1 e.2 = v) (cur : Option (Option ℕ))
    (hex : cur = some v ∨ ∃ e ∈ l, x = e.1 + n * e.2 ∨ x = e.2 + n * e.1) :
    l.foldl (fun cur e => if x = e.1 + n * e.2 ∨ x = e.2 + n * e.1 then some (f e.1 e.2) else cur) cur = some v := by
  induction l generalizing cur with
  | nil =>
    rcases hex with h | ⟨e, he, -⟩
    · exact h
    · cases he
  | cons e l ih =>
    rw [List.foldl_cons]
    refine ih (fun e' he' => hval e' (by simp [he'])) _ ?_
    by_cases h : x = e.1 + n * e.2 ∨ x = e.2 + n * e.1
    · rw [if_pos h, hval e (by simp) h]; exact Or.inl rfl
    · rw [if_neg h]
      rcases hex with h' | ⟨e', he', hx⟩
      · exact Or.inl h'
      · rcases List.mem_cons.mp he' with rfl | he'
        · exact absurd hx h
        · exact Or.inr ⟨e', he', hx⟩

theorem index_inj {n a b c d : ℕ} (hb : b < n) (hd : d < n) (h : a * n + b = c * n + d) : a = c ∧ b = d := by
  have hn : 0 < n := by omega
  have h1 := congrArg (· / n) h
  have h2 := congrArg (· % n) h
  simp only [Nat.mul_comm _ n, Nat.mul_add_div hn, Nat.mul_add_mod, Nat.div_eq_of_lt hb, Nat.div_eq_of_lt hd,
    Nat.mod_eq_of_lt hb, Nat.mod_eq_of_lt hd] at h1 h2
  exact ⟨by omega, h2⟩

theorem symTable_eq {n i j : ℕ} (f : ℕ → ℕ → Option ℕ) (hi : i < n) (hj : j < n) :
    symTable n f i j = some (f (min i j) (max i j)) := by
  unfold symTable
  have hmem : ∀ e : ℕ × ℕ, e ∈ ((List.range n).flatMap fun e1 => (List.range' e1 (n - e1)).map fun e2 => (e1, e2)) ↔
      e.1 ≤ e.2 ∧ e.2 < n := by
    rintro ⟨a, b⟩
    simp only [List.mem_flatMap, List.mem_range, List.mem_map, List.mem_range'_1, Prod.mk.injEq]
    constructor
    · rintro ⟨e1, h1, e2, h2, rfl, rfl⟩; omega
    · intro h; exact ⟨a, by omega, b, by omega, rfl, rfl⟩
  apply symTable_fold n f (i * n + j)
  · intro e he h
    obtain ⟨h1, h2⟩ := (hmem e).mp he
    rcases h with h | h
    · obtain ⟨ha, hb⟩ := index_inj (n := n) (a := i) (b := j) (c := e.2) (d := e.1) hj (by omega) (by rw [h]; ring)
      rw [show min i j = e.1 by omega, show max i j = e.2 by omega]
    · obtain ⟨ha, hb⟩ := index_inj (n := n) (a := i) (b := j) (c := e.1) (d := e.2) hj (by omega) (by rw [h]; ring)
      rw [show min i j = e.1 by omega, show max i j = e.2 by omega]
  · right
    refine ⟨(min i j, max i j), (hmem _).mpr ⟨by simp only; omega, by simp only; omega⟩, ?_⟩
    rcases Nat.le_total i j with h | h
    · right; simp only [min_eq_left h, max_eq_right h]; ring
    · left; simp only [min_eq_right h, max_eq_left h]; ring

/-! ### queries -/

section
variable {np p : ℕ} {T : List (List ℕ)} (hT : FamOK np p T)
include hT

/-- **`IsLEQ`** is inclusion of the sets of processes. -/
theorem isLEQ_iff {i j : ℕ} {d e : List ℕ} (hi : T[i]? = some d) (hj : T[j]? = some e) :
    isLEQ T i j = true ↔ members p d ⊆ members p e := by
  obtain ⟨hi1, rfl⟩ := List.getElem?_eq_some_iff.mp hi
  obtain ⟨hj1, rfl⟩ := List.getElem?_eq_some_iff.mp hj
  have hv := hT.2 _ (List.getElem_mem hi1)
  unfold isLEQ
  simp only [List.any_eq_true, List.mem_flatMap, List.mem_range, List.mem_map, Bool.and_eq_true, beq_iff_eq]
  constructor
  · rintro ⟨⟨a, b⟩, ⟨a', ha', b', hb', hab⟩, ⟨h1, -⟩, h3⟩
    obtain ⟨rfl, rfl⟩ := Prod.mk.inj hab
    obtain ⟨rfl, rfl⟩ := index_inj hb' hj1 h1
    intro x hx
    rw [mem_members] at hx ⊢
    rcases hx with h | h
    · exact Or.inl h
    · right
      rw [List.all_eq_true] at h3
      have := h3 x (by rw [getD_eq hi1]; exact h)
      rw [getD_eq hj1] at this
      simpa using this
  · intro hsub
    have hall : ∀ x ∈ T[i], x ∈ T[j] := by
      intro x hx
      have := hsub (mem_members.mpr (Or.inr hx))
      rcases mem_members.mp this with h | h
      · subst h; exact absurd hx hv.notSelf
      · exact h
    refine ⟨(i, j), ⟨i, hi1, j, hj1, rfl⟩, ⟨rfl, ?_⟩, ?_⟩
    · simp only [getD_eq hi1, getD_eq hj1]
      cases hd : T[i] with
      | nil => simp
      | cons a l =>
        have := hall a (by rw [hd]; simp)
        have hne : T[j] ≠ [] := List.ne_nil_of_mem this
        simp [hne]
    · rw [List.all_eq_true]
      intro x hx
      rw [getD_eq hi1] at hx
      rw [getD_eq hj1]
      simpa using hall x hx

theorem merge_members {a b : List ℕ} (ha : a ∈ T) (hb : b ∈ T) :
    SL (mergeL a b) ∧ members p (mergeL a b) = members p a ∪ members p b := by
  obtain ⟨h1, h2⟩ := mergeL_spec a b (hT.2 a ha).sorted (hT.2 b hb).sorted
  refine ⟨h1, ?_⟩
  ext x
  simp only [Finset.mem_union, mem_members, h2]
  tauto

theorem inter_members {a b : List ℕ} (ha : a ∈ T) (hb : b ∈ T) :
    SL (interL a b) ∧ members p (interL a b) = members p a ∩ members p b := by
  obtain ⟨h1, h2⟩ := interL_spec a b (hT.2 a ha).sorted (hT.2 b hb).sorted
  refine ⟨h1, ?_⟩
  ext x
  simp only [Finset.mem_inter, mem_members, h2]
  tauto

theorem pos_members {c : List ℕ} (hc : Valid np p c) (k : ℕ) :
    T[k]? = some c ↔ ∃ d, T[k]? = some d ∧ members p d = members p c := by
  constructor
  · intro h; exact ⟨c, h, rfl⟩
  · rintro ⟨d, hd, he⟩
    rw [hd, members_inj (hT.2 d (List.mem_of_getElem? hd)) hc he]

/-- **`GetMergedEQC`** returns the class of the union of the processes of two classes, `NO_EQC` if there is none in the family. -/
theorem mergedEQC_iff {i j k : ℕ} {d e : List ℕ} (hi : T[i]? = some d) (hj : T[j]? = some e) :
    mergedEQC T i j = some k ↔ ∃ c, T[k]? = some c ∧ members p c = members p d ∪ members p e := by
  obtain ⟨hi1, rfl⟩ := List.getElem?_eq_some_iff.mp hi
  obtain ⟨hj1, rfl⟩ := List.getElem?_eq_some_iff.mp hj
  have key : ∀ a b (ha : a < T.length) (hb : b < T.length),
      lastPos T (mergeL (T.getD a []) (T.getD b [])) = some k ↔ ∃ c, T[k]? = some c ∧ members p c = members p T[a] ∪ members p T[b] := by
    intro a b ha hb
    rw [getD_eq ha, getD_eq hb, lastPos_iff hT.1]
    obtain ⟨h1, h2⟩ := merge_members hT (List.getElem_mem ha) (List.getElem_mem hb)
    rw [pos_members hT (c := mergeL T[a] T[b]), h2]
    have va := hT.2 _ (List.getElem_mem ha)
    have vb := hT.2 _ (List.getElem_mem hb)
    obtain ⟨-, h3⟩ := mergeL_spec _ _ va.sorted vb.sorted
    refine ⟨h1, fun q hq => ?_, fun hq => ?_⟩
    · rcases (h3 q).mp hq with h | h
      · exact va.range q h
      · exact vb.range q h
    · rcases (h3 p).mp hq with h | h
      · exact va.notSelf h
      · exact vb.notSelf h
  unfold mergedEQC
  rw [symTable_eq _ hi1 hj1, Option.getD_some]
  rcases Nat.le_total i j with h | h
  · simp only [min_eq_left h, max_eq_right h]; exact key i j hi1 hj1
  · simp only [min_eq_right h, max_eq_left h]
    rw [Finset.union_comm]
    exact key j i hj1 hi1

/-- **`GetCommonEQC`** returns the class of the common processes of two classes, `-1` if there is none in the family. -/
theorem commonEQC_iff {i j k : ℕ} {d e : List ℕ} (hi : T[i]? = some d) (hj : T[j]? = some e) :
    commonEQC T i j = some k ↔ ∃ c, T[k]? = some c ∧ members p c = members p d ∩ members p e := by
  obtain ⟨hi1, rfl⟩ := List.getElem?_eq_some_iff.mp hi
  obtain ⟨hj1, rfl⟩ := List.getElem?_eq_some_iff.mp hj
  have key : ∀ a b (ha : a < T.length) (hb : b < T.length),
      lastPos T (interL (T.getD a []) (T.getD b [])) = some k ↔ ∃ c, T[k]? = some c ∧ members p c = members p T[a] ∩ members p T[b] := by
    intro a b ha hb
    rw [getD_eq ha, getD_eq hb, lastPos_iff hT.1]
    obtain ⟨h1, h2⟩ := inter_members hT (List.getElem_mem ha) (List.getElem_mem hb)
    rw [pos_members hT (c := interL T[a] T[b]), h2]
    have va := hT.2 _ (List.getElem_mem ha)
    have vb := hT.2 _ (List.getElem_mem hb)
    obtain ⟨-, h3⟩ := interL_spec _ _ va.sorted vb.sorted
    exact ⟨h1, fun q hq => va.range q ((h3 q).mp hq).1, fun hq => va.notSelf ((h3 p).mp hq).1⟩
  unfold commonEQC
  rw [symTable_eq _ hi1 hj1, Option.getD_some]
  rcases Nat.le_total i j with h | h
  · simp only [min_eq_left h, max_eq_right h]; exact key i j hi1 hj1
  · simp only [min_eq_right h, max_eq_left h]
    rw [Finset.inter_comm]
    exact key j i hj1 hi1

/-- **`FindEQCWithDPs`** finds a class exactly if it is in the family. -/
theorem findEQC_iff (d : List ℕ) (k : ℕ) : findEQC T d = some k ↔ T[k]? = some d := by
  unfold findEQC
  constructor
  · intro h
    have h1 := List.find?_some h
    have h2 := List.mem_range.mp (List.mem_of_find?_eq_some h)
    simp only [decide_eq_true_eq] at h1
    rw [List.getElem?_eq_getElem h2, ← getD_eq h2, h1]
  · intro h
    obtain ⟨h1, h2⟩ := List.getElem?_eq_some_iff.mp h
    cases hf : (List.range T.length).find? (fun k => decide (T.getD k [] = d)) with
    | none =>
      rw [List.find?_eq_none] at hf
      have := hf k (List.mem_range.mpr h1)
      rw [getD_eq h1] at this
      simp [h2] at this
    | some k' =>
      have h3 := List.find?_some hf
      have h4 := List.mem_range.mp (List.mem_of_find?_eq_some hf)
      simp only [decide_eq_true_eq] at h3
      rw [getD_eq h4, ← h2] at h3
      rw [(hT.1.getElem_inj_iff (hi := h4) (hj := h1)).mp h3]

/-- **Masters.** All processes of a class agree on its master (the smallest of them), and `IsMasterOfEQC` says who it is. -/
theorem masters {d : List ℕ} (hd : d ∈ T) :
    (∃ m ∈ members p d, (∀ x ∈ members p d, m ≤ x) ∧ masterOf p d = m) ∧ (isMaster p d = true ↔ masterOf p d = p) := by
  have hv := hT.2 d hd
  cases d with
  | nil => simp [masterOf, isMaster, members]
  | cons h l =>
    have hs := List.pairwise_cons.mp hv.sorted
    have hne : p ≠ h := fun e => hv.notSelf (by simp [e])
    refine ⟨⟨masterOf p (h :: l), ?_, ?_, rfl⟩, by simp only [masterOf, isMaster, decide_eq_true_eq]; omega⟩
    · simp only [masterOf, mem_members, List.mem_cons]
      rcases Nat.le_total p h with h1 | h1
      · rw [min_eq_left h1]; simp
      · rw [min_eq_right h1]; simp
    · intro x hx
      simp only [masterOf]
      rcases mem_members.mp hx with rfl | hx
      · exact min_le_left _ _
      · rcases List.mem_cons.mp hx with rfl | hx
        · exact min_le_right _ _
        · have := hs.1 x hx
          exact le_trans (min_le_right _ _) this.le

end

/-- in a closed family `GetCommonEQC` always finds a class -/
theorem commonEQC_closed {np p : ℕ} {V T : List (List ℕ)} (h : Closed np V p T) {i j : ℕ} (hi : i < T.length) (hj : j < T.length) :
    ∃ k c, commonEQC T i j = some k ∧ T[k]? = some c ∧ members p c = members p T[i] ∩ members p T[j] := by
  obtain ⟨c, hc, hm⟩ := h.inter _ (List.getElem_mem hi) _ (List.getElem_mem hj)
  obtain ⟨k, hk, hkc⟩ := List.mem_iff_getElem.mp hc
  have hkc' : T[k]? = some c := by rw [List.getElem?_eq_getElem hk, hkc]
  exact ⟨k, c, (commonEQC_iff h.ok (List.getElem?_eq_getElem hi) (List.getElem?_eq_getElem hj)).mpr ⟨c, hkc', hm⟩, hkc', hm⟩

/-! ### `IsLEQ` as an order (used by the aggregation, `Verif.Props.SPW3`) -/

/-- `IsLEQ`, extended by equality outside of the table -/
def leqExt (T : List (List ℕ)) (a b : ℕ) : Bool :=
  if a < T.length ∧ b < T.length then isLEQ T a b else a == b || a == 0

/-- **`IsLEQ` is an order with the local class as its smallest element** (table sorted as by the set-up, local class present). -/
theorem leqOK_of_table {np p : ℕ} {T : List (List ℕ)} (hT : FamOK np p T) (h0 : T[0]? = some []) : SPW.LeqOK (leqExt T) := by
  have hin : ∀ a (h : a < T.length), T[a]? = some T[a] := fun a h => List.getElem?_eq_getElem h
  have h0' : 0 < T.length := (List.getElem?_eq_some_iff.mp h0).1
  have hsub : ∀ a b (ha : a < T.length) (hb : b < T.length), leqExt T a b = true ↔ members p T[a] ⊆ members p T[b] := by
    intro a b ha hb
    unfold leqExt
    rw [if_pos ⟨ha, hb⟩]
    exact isLEQ_iff hT (hin a ha) (hin b hb)
  have hout : ∀ a b, ¬ (a < T.length ∧ b < T.length) → (leqExt T a b = true ↔ a = b ∨ a = 0) := by
    intro a b h
    unfold leqExt
    rw [if_neg h]
    simp
  have hmin : ∀ a (ha : a < T.length), members p T[0] ⊆ members p T[a] := by
    intro a ha
    obtain ⟨h1, h2⟩ := List.getElem?_eq_some_iff.mp h0
    rw [h2]
    intro x hx
    rcases mem_members.mp hx with h | h
    · exact mem_members.mpr (Or.inl h)
    · cases h
  have hzero : ∀ a, leqExt T 0 a = true := by
    intro a
    by_cases ha : a < T.length
    · exact (hsub 0 a h0' ha).mpr (hmin a ha)
    · exact (hout 0 a (fun h => ha h.2)).mpr (Or.inr rfl)
  refine ⟨fun a => ?_, fun a b c hab hbc => ?_, fun a b hab hba => ?_, hzero⟩
  · by_cases ha : a < T.length
    · exact (hsub a a ha ha).mpr (Finset.Subset.refl _)
    · exact (hout a a (fun h => ha h.1)).mpr (Or.inl rfl)
  · by_cases h1 : a < T.length ∧ b < T.length
    · by_cases h2 : b < T.length ∧ c < T.length
      · exact (hsub a c h1.1 h2.2).mpr (((hsub a b h1.1 h1.2).mp hab).trans ((hsub b c h2.1 h2.2).mp hbc))
      · rcases (hout b c h2).mp hbc with rfl | rfl
        · exact hab
        · have : members p T[a] = members p T[0] :=
            Finset.Subset.antisymm ((hsub a 0 h1.1 h0').mp hab) (hmin a h1.1)
          have := members_inj (hT.2 _ (List.getElem_mem h1.1)) (hT.2 _ (List.getElem_mem h0')) this
          rw [(hT.1.getElem_inj_iff (hi := h1.1) (hj := h0')).mp this]
          exact hzero c
    · rcases (hout a b h1).mp hab with rfl | rfl
      · exact hbc
      · exact hzero c
  · by_cases h1 : a < T.length ∧ b < T.length
    · have := Finset.Subset.antisymm ((hsub a b h1.1 h1.2).mp hab) ((hsub b a h1.2 h1.1).mp hba)
      have := members_inj (hT.2 _ (List.getElem_mem h1.1)) (hT.2 _ (List.getElem_mem h1.2)) this
      exact (hT.1.getElem_inj_iff (hi := h1.1) (hj := h1.2)).mp this
    · rcases (hout a b h1).mp hab with h | h
      · exact h
      · rcases (hout b a (fun h => h1 ⟨h.2, h.1⟩)).mp hba with h' | h'
        · exact h'.symm
        · rw [h, h']

/-! ### the classes of the DOFs -/

theorem classes_fold (P : PD) (sel : ℕ → ℕ → Bool) (p : ℕ) (n : ℕ) (hn : n ≤ P.ndof p) :
    ∃ V', (List.range n).foldl (fun V d =>
      if sel p d = false then V
      else if P.dps p d = [] then V
      else if (V.drop 1).contains (P.dps p d) then V else V ++ [P.dps p d]) [[]] = [] :: V' ∧ FamOK P.np p ([] :: V') ∧
      ∀ c, c ∈ V' ↔ c ≠ [] ∧ ∃ d < n, sel p d = true ∧ P.dps p d = c := by
  induction n with
  | zero =>
    refine ⟨[], rfl, ⟨by simp, ?_⟩, by simp⟩
    intro d hd
    rw [List.mem_singleton] at hd
    subst hd
    exact ⟨List.Pairwise.nil, by simp, by simp⟩
  | succ n ih =>
    obtain ⟨V', h1, h2, h3⟩ := ih (by omega)
    rw [List.range_succ, List.foldl_append, h1]
    simp only [List.foldl_cons, List.foldl_nil, List.drop_succ_cons, List.drop_zero]
    have grow : ∀ c, (c ≠ [] ∧ ∃ d < n, sel p d = true ∧ P.dps p d = c) → c ≠ [] ∧ ∃ d < n + 1, sel p d = true ∧ P.dps p d = c := by
      rintro c ⟨hc, d, hd, h⟩
      exact ⟨hc, d, by omega, h⟩
    have back : ∀ c, (c ≠ [] ∧ ∃ d < n + 1, sel p d = true ∧ P.dps p d = c) → ¬ (c ≠ [] ∧ sel p n = true ∧ P.dps p n = c) →
        c ≠ [] ∧ ∃ d < n, sel p d = true ∧ P.dps p d = c := by
      rintro c ⟨hc, d, hd, h⟩ hno
      refine ⟨hc, d, ?_, h⟩
      by_contra hge
      have : d = n := by omega
      subst this
      exact hno ⟨hc, h.1, h.2⟩
    by_cases hs : sel p n = false
    · rw [if_pos hs]
      refine ⟨V', rfl, h2, fun c => ?_⟩
      rw [h3]
      exact ⟨grow c, fun h => back c h (by rintro ⟨-, h, -⟩; rw [hs] at h; cases h)⟩
    · rw [if_neg hs]
      by_cases he : P.dps p n = []
      · rw [if_pos he]
        refine ⟨V', rfl, h2, fun c => ?_⟩
        rw [h3]
        exact ⟨grow c, fun h => back c h (by rintro ⟨h1, -, h⟩; exact h1 (h ▸ he))⟩
      · rw [if_neg he]
        by_cases hc : V'.contains (P.dps p n) = true
        · rw [if_pos hc]
          refine ⟨V', rfl, h2, fun c => ?_⟩
          rw [h3]
          refine ⟨grow c, fun h => ?_⟩
          by_cases hh : c ≠ [] ∧ sel p n = true ∧ P.dps p n = c
          · obtain ⟨-, -, rfl⟩ := hh
            exact (h3 _).mp (by simpa using hc)
          · exact back c h hh
        · rw [if_neg hc]
          refine ⟨V' ++ [P.dps p n], by simp, ⟨?_, ?_⟩, fun c => ?_⟩
          · rw [← List.cons_append, List.nodup_append]
            refine ⟨h2.1, by simp, ?_⟩
            intro a ha b hb
            rw [List.mem_singleton] at hb
            subst hb
            rcases List.mem_cons.mp ha with rfl | ha
            · exact fun h => he h.symm
            · rintro rfl; exact hc (by simpa using ha)
          · intro d hd
            rcases List.mem_cons.mp hd with rfl | hd
            · exact h2.2 [] (by simp)
            · rcases List.mem_append.mp hd with hd | hd
              · exact h2.2 d (by simp [hd])
              · rw [List.mem_singleton] at hd
                subst hd
                refine ⟨?_, ?_, ?_⟩
                · exact List.Pairwise.filter _ List.pairwise_lt_range
                · intro q hq
                  exact List.mem_range.mp (List.mem_filter.mp hq).1
                · intro h
                  have := (List.mem_filter.mp h).2
                  simp at this
          · rw [List.mem_append, h3, List.mem_singleton]
            constructor
            · rintro (h | rfl)
              · exact grow c h
              · exact ⟨he, n, by omega, by simpa using hs, rfl⟩
            · intro h
              by_cases hh : c ≠ [] ∧ sel p n = true ∧ P.dps p n = c
              · exact Or.inr hh.2.2.symm
              · exact Or.inl (back c h hh)

end NgsAMG.EQC
