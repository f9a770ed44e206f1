import Verif.Model.LoopBuckets
import Verif.Props.SortedArray
import Mathlib.Algebra.BigOperators.Group.List.Basic

/-!
# The buckets for duplicates (C98)
-/

namespace NgsAMG.Loop
open NgsAMG.SortedArray

/-- ranges of the classes: sorted, not empty, and every vertex seen is in the range of its class -/
structure RInv (st : List (ℕ × ℕ × ℕ)) (seen : ℕ × ℕ → Prop) : Prop where
  sorted : (st.map Prod.fst).Pairwise (· < ·)
  covers : ∀ f, seen f → ∃ e ∈ st, e.1 = f.1 ∧ e.2.1 ≤ f.2 ∧ f.2 < e.2.2

theorem addFirst_spec {st : List (ℕ × ℕ × ℕ)} {seen : ℕ × ℕ → Prop} (h : RInv st seen) (f : ℕ × ℕ) :
    ∃ st', addFirst st f = some st' ∧ RInv st' fun g => seen g ∨ g = f := by
  obtain ⟨p, hp, hsp⟩ := mergePos_correct f.1 (st.map Prod.fst) (h.sorted.imp le_of_lt)
  have hple : p ≤ st.length := by simpa using hsp.1
  have hins : f.1 ∉ st.map Prod.fst → RInv (st.insertIdx p (f.1, f.2, f.2 + 1)) fun g => seen g ∨ g = f := by
    intro hx
    refine ⟨?_, ?_⟩
    · rw [List.map_insertIdx]
      have h1 := pairwise_insertIdx (h.sorted.imp le_of_lt) hsp
      have hperm : ((st.map Prod.fst).insertIdx p f.1).Perm (f.1 :: st.map Prod.fst) := List.perm_insertIdx _ _ hsp.1
      have h2 : ((st.map Prod.fst).insertIdx p f.1).Nodup := by
        rw [hperm.nodup_iff, List.nodup_cons]
        exact ⟨hx, h.sorted.imp ne_of_lt⟩
      exact (h1.and h2).imp fun h => lt_of_le_of_ne h.1 h.2
    · have hm : ∀ {x : ℕ × ℕ × ℕ}, x ∈ st.insertIdx p (f.1, f.2, f.2 + 1) ↔ x ∈ (f.1, f.2, f.2 + 1) :: st := (List.perm_insertIdx (f.1, f.2, f.2 + 1) st hple).mem_iff
      rintro g (hg | rfl)
      · obtain ⟨e, he, h1⟩ := h.covers g hg
        exact ⟨e, hm.2 (List.mem_cons_of_mem _ he), h1⟩
      · exact ⟨(g.1, g.2, g.2 + 1), hm.2 (by simp), rfl, le_refl _, Nat.lt_succ_self _⟩
  have key : f.1 ∈ st.map Prod.fst → 0 < p ∧ ∃ e, st[p - 1]? = some e ∧ e.1 = f.1 := by
    intro hx
    obtain ⟨i, hi⟩ := List.mem_iff_getElem?.1 hx
    have hip : i < p := by
      by_contra hc
      exact absurd (hsp.2.2 i _ hi (by omega)) (lt_irrefl _)
    refine ⟨by omega, ?_⟩
    have hlt : p - 1 < st.length := by omega
    refine ⟨st[p - 1], List.getElem?_eq_getElem hlt, ?_⟩
    have hw : (st.map Prod.fst)[p - 1]? = some (st[p - 1]).1 := by simp [List.getElem?_eq_getElem hlt]
    rcases Nat.lt_or_ge i (p - 1) with h' | h'
    · have h1 := lt_of_pairwise h.sorted hi hw h'
      have h2 := hsp.2.1 _ _ hw (by omega)
      exact absurd h1 (not_lt.2 h2)
    · have : i = p - 1 := by omega
      subst this
      rw [hw] at hi
      injection hi
  by_cases hx : f.1 ∈ st.map Prod.fst
  · obtain ⟨h0, e, he, hef⟩ := key hx
    have hlt : p - 1 < st.length := by omega
    refine ⟨st.set (p - 1) (e.1, min e.2.1 f.2, max e.2.2 (f.2 + 1)), ?_, ?_, ?_⟩
    · simp [addFirst, hp, h0, he, hef]
    · have : (st.set (p - 1) (e.1, min e.2.1 f.2, max e.2.2 (f.2 + 1))).map Prod.fst = st.map Prod.fst := by
        rw [List.map_set]
        apply List.ext_getElem?
        intro k
        rw [List.getElem?_set]
        split_ifs with h1 h2
        · subst h1; simp [he]
        · simp at h2; omega
        · rfl
      rw [this]; exact h.sorted
    · have hnew : (e.1, min e.2.1 f.2, max e.2.2 (f.2 + 1)) ∈ st.set (p - 1) (e.1, min e.2.1 f.2, max e.2.2 (f.2 + 1)) := List.mem_set hlt _
      rintro g (hg | rfl)
      · obtain ⟨x, hx', h1, h2, h3⟩ := h.covers g hg
        obtain ⟨k, hk⟩ := List.mem_iff_getElem?.1 hx'
        by_cases hkp : p - 1 = k
        · subst hkp
          rw [he] at hk
          injection hk with hk
          subst hk
          exact ⟨_, hnew, h1, by simp only; omega, by simp only; omega⟩
        · exact ⟨x, List.mem_iff_getElem?.2 ⟨k, by rw [List.getElem?_set_ne hkp]; exact hk⟩, h1, h2, h3⟩
      · exact ⟨_, hnew, hef, by simp only; omega, by simp only; omega⟩
  · refine ⟨st.insertIdx p (f.1, f.2, f.2 + 1), ?_, hins hx⟩
    rw [addFirst, hp]
    cases hq : (if 0 < p then st[p - 1]? else none) with
    | none => simp [hq, hple]
    | some e =>
      have hne : e.1 ≠ f.1 := by
        intro hef
        apply hx
        split_ifs at hq
        exact List.mem_map.2 ⟨e, List.mem_of_getElem? hq, hef⟩
      simp [hq, hne, hple]

theorem eqRanges_spec (firsts : List (ℕ × ℕ)) : ∃ st, eqRanges firsts = some st ∧ RInv st fun g => g ∈ firsts := by
  have key : ∀ (l : List (ℕ × ℕ)) (st : List (ℕ × ℕ × ℕ)) (seen : ℕ × ℕ → Prop), RInv st seen → ∃ st', l.foldlM addFirst st = some st' ∧ RInv st' fun g => seen g ∨ g ∈ l := by
    intro l
    induction l with
    | nil => intro st seen h; exact ⟨st, rfl, h.sorted, fun f hf => h.covers f (by simpa using hf)⟩
    | cons f l ih =>
      intro st seen h
      obtain ⟨st1, h1, h2⟩ := addFirst_spec h f
      obtain ⟨st2, h3, h4⟩ := ih st1 _ h2
      exact ⟨st2, by simp [h1, h3], h4.sorted, fun g hg => h4.covers g (by rcases hg with hg | hg; exact Or.inl (Or.inl hg); rcases List.mem_cons.1 hg with hg | hg; exact Or.inl (Or.inr hg); exact Or.inr hg)⟩
  obtain ⟨st, h1, h2⟩ := key firsts [] (fun _ => False) ⟨by simp, by simp⟩
  exact ⟨st, h1, h2.sorted, fun f hf => h2.covers f (Or.inr hf)⟩

theorem bucketOff_succ (st : List (ℕ × ℕ × ℕ)) (k : ℕ) (e : ℕ × ℕ × ℕ) (h : st[k]? = some e) : bucketOff st (k + 1) = bucketOff st k + (e.2.2 - e.2.1) := by
  have hk : k < st.length := by
    by_contra hc; rw [List.getElem?_eq_none (by omega)] at h; cases h
  rw [List.getElem?_eq_getElem hk] at h
  injection h with h
  rw [bucketOff, List.take_succ_eq_append_getElem hk, List.map_append, List.sum_append, h]
  simp [bucketOff]

theorem bucketOff_mono (st : List (ℕ × ℕ × ℕ)) {k l : ℕ} (h : k ≤ l) : bucketOff st k ≤ bucketOff st l := by
  induction l with
  | zero => obtain rfl : k = 0 := by omega
            exact le_refl _
  | succ l ih =>
    rcases Nat.lt_or_ge k (l + 1) with h1 | h1
    · refine (ih (by omega)).trans ?_
      cases hl : st[l]? with
      | some e => rw [bucketOff_succ st l e hl]; omega
      | none =>
        have : st.length ≤ l := List.getElem?_eq_none_iff.1 hl
        rw [bucketOff, bucketOff, List.take_of_length_le this, List.take_of_length_le (by omega)]
    · obtain rfl : k = l + 1 := by omega
      exact le_refl _

/-- **C98** (buckets). For all loops: every loop has a bucket, the buckets are numbered without overrunning the table, and two loops are in the
same bucket exactly if they begin at the same vertex. -/
theorem buckets_correct (firsts : List (ℕ × ℕ)) : ∃ st, eqRanges firsts = some st ∧
    (∀ f ∈ firsts, ∃ b, tup2bucket st f = some b ∧ b < bucketOff st st.length) ∧
    ∀ f ∈ firsts, ∀ g ∈ firsts, tup2bucket st f = tup2bucket st g ↔ f = g := by
  obtain ⟨st, hst, hi⟩ := eqRanges_spec firsts
  have hb : ∀ f ∈ firsts, ∃ k e, st[k]? = some e ∧ e.1 = f.1 ∧ e.2.1 ≤ f.2 ∧ f.2 < e.2.2 ∧ tup2bucket st f = some (bucketOff st k + (f.2 - e.2.1)) := by
    intro f hf
    obtain ⟨e, he, h1, h2, h3⟩ := hi.covers f hf
    obtain ⟨r, hr, hr1, -⟩ := find_correct f.1 (st.map Prod.fst) hi.sorted
    obtain ⟨k, rfl, hk⟩ := hr1 (List.mem_map.2 ⟨e, he, h1⟩)
    obtain ⟨k', hk'⟩ := List.mem_iff_getElem?.1 he
    have hkk : k = k' := by
      have h5 : (st.map Prod.fst)[k']? = some f.1 := by rw [List.getElem?_map, hk', Option.map_some, h1]
      by_contra hne
      rcases Nat.lt_or_gt_of_ne hne with h | h
      · exact absurd (lt_of_pairwise hi.sorted hk h5 h) (lt_irrefl _)
      · exact absurd (lt_of_pairwise hi.sorted h5 hk h) (lt_irrefl _)
    subst hkk
    exact ⟨k, e, hk', h1, h2, h3, by simp [tup2bucket, hr, hk', h2]⟩
  refine ⟨st, hst, ?_, ?_⟩
  · intro f hf
    obtain ⟨k, e, h1, h2, h3, h4, h5⟩ := hb f hf
    refine ⟨_, h5, ?_⟩
    have hk : k < st.length := by
      by_contra hc; rw [List.getElem?_eq_none (by omega)] at h1; cases h1
    have := bucketOff_mono st (show k + 1 ≤ st.length by omega)
    rw [bucketOff_succ st k e h1] at this
    omega
  · intro f hf g hg
    constructor
    · intro heq
      obtain ⟨k, e, h1, h2, h3, h4, h5⟩ := hb f hf
      obtain ⟨k', e', h1', h2', h3', h4', h5'⟩ := hb g hg
      rw [h5, h5'] at heq
      injection heq with heq
      have s1 := bucketOff_succ st k e h1
      have s2 := bucketOff_succ st k' e' h1'
      have hkk : k = k' := by
        by_contra hne
        rcases Nat.lt_or_gt_of_ne hne with h | h
        · have := bucketOff_mono st (show k + 1 ≤ k' from h); omega
        · have := bucketOff_mono st (show k' + 1 ≤ k from h); omega
      subst hkk
      rw [h1] at h1'
      injection h1' with h1'
      subst h1'
      exact Prod.ext (h2.symm.trans h2') (by omega)
    · rintro rfl; rfl

/-- four loops that begin at three vertices of two classes -/
example : ∃ st, eqRanges [(1021, 4), (1020, 2), (1021, 4), (1021, 7)] = some st ∧
    ∃ b, tup2bucket st (1021, 4) = some b ∧ tup2bucket st (1021, 7) ≠ some b ∧ tup2bucket st (1020, 2) ≠ some b := by
  obtain ⟨st, h1, h2, h3⟩ := buckets_correct [(1021, 4), (1020, 2), (1021, 4), (1021, 7)]
  obtain ⟨b, hb, -⟩ := h2 (1021, 4) (by decide)
  refine ⟨st, h1, b, hb, ?_, ?_⟩
  · rw [← hb, ne_eq, h3 _ (by decide) _ (by decide)]; decide
  · rw [← hb, ne_eq, h3 _ (by decide) _ (by decide)]; decide

end NgsAMG.Loop
