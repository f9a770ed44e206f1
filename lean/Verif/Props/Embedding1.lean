import Verif.Spec.Embedding
import Verif.Model.Embedding
import Verif.Props.SparseLA
import Verif.Props.DofMesh1
import Verif.Props.DofMaps2

/-!
# C96: matrices with at most one entry per row
-/

namespace NgsAMG.DofM
open NgsAMG NgsAMG.SparseMM NgsAMG.SparseLA NgsAMG.Spec Matrix

variable {K : Type*} [CommRing K] {a b c n : ℕ}

/-- the rows of `A` are given by `f`: no entry or one entry -/
structure One (A : CSR (Mt a b K)) (h w : ℕ) (f : ℕ → Option (ℕ × Mt a b K)) : Prop where
  height : A.height = h
  width : A.width = w
  row : ∀ i < h, A.row i = (f i).toList
  outside : ∀ i, h ≤ i → A.row i = []
  lt : ∀ i < h, ∀ e, f i = some e → e.1 < w

theorem One.wf {A : CSR (Mt a b K)} {h w : ℕ} {f : ℕ → Option (ℕ × Mt a b K)} (hA : One A h w f) : A.WF := by
  refine ⟨fun i => ?_, fun i e he => ?_, fun i hi => hA.outside i (by rw [← hA.height]; exact hi)⟩
  · by_cases hi : i < h
    · rw [hA.row i hi]
      cases f i <;> simp
    · rw [hA.outside i (by omega)]
      simp
  · by_cases hi : i < h
    · rw [hA.row i hi] at he
      rw [hA.width]
      exact hA.lt i hi e (by simpa using he)
    · rw [hA.outside i (by omega)] at he
      cases he

theorem One.entry {A : CSR (Mt a b K)} {h w : ℕ} {f : ℕ → Option (ℕ × Mt a b K)} (hA : One A h w f) {i : ℕ} (hi : i < h) (j : ℕ) :
    A.entry i j = match f i with | none => 0 | some e => if e.1 = j then e.2 else 0 := by
  unfold CSR.entry
  rw [hA.row i hi]
  rcases f i with _ | e
  · simp
  · by_cases hj : e.1 = j
    · simp [hj]
    · simp [hj]

theorem One.act {A : CSR (Mt a b K)} {h w : ℕ} {f : ℕ → Option (ℕ × Mt a b K)} (hA : One A h w f) {i : ℕ} (hi : i < h) (x : ℕ → Fin b → K) :
    act A x i = match f i with | none => 0 | some e => e.2 *ᵥ x e.1 := by
  unfold Spec.act
  rw [hA.row i hi]
  rcases f i with _ | e <;> simp

theorem One.congr {A : CSR (Mt a b K)} {h w : ℕ} {f g : ℕ → Option (ℕ × Mt a b K)} (hA : One A h w f) (hfg : ∀ i < h, f i = g i) : One A h w g :=
  ⟨hA.height, hA.width, fun i hi => by rw [← hfg i hi]; exact hA.row i hi, hA.outside, fun i hi e he => hA.lt i hi e (by rw [hfg i hi]; exact he)⟩

/-- the product of two of them -/
theorem One.mul {A : CSR (Mt a b K)} {B : CSR (Mt b c K)} {h m w : ℕ} {f : ℕ → Option (ℕ × Mt a b K)} {g : ℕ → Option (ℕ × Mt b c K)}
    (hA : One A h m f) (hB : One B m w g) (hw : w ≤ 2 ^ 30) (T : Tables) :
    ∃ C, matMultAB T.nhash T.junk T.mjunk A B = some C ∧ One C h w fun i => (f i).bind fun e => (g e.1).map fun e' => (e'.1, e.2 * e'.2) := by
  obtain ⟨C, hC, hwf, hh, hwd, he, hp⟩ := matMultAB_correct T.nhash T.junk T.mjunk A B hA.wf hB.wf (by rw [hA.width, hB.height]) (by rw [hB.width]; exact hw)
  refine ⟨C, hC, by rw [hh, hA.height], by rw [hwd, hB.width], ?_, ?_, ?_⟩
  · intro i hi
    rcases hfi : f i with _ | e
    · have hr : A.row i = [] := by rw [hA.row i hi, hfi]; rfl
      simp only [Option.bind_none, Option.toList_none]
      rw [List.eq_nil_iff_forall_not_mem]
      rintro ⟨j, v⟩ hjv
      obtain ⟨k, u, w', h1, -⟩ := (hp i j).mp ⟨v, hjv⟩
      rw [hr] at h1
      cases h1
    · have hr : A.row i = [e] := by rw [hA.row i hi, hfi]; rfl
      have hem : e.1 < m := hA.lt i hi e hfi
      rcases hge : g e.1 with _ | e'
      · have hr' : B.row e.1 = [] := by rw [hB.row e.1 hem, hge]; rfl
        simp only [Option.bind_some, hge, Option.map_none, Option.toList_none]
        rw [List.eq_nil_iff_forall_not_mem]
        rintro ⟨j, v⟩ hjv
        obtain ⟨k, u, w', h1, h2⟩ := (hp i j).mp ⟨v, hjv⟩
        rw [hr, List.mem_singleton] at h1
        subst h1
        rw [hr'] at h2
        cases h2
      · have hr' : B.row e.1 = [e'] := by rw [hB.row e.1 hem, hge]; rfl
        simp only [Option.bind_some, hge, Option.map_some, Option.toList_some]
        have hent : C.entry i e'.1 = e.2 * e'.2 := by
          rw [he, hA.width, Finset.sum_eq_single e.1]
          · rw [hA.entry hi, hfi, hB.entry hem, hge]
            simp
          · intro k hk hne
            rw [hA.entry hi, hfi]
            simp [Ne.symm hne]
          · intro hne
            exact absurd (Finset.mem_range.mpr hem) hne
        have hmem : ∀ j v, (j, v) ∈ C.row i ↔ j = e'.1 ∧ v = e.2 * e'.2 := by
          intro j v
          constructor
          · intro hjv
            obtain ⟨k, u, w', h1, h2⟩ := (hp i j).mp ⟨v, hjv⟩
            rw [hr, List.mem_singleton] at h1
            subst h1
            rw [hr', List.mem_singleton] at h2
            subst h2
            refine ⟨rfl, ?_⟩
            rw [← hent]
            exact (entry_of_mem C i _ v (hwf.sorted i) hjv).symm
          · rintro ⟨rfl, rfl⟩
            obtain ⟨v, hv⟩ := (hp i e'.1).mpr ⟨e.1, e.2, e'.2, by rw [hr]; simp, by rw [hr']; simp⟩
            have := entry_of_mem C i _ v (hwf.sorted i) hv
            rw [← hent, this]
            exact hv
        refine row_ext (hwf.sorted i) (by simp) ?_
        rintro ⟨j, v⟩
        rw [hmem j v]
        simp
  · intro i hi
    exact hwf.outside i (by rw [hh, hA.height]; exact hi)
  · intro i hi e he'
    obtain ⟨e1, h1, h2⟩ := Option.bind_eq_some_iff.mp he'
    obtain ⟨e2, h3, h4⟩ := Option.map_eq_some_iff.mp h2
    subst h4
    exact hB.lt e1.1 (hA.lt i hi e1 h1) e2 h3

/-! ### the three factors -/

/-- the permutation matrix -/
theorem one_perm {nv : ℕ} {sort : List ℕ} (hs : sort.Perm (List.range nv)) : One (permutationMatrix n sort : CSR (Mt n n K)) nv nv fun k => (sort[k]?).map fun s => (s, 1) := by
  have hl : sort.length = nv := by rw [hs.length_eq, List.length_range]
  refine ⟨hl, hl, ?_, ?_, ?_⟩
  · intro i hi
    simp only [permutationMatrix]
    rcases sort[i]? with _ | s <;> simp
  · intro i hi
    simp only [permutationMatrix]
    rw [List.getElem?_eq_none (by omega)]
    rfl
  · intro i hi e he
    obtain ⟨s, h1, rfl⟩ := Option.map_eq_some_iff.mp he
    exact List.mem_range.mp (hs.subset (List.mem_of_getElem? h1))

/-- the place of `d` in `D` -/
def pos (D : List ℕ) (d : ℕ) : Option ℕ := if d ∈ D then some (D.idxOf d) else none

theorem pos_get {D : List ℕ} (hD : D.Nodup) {k d : ℕ} : pos D d = some k ↔ D[k]? = some d := by
  unfold pos
  constructor
  · intro h
    split at h
    · rename_i hm
      cases h
      exact List.getElem?_idxOf hm
    · cases h
  · intro h
    have hm : d ∈ D := List.mem_of_getElem? h
    obtain ⟨hk, he⟩ := List.getElem?_eq_some_iff.mp h
    rw [if_pos hm]
    congr 1
    refine (hD.getElem_inj_iff (hi := List.idxOf_lt_length_of_mem hm) (hj := hk)).mp ?_
    rw [he]
    exact List.getElem_idxOf _

theorem pos_none {D : List ℕ} {d : ℕ} (h : d ∉ D) : pos D d = none := if_neg h

theorem pos_lt {D : List ℕ} {k d : ℕ} (h : pos D d = some k) : k < D.length := by
  unfold pos at h
  split at h
  · rename_i hm
    cases h
    exact List.idxOf_lt_length_of_mem hm
  · cases h

theorem esRows_spec (D : List ℕ) (hD : D.Nodup) : (esRows D : (ℕ → List (ℕ × Mt n n K)) × ℕ).2 = D.length ∧
    (∀ k d, D[k]? = some d → (esRows D : (ℕ → List (ℕ × Mt n n K)) × ℕ).1 d = [(k, (1 : Mt n n K))]) ∧
    ∀ d, d ∉ D → (esRows D : (ℕ → List (ℕ × Mt n n K)) × ℕ).1 d = [] := by
  induction D using List.reverseRecOn with
  | nil => exact ⟨rfl, fun k d h => by simp at h, fun d _ => rfl⟩
  | append_singleton D x ih =>
    obtain ⟨i1, i2, i3⟩ := ih (List.nodup_append.mp hD).1
    have hx : x ∉ D := fun h => (List.nodup_append.mp hD).2.2 x h x (by simp) rfl
    have hf : (esRows (D ++ [x]) : (ℕ → List (ℕ × Mt n n K)) × ℕ) = esPut (esRows D) x := by
      unfold esRows
      rw [List.foldl_append]
      rfl
    rw [hf]
    refine ⟨by simp [esPut, i1], fun k d hk => ?_, fun d hd => ?_⟩
    · simp only [esPut]
      by_cases hkD : k < D.length
      · rw [List.getElem?_append_left hkD] at hk
        have hne : d ≠ x := fun h => hx (h ▸ List.mem_of_getElem? hk)
        rw [Function.update_of_ne hne]
        exact i2 k d hk
      · rw [List.getElem?_append_right (by omega), List.getElem?_singleton] at hk
        split at hk
        · rename_i h0
          cases hk
          rw [Function.update_self, i1]
          have : k = D.length := by omega
          rw [this]
        · cases hk
    · simp only [List.mem_append, List.mem_singleton, not_or] at hd
      simp only [esPut]
      rw [Function.update_of_ne hd.2]
      exact i3 d hd.1

/-- what `BuildES` may return for the chosen degrees of freedom `D` -/
def IsES (nd : ℕ) (D : List ℕ) : Option (CSR (Mt n n K)) → Prop
  | none => D = List.range nd
  | some S => One S nd D.length fun d => (pos D d).map fun k => (k, 1)

theorem one_es {nd : ℕ} {D : List ℕ} (hD : D.Nodup) (hlt : ∀ d ∈ D, d < nd) : One (⟨nd, D.length, (esRows D).1⟩ : CSR (Mt n n K)) nd D.length fun d => (pos D d).map fun k => (k, 1) := by
  obtain ⟨-, h2, h3⟩ := esRows_spec (n := n) (K := K) D hD
  refine ⟨rfl, rfl, ?_, ?_, ?_⟩
  · intro i hi
    by_cases hm : i ∈ D
    · obtain ⟨k, hk⟩ := List.getElem?_of_mem hm
      rw [(pos_get hD).mpr hk]
      exact h2 k i hk
    · rw [pos_none hm]
      exact h3 i hm
  · intro i hi
    exact h3 i fun hm => by have := hlt i hm; omega
  · intro i hi e he
    obtain ⟨k, h1, rfl⟩ := Option.map_eq_some_iff.mp he
    exact pos_lt h1

theorem mem_dofsOf {ranges : List (ℕ × ℕ)} {d : ℕ} : d ∈ dofsOf ranges ↔ ∃ r ∈ ranges, r.1 ≤ d ∧ d < r.2 := by
  unfold dofsOf
  simp only [List.mem_flatMap, List.mem_range'_1]
  constructor
  · rintro ⟨r, h1, h2, h3⟩
    exact ⟨r, h1, h2, by omega⟩
  · rintro ⟨r, h1, h2, h3⟩
    exact ⟨r, h1, h2, by omega⟩

/-- degrees of freedom outside of `notin_ss` are chosen -/
theorem notIn_covers (nd : ℕ) (ranges : List (ℕ × ℕ)) {d : ℕ} (hd : d < nd) (h : d < (notIn nd ranges).1 ∨ (notIn nd ranges).2 ≤ d) : d ∈ dofsOf ranges := by
  rw [mem_dofsOf]
  induction ranges using List.reverseRecOn with
  | nil => simp [notIn] at h; omega
  | append_singleton rs r ih =>
    have hf : notIn nd (rs ++ [r]) = notInStep r (notIn nd rs) := by unfold notIn; rw [List.foldl_append]; rfl
    rw [hf] at h
    by_cases hr : r.1 ≤ d ∧ d < r.2
    · exact ⟨r, by simp, hr⟩
    · have : d < (notIn nd rs).1 ∨ (notIn nd rs).2 ≤ d := by
        unfold notInStep at h
        split_ifs at h with h1 h2
        · simp only at h; omega
        · simp only at h; omega
        · exact h
      obtain ⟨r', h1, h2⟩ := ih this
      exact ⟨r', by simp [h1], h2⟩

theorem eq_range_of {nd : ℕ} {D : List ℕ} (hs : D.Pairwise (· < ·)) (h : ∀ d, d ∈ D ↔ d < nd) : D = List.range nd := by
  refine List.Perm.eq_of_pairwise (le := (· < ·)) (fun x y _ _ h1 h2 => by omega) hs List.pairwise_lt_range ?_
  rw [List.perm_ext_iff_of_nodup (hs.imp fun h => h.ne) List.nodup_range]
  intro x
  rw [h x, List.mem_range]

/-- **C96** (`BuildES`, ranges) -/
theorem esRange_correct {nd : ℕ} {ranges : List (ℕ × ℕ)} (hr : ∀ r ∈ ranges, r.1 ≤ r.2) (hs : (dofsOf ranges).Pairwise (· < ·)) (hlt : ∀ d ∈ dofsOf ranges, d < nd) :
    ∃ S, (esRange n nd ranges : Option (Option (CSR (Mt n n K)))) = some S ∧ IsES nd (dofsOf ranges) S := by
  unfold esRange
  by_cases ht : rangeTriv nd ranges = true
  · rw [if_pos ht]
    refine ⟨none, rfl, eq_range_of hs fun d => ⟨hlt d, fun hd => notIn_covers nd ranges hd ?_⟩⟩
    unfold rangeTriv at ht
    rw [beq_iff_eq] at ht
    omega
  · rw [if_neg ht, if_pos]
    · have hw : (ranges.map fun r => r.2 - r.1).sum = (dofsOf ranges).length := inSS_eq ranges
      rw [hw]
      exact ⟨_, rfl, one_es (hs.imp fun h => h.ne) hlt⟩
    · intro r hrm
      refine ⟨hr r hrm, fun h => ?_⟩
      have := hlt (r.2 - 1) (mem_dofsOf.mpr ⟨r, hrm, by omega, by omega⟩)
      omega

/-- **C96** (`BuildES`, bits) -/
theorem esSelect_correct (bits : List Bool) :
    ∃ S, (esSelect n bits.length bits : Option (Option (CSR (Mt n n K)))) = some S ∧ IsES bits.length (setBits bits) S := by
  have hs : (setBits bits).Pairwise (· < ·) := List.pairwise_lt_range.filter _
  have hlt : ∀ d ∈ setBits bits, d < bits.length := fun d hd => List.mem_range.mp (List.mem_filter.mp hd).1
  unfold esSelect
  by_cases ht : (setBits bits).length = bits.length
  · rw [if_pos ht]
    refine ⟨none, rfl, ?_⟩
    have : setBits bits = List.range bits.length := by
      refine (List.Sublist.eq_of_length (List.filter_sublist) ?_)
      rw [List.length_range]
      exact ht
    exact this
  · rw [if_neg ht, if_pos le_rfl]
    exact ⟨_, rfl, one_es (hs.imp fun h => h.ne) hlt⟩

end NgsAMG.DofM
