import Verif.Props.MISAgg1

/-!
# C91: the invariant of both loops
-/

namespace NgsAMG.MIS
open NgsAMG.CMap NgsAMG.Spec

variable {E : Env}

/-- members assigned by the first two ways are at most this far from the centre -/
def bound (E : Env) : ℤ := if E.dist2 then 3 else 2

/-- the state of the run: disjoint agglomerates of vertices that were free to use, connected, with radius at most `bound + 1`; `marked` says which vertices are taken -/
structure Inv0 (E : Env) (s : St) : Prop where
  disj : Disjoint s.aggs s.v2a
  marked : ∀ v, s.marked v = (marked0 E v || (s.v2a v).isSome)
  fresh : ∀ v a, s.v2a v = some a → marked0 E v = false
  leq : ∀ g ∈ s.aggs, ∀ v ∈ g.mems, E.leq (E.eq v) (E.eq g.center) = true
  walk : ∀ g ∈ s.aggs, ∀ v ∈ g.mems, 0 ≤ s.dist v ∧ s.dist v ≤ bound E + 1 ∧ Walk E.nb g.mems g.center v (s.dist v).toNat
  far : ∀ v a, s.v2a v = some a → bound E < s.dist v → ∀ n ∈ E.nb v, s.v2a n ≠ none

theorem walk_mono {nb : ℕ → List ℕ} {S T : List ℕ} {u v n m : ℕ} (h : Walk nb S u v n) (hST : ∀ x ∈ S, x ∈ T) (hnm : n ≤ m) : Walk nb T u v m := by
  induction h generalizing m with
  | refl n h => exact .refl m (hST _ h)
  | step h hv e ih =>
    obtain ⟨m', rfl⟩ : ∃ m', m = m' + 1 := ⟨m - 1, by omega⟩
    exact .step (ih (by omega)) (hST _ hv) e

theorem bound_pos (E : Env) : 2 ≤ bound E := by unfold bound; split <;> omega

theorem Inv0.same {s s' : St} (h : Inv0 E s) (hs : Same s s') : Inv0 E s' := by
  have hm : ∀ g ∈ s.aggs, ∀ v ∈ g.mems, s.v2a v ≠ none := by
    intro g hg v hv
    obtain ⟨a, ha⟩ := List.mem_iff_getElem?.1 hg
    rw [(h.disj.mem v a).2 ⟨g, ha, hv⟩]
    simp
  refine ⟨hs.aggs ▸ hs.v2a ▸ h.disj, ?_, hs.v2a ▸ h.fresh, hs.aggs ▸ h.leq, ?_, ?_⟩
  · intro v
    rw [hs.marked, hs.v2a, h.marked]
  · intro g hg v hv
    rw [hs.aggs] at hg
    rw [hs.dist v (hm g hg v hv)]
    exact h.walk g hg v hv
  · intro v a hv hd
    rw [hs.v2a] at hv ⊢
    rw [hs.dist v (by rw [hv]; simp)] at hd
    exact h.far v a hv hd

theorem Inv0.tested {s : St} (h : Inv0 E s) : Inv0 E (tested s) := h.same ⟨rfl, rfl, rfl, fun _ _ => rfl⟩

theorem Inv0.unmarked {s : St} (h : Inv0 E s) {w : ℕ} (hw : s.marked w = false) : marked0 E w = false ∧ s.v2a w = none := by
  rw [h.marked, Bool.or_eq_false_iff] at hw
  exact ⟨hw.1, by simpa using hw.2⟩

theorem Inv0.lt {s : St} (h : Inv0 E s) {v a : ℕ} (hv : s.v2a v = some a) : a < s.aggs.length := by
  obtain ⟨g, hg, -⟩ := (h.disj.mem v a).1 hv
  exact (List.getElem?_eq_some_iff.1 hg).1

/-- an agglomerate grown around a vertex that is not taken keeps the invariant -/
theorem Inv0.grown (hE : EnvOK E) {s s' : St} (h : Inv0 E s) {v : ℕ} {ms : List ℕ} (hv : s.marked v = false) (hg : Grown E s v (E.eq v) ms s') : Inv0 E s' := by
  have hun : ∀ w ∈ ms, s.marked w = false := fun w hw => if e : w = v then e ▸ hv else (hg.new w hw e).1
  refine ⟨⟨?_, ?_, ?_⟩, ?_, ?_, ?_, ?_, ?_⟩
  · intro w a
    rw [hg.v2a, hg.aggs]
    by_cases hw : w ∈ ms
    · rw [if_pos hw]
      constructor
      · intro e
        cases e
        exact ⟨⟨v, ms⟩, by simp, hw⟩
      · rintro ⟨g, hga, hwg⟩
        rcases lt_or_ge a s.aggs.length with hlt | hge
        · rw [List.getElem?_append_left hlt] at hga
          have := (h.disj.mem w a).2 ⟨g, hga, hwg⟩
          rw [(h.unmarked (hun w hw)).2] at this
          cases this
        · have : a < (s.aggs ++ [(⟨v, ms⟩ : Agg)]).length := (List.getElem?_eq_some_iff.1 hga).1
          simp at this
          congr 1
          omega
    · rw [if_neg hw, h.disj.mem]
      constructor
      · rintro ⟨g, hga, hwg⟩
        exact ⟨g, by rw [List.getElem?_append_left (List.getElem?_eq_some_iff.1 hga).1]; exact hga, hwg⟩
      · rintro ⟨g, hga, hwg⟩
        rcases lt_or_ge a s.aggs.length with hlt | hge
        · rw [List.getElem?_append_left hlt] at hga
          exact ⟨g, hga, hwg⟩
        · have hl : a < (s.aggs ++ [(⟨v, ms⟩ : Agg)]).length := (List.getElem?_eq_some_iff.1 hga).1
          have ha : a = s.aggs.length := by simp at hl; omega
          subst ha
          simp at hga
          subst hga
          exact absurd hwg hw
  · intro g hgm
    rw [hg.aggs, List.mem_append, List.mem_singleton] at hgm
    rcases hgm with hgm | rfl
    · exact h.disj.cen g hgm
    · exact hg.cen
  · intro g hgm
    rw [hg.aggs, List.mem_append, List.mem_singleton] at hgm
    rcases hgm with hgm | rfl
    · exact h.disj.asc g hgm
    · exact hg.asc
  · intro w
    rw [hg.marked, hg.v2a, h.marked]
    by_cases hw : w ∈ ms
    · simp [hw]
    · simp [hw]
  · intro w a hw
    rw [hg.v2a] at hw
    by_cases hwm : w ∈ ms
    · exact (h.unmarked (hun w hwm)).1
    · rw [if_neg hwm] at hw
      exact h.fresh w a hw
  · intro g hgm w hw
    rw [hg.aggs, List.mem_append, List.mem_singleton] at hgm
    rcases hgm with hgm | rfl
    · exact h.leq g hgm w hw
    · by_cases e : w = v
      · subst e
        exact hE.refl w
      · exact (hg.new w hw e).2.2.1
  · intro g hgm w hw
    rw [hg.aggs, List.mem_append, List.mem_singleton] at hgm
    rcases hgm with hgm | rfl
    · have hnot : w ∉ ms := by
        intro hwm
        obtain ⟨a, ha⟩ := List.mem_iff_getElem?.1 hgm
        have := (h.disj.mem w a).2 ⟨g, ha, hw⟩
        rw [(h.unmarked (hun w hwm)).2] at this
        cases this
      rw [hg.dist w hnot]
      exact h.walk g hgm w hw
    · have hb := bound_pos E
      by_cases e : w = v
      · subst e
        rw [hg.dcen]
        exact ⟨le_refl _, by omega, .refl _ hg.cen⟩
      · obtain ⟨-, hn, -, hd⟩ := hg.new w hw e
        rw [hd]
        exact ⟨by omega, by omega, .step (.refl 0 hg.cen) hw hn⟩
  · intro w a hw hd n hn
    have hb := bound_pos E
    rw [hg.v2a] at hw ⊢
    by_cases hwm : w ∈ ms
    · exfalso
      by_cases e : w = v
      · subst e
        rw [hg.dcen] at hd
        omega
      · rw [(hg.new w hwm e).2.2.2] at hd
        omega
    · rw [if_neg hwm] at hw
      rw [hg.dist w hwm] at hd
      split
      · simp
      · exact h.far w a hw hd n hn

theorem Inv0.hun {s : St} (h : Inv0 E s) : ∀ w, s.marked w = false → s.v2a w = none := fun _ hw => (h.unmarked hw).2

/-- vertices in an agglomerate stay there -/
def Keeps (s s' : St) : Prop := ∀ w a, s.v2a w = some a → s'.v2a w = some a

theorem Grown.keeps {s s' : St} (h : Inv0 E s) {v : ℕ} {ms : List ℕ} (hv : s.marked v = false) (hg : Grown E s v (E.eq v) ms s') : Keeps s s' := by
  intro w a hw
  rw [hg.v2a, if_neg]
  · exact hw
  · intro hwm
    have : s.marked w = false := if e : w = v then e ▸ hv else (hg.new w hwm e).1
    rw [(h.unmarked this).2] at hw
    cases hw

theorem initAgg_inv (hE : EnvOK E) {s : St} (h : Inv0 E s) {v : ℕ} (hv : s.marked v = false) (force : Bool) :
    Inv0 E (initAgg E s v (E.eq v) force).1 ∧ Keeps s (initAgg E s v (E.eq v) force).1 ∧ (force = true → (initAgg E s v (E.eq v) force).1.v2a v = some s.aggs.length) := by
  rcases initAgg_grown (veq := E.eq v) hE hv h.hun force with ⟨ms, hg⟩ | ⟨hf, hs⟩
  · refine ⟨h.grown hE hv hg, hg.keeps h hv, fun _ => ?_⟩
    rw [hg.v2a, if_pos hg.cen]
  · refine ⟨h.same hs, ?_, fun e => ?_⟩
    · intro w a hw
      rw [hs.v2a]
      exact hw
    · rw [hf] at e
      cases e

theorem checkV_inv (hE : EnvOK E) {s : St} (h : Inv0 E s) (v : ℕ) : Inv0 E (checkV E s v) ∧ Keeps s (checkV E s v) := by
  rw [checkV]
  split
  · exact ⟨h, fun _ _ h => h⟩
  · split
    · exact ⟨h, fun _ _ h => h⟩
    · rename_i hv _
      have := initAgg_inv hE h (v := v) (by simpa using hv) false
      exact ⟨this.1, this.2.1⟩

/-- a vertex that is not taken can be added to an agglomerate with a neighbour in it -/
theorem Inv0.addTo (hE : EnvOK E) {s : St} (h : Inv0 E s) {v a : ℕ} {g : Agg} {d : ℤ} (hv : s.marked v = false) (ha : s.aggs[a]? = some g)
    (hleq : E.leq (E.eq v) (E.eq g.center) = true) {u : ℕ} (hu : u ∈ g.mems) (hun : v ∈ E.nb u) (hd : 1 + s.dist u ≤ d) (hd' : d ≤ bound E + 1)
    (hfar : bound E < d → ∀ n ∈ E.nb v, s.v2a n ≠ none) : Inv0 E (addTo s a v d) := by
  obtain ⟨h0, hn⟩ := h.unmarked hv
  have hmem : g ∈ s.aggs := List.mem_of_getElem? ha
  have hvg : v ∉ g.mems := by
    intro hvg
    have := (h.disj.mem v a).2 ⟨g, ha, hvg⟩
    rw [hn] at this
    cases this
  have hget : ∀ b : ℕ, (MIS.addTo s a v d).aggs[b]? = if b = a then some { g with mems := g.mems.orderedInsert (· ≤ ·) v } else s.aggs[b]? := by
    intro b
    simp only [MIS.addTo, List.getElem?_modify]
    by_cases e : b = a
    · subst e
      rw [ha]
      simp
    · have e' : a ≠ b := fun h => e h.symm
      rw [if_neg e]
      cases s.aggs[b]? <;> simp [e']
  have hall : ∀ g' ∈ (MIS.addTo s a v d).aggs, g' = { g with mems := g.mems.orderedInsert (· ≤ ·) v } ∨ (g' ∈ s.aggs ∧ v ∉ g'.mems) := by
    intro g' hg'
    obtain ⟨b, hb⟩ := List.mem_iff_getElem?.1 hg'
    rw [hget] at hb
    split at hb
    · left
      cases hb
      rfl
    · right
      refine ⟨List.mem_of_getElem? hb, fun hvb => ?_⟩
      have := (h.disj.mem v b).2 ⟨g', hb, hvb⟩
      rw [hn] at this
      cases this
  refine ⟨⟨?_, ?_, ?_⟩, ?_, ?_, ?_, ?_, ?_⟩
  · intro w b
    rw [hget]
    simp only [MIS.addTo, Function.update_apply]
    by_cases e : w = v
    · subst e
      rw [if_pos rfl]
      constructor
      · intro e
        cases e
        exact ⟨_, if_pos rfl, by simp⟩
      · rintro ⟨g', hg', hw⟩
        split at hg'
        · rename_i hba
          rw [hba]
        · have := (h.disj.mem w b).2 ⟨g', hg', hw⟩
          rw [hn] at this
          cases this
    · rw [if_neg e, h.disj.mem]
      by_cases hb : b = a
      · subst hb
        rw [if_pos rfl, ha]
        simp [e]
      · rw [if_neg hb]
  · intro g' hg'
    rcases hall g' hg' with rfl | ⟨h1, -⟩
    · simp [h.disj.cen g hmem]
    · exact h.disj.cen g' h1
  · intro g' hg'
    rcases hall g' hg' with rfl | ⟨h1, -⟩
    · exact orderedInsert_lt (h.disj.asc g hmem) hvg
    · exact h.disj.asc g' h1
  · intro w
    simp only [MIS.addTo, Function.update_apply, h.marked]
    by_cases e : w = v <;> simp [e]
  · intro w b hw
    simp only [MIS.addTo, Function.update_apply] at hw
    by_cases e : w = v
    · rw [e]
      exact h0
    · rw [if_neg e] at hw
      exact h.fresh w b hw
  · intro g' hg' w hw
    rcases hall g' hg' with rfl | ⟨h1, -⟩
    · rw [List.mem_orderedInsert] at hw
      rcases hw with rfl | hw
      · exact hleq
      · exact h.leq g hmem w hw
    · exact h.leq g' h1 w hw
  · intro g' hg' w hw
    simp only [MIS.addTo, Function.update_apply]
    rcases hall g' hg' with rfl | ⟨h1, h2⟩
    · rw [List.mem_orderedInsert] at hw
      by_cases e : w = v
      · subst e
        rw [if_pos rfl]
        have hw := h.walk g hmem u hu
        refine ⟨by omega, hd', ?_⟩
        obtain ⟨m, hm⟩ : ∃ m, d.toNat = m + 1 := ⟨d.toNat - 1, by omega⟩
        rw [hm]
        exact .step (walk_mono hw.2.2 (fun x hx => by simp [hx]) (by omega)) (by simp) hun
      · rw [if_neg e]
        have hw := h.walk g hmem w (hw.resolve_left e)
        exact ⟨hw.1, hw.2.1, walk_mono hw.2.2 (fun x hx => by simp [hx]) le_rfl⟩
    · have hwv : w ≠ v := by
        rintro rfl
        exact h2 hw
      rw [if_neg hwv]
      exact h.walk g' h1 w hw
  · intro w b hw hdw n hnn
    simp only [MIS.addTo, Function.update_apply] at hw hdw ⊢
    split
    · simp
    · by_cases e : w = v
      · subst e
        rw [if_pos rfl] at hdw
        exact hfar hdw n hnn
      · rw [if_neg e] at hw hdw
        exact h.far w b hw hdw n hnn

theorem addTo_keeps {s : St} {a v : ℕ} {d : ℤ} (hv : s.v2a v = none) : Keeps s (addTo s a v d) := by
  intro w b hw
  simp only [addTo, Function.update_apply]
  rw [if_neg]
  · exact hw
  · rintro rfl
    rw [hv] at hw
    cases hw

theorem addTo_self (s : St) (a v : ℕ) (d : ℤ) : (addTo s a v d).v2a v = some a := by simp [addTo]

end NgsAMG.MIS
