import Verif.Props.CoarseMap2

/-!
# C75: the numbers of the agglomerates of a process
-/

namespace NgsAMG.CMap

open NgsAMG.EQC NgsAMG.RedTab NgsAMG.Exch NgsAMG.BTM

/-- the number of the agglomerate `a` within its class -/
def numOf (C : Ctx) (aggs : List Agg) (st : VSt) (a : ℕ) : ℕ :=
  if cen C aggs a = some 0 then (aggs.take a).countP (isLoc C) else (((st.agg[a]?).join).getD (0, 0)).1

/-- the number of coarse vertices of a class, by the process that is its master -/
def cntOf (C : Ctx) (aggs : List Agg) (st : VSt) (k : ℕ) : ℕ := if k = 0 then aggs.countP (isLoc C) else st.cnt.getD k 0

theorem countP_take_lt {α : Type} (f : α → Bool) (l : List α) {i : ℕ} {x : α} (hi : l[i]? = some x) (hx : f x = true) :
    (l.take i).countP f < l.countP f := by
  have : l = l.take i ++ x :: l.drop (i + 1) := by
    obtain ⟨h, rfl⟩ := List.getElem?_eq_some_iff.mp hi
    rw [← List.drop_eq_getElem_cons h, List.take_append_drop]
  conv_rhs => rw [this]
  rw [List.countP_append, List.countP_cons_of_pos hx]
  omega

theorem countP_take_mono {α : Type} (f : α → Bool) (l : List α) {i j : ℕ} {x : α} (hi : l[i]? = some x) (hx : f x = true) (hij : i < j) :
    (l.take i).countP f < (l.take j).countP f := by
  have h : (l.take j)[i]? = some x := by rw [List.getElem?_take_of_lt hij, hi]
  have := countP_take_lt f (l.take j) h hx
  rwa [List.take_take, Nat.min_eq_left hij.le] at this

theorem countP_take_surj {α : Type} (f : α → Bool) (l : List α) {c : ℕ} (hc : c < l.countP f) :
    ∃ i x, l[i]? = some x ∧ f x = true ∧ (l.take i).countP f = c := by
  induction l generalizing c with
  | nil => simp at hc
  | cons y l ih =>
    by_cases hy : f y = true
    · rw [List.countP_cons_of_pos hy] at hc
      cases c with
      | zero => exact ⟨0, y, rfl, hy, by simp⟩
      | succ c =>
        obtain ⟨i, x, h1, h2, h3⟩ := ih (c := c) (by omega)
        exact ⟨i + 1, x, h1, h2, by rw [List.take_succ_cons, List.countP_cons_of_pos hy, h3]⟩
    · rw [List.countP_cons_of_neg hy] at hc
      obtain ⟨i, x, h1, h2, h3⟩ := ih hc
      exact ⟨i + 1, x, h1, h2, by rw [List.take_succ_cons, List.countP_cons_of_neg hy, h3]⟩

section
variable {np : ℕ} {C : ℕ → Ctx} (hM : Mesh np C) {aggs : ℕ → List Agg} {v2agg : ℕ → List (Option ℕ)} (hA : AggsOK np C aggs v2agg)
include hM hA

theorem mem_lt {p : ℕ} {g : Agg} {v : ℕ} (hp : p < np) (hg : g ∈ aggs p) (hv : v ∈ g.mems) : v < (C p).nv := by
  obtain ⟨a, ha⟩ := List.mem_iff_getElem?.mp hg
  have := (hA.v2a p hp v a).mpr ⟨g, ha, hv⟩
  rw [← hA.len p hp]
  exact (List.getElem?_eq_some_iff.mp this).1

/-- the class of the center of an agglomerate -/
theorem cen_spec {p a : ℕ} {g : Agg} (hp : p < np) (hg : (aggs p)[a]? = some g) :
    ∃ k d r i, cen (C p) (aggs p) a = some k ∧ (C p).T[k]? = some d ∧ IsVert p (C p) g.center (members p d) r ∧ (C p).ids[k]? = some i ∧
      isMaster p d = true := by
  have hgm := List.mem_of_getElem? hg
  have hc := hA.cen p hp g hgm
  have hlt := mem_lt hM hA hp hgm hc
  obtain ⟨k, a', b, d, h1, h2, h3, h4, h5⟩ := vert_block hM hp hlt
  obtain ⟨q1, q2, i, q3⟩ := vert_query hM hp h1 h2 h3 h4 h5
  have hiv : IsVert p (C p) g.center (members p d) (g.center - a') := ⟨k, a', b, d, h1, rfl, h2, h3, by omega, h5⟩
  refine ⟨k, d, _, i, by unfold cen; rw [hg, Option.bind_some, q1], h1, hiv, q3, ?_⟩
  rw [isMaster_members ((hM.tabs.ok p hp).2 d (List.mem_of_getElem? h1))]
  exact (hA.own p hp g hgm g.center hc _ _ _ _ hiv hiv).2

/-- the class of a member is contained in that of the center -/
theorem cen_mem {p a v k : ℕ} {g : Agg} {d : List ℕ} {S : Finset ℕ} {r : ℕ} (hp : p < np) (hg : (aggs p)[a]? = some g) (hv : v ∈ g.mems)
    (hk : cen (C p) (aggs p) a = some k) (hd : (C p).T[k]? = some d) (hS : IsVert p (C p) v S r) :
    S ⊆ members p d ∧ ∀ q ∈ members p d, p ≤ q := by
  obtain ⟨k', d', r', i, h1, h2, h3, -, -⟩ := cen_spec hM hA hp hg
  rw [hk] at h1; cases h1
  rw [hd] at h2; cases h2
  exact hA.own p hp g (List.mem_of_getElem? hg) v hv _ _ _ _ hS h3

/-- the local class consists of one process -/
theorem cls0 {p : ℕ} {d : List ℕ} (hp : p < np) (hd : (C p).T[0]? = some d) : d = [] := by
  have := hM.loc p hp (by intro h; rw [h] at hd; simp at hd)
  rw [hd] at this
  exact Option.some.inj this

theorem cls0_iff {p k : ℕ} {d : List ℕ} (hp : p < np) (hd : (C p).T[k]? = some d) : k = 0 ↔ members p d = {p} := by
  constructor
  · rintro rfl
    rw [cls0 hM hA hp hd]
    ext x; simp [mem_members]
  · intro h
    have h0 := hM.loc p hp (by intro h; rw [h] at hd; simp at hd)
    refine cls_eq (hM.tabs.ok p hp) hd h0 ?_
    rw [h]
    ext x; simp [mem_members]

theorem exData_spec {p : ℕ} (hp : p < np) : ∃ st rows, exData (C p) p (aggs p) (v2agg p) = some (st, rows) ∧ rows.length = (C p).T.length ∧
    (∀ k, 0 < k → k < (C p).T.length → ∃ row, rows[k]? = some (st.cnt.getD k 0, row) ∧ RowOK (C p) p (v2agg p) st k row) ∧
    (∀ row, rows[0]? = some row → row = (0, [])) ∧
    VInv (C p) (aggs p) (fun a => ∃ k, k ≠ 0 ∧ cen (C p) (aggs p) a = some k) st := by
  have hi : VInv (C p) (aggs p) (fun _ => False) ⟨List.replicate (C p).T.length 0, List.replicate (aggs p).length none⟩ := by
    refine ⟨by simp, by simp, ?_, ?_, ?_, ?_⟩
    · intro a c k h
      rw [List.getElem?_replicate] at h
      split at h <;> simp at h
    · intro a b x h
      rw [List.getElem?_replicate] at h
      split at h <;> simp at h
    · intro k c h
      rw [List.getD_eq_getElem?_getD, List.getElem?_replicate] at h
      split at h <;> simp at h
    · intro a
      rw [List.getElem?_replicate]
      split <;> simp
  obtain ⟨st, rows, h1, h2, -, h4⟩ := exLoop_spec (v2agg := v2agg p) p (List.range' 1 ((C p).T.length - 1)) hi (by
    intro k hk hm v hv
    have hkl : k < (C p).T.length := by rw [List.mem_range'_1] at hk; omega
    obtain ⟨r, hr⟩ := List.mem_iff_getElem?.mp hv
    have hiv := (vertsOf_get hM hp (List.getElem?_eq_getElem hkl)).mp hr
    have hlt := isVert_lt hM hp hiv
    have hl2 : v < (v2agg p).length := by rw [hA.len p hp]; exact hlt
    refine ⟨_, List.getElem?_eq_getElem hl2, fun a ha => ?_⟩
    obtain ⟨g, g1, g2⟩ := (hA.v2a p hp v a).mp (by rw [List.getElem?_eq_getElem hl2, ha])
    obtain ⟨k', d, -, i, c1, c2, -, c4, -⟩ := cen_spec hM hA hp g1
    exact ⟨k', i, c1, (List.getElem?_eq_some_iff.mp c2).1, c4⟩)
  refine ⟨st, _, by unfold exData; rw [h1]; rfl, ?_, ?_, ?_, h2.congr fun a => ?_⟩
  · have hl := h4.length_eq
    rw [List.length_range'] at hl
    split
    · simp [*]
    · simp only [List.length_cons, List.length_map, List.length_zipIdx]
      omega
  · intro k hk0 hk
    have hl := h4.length_eq
    rw [List.length_range'] at hl
    rw [if_neg (by omega)]
    obtain ⟨j, rfl⟩ : ∃ j, k = j + 1 := ⟨k - 1, by omega⟩
    have hj : j < rows.length := by omega
    refine ⟨rows[j], ?_, ?_⟩
    · rw [List.getElem?_cons_succ, List.getElem?_map, List.getElem?_zipIdx, List.getElem?_eq_getElem hj]
      simp [Nat.add_comm]
    · have := (List.forall₂_iff_get.mp h4).2 j (by rw [List.length_range']; omega) hj
      simp only [List.get_eq_getElem, List.getElem_range', Nat.one_mul] at this
      rwa [Nat.add_comm] at this
  · intro row hrow
    split at hrow
    · simp at hrow
    · simpa using hrow.symm
  · constructor
    · rintro (h | ⟨k, hk, hm, v, hv, hva⟩)
      · exact h.elim
      · obtain ⟨g, g1, g2⟩ := (hA.v2a p hp v a).mp hva
        obtain ⟨k', d, r', i, c1, c2, c3, c4, -⟩ := cen_spec hM hA hp g1
        refine ⟨k', ?_, c1⟩
        rintro rfl
        rw [List.mem_range'_1] at hk
        have hkl : k < (C p).T.length := by omega
        obtain ⟨r, hr⟩ := List.mem_iff_getElem?.mp hv
        have hiv := (vertsOf_get hM hp (List.getElem?_eq_getElem hkl)).mp hr
        have hsub := (cen_mem hM hA hp g1 g2 c1 c2 hiv).1
        rw [(cls0_iff hM hA hp c2).mp rfl] at hsub
        have hself := isVert_self hiv
        have : members p (C p).T[k] = {p} := by
          ext x
          rw [Finset.mem_singleton]
          constructor
          · intro hx; exact Finset.mem_singleton.mp (hsub hx)
          · rintro rfl; exact hself
        have := (cls0_iff hM hA hp (List.getElem?_eq_getElem hkl)).mpr this
        omega
    · rintro ⟨k, hk0, hk⟩
      right
      obtain ⟨g, g1, -⟩ := Option.bind_eq_some_iff.mp hk
      obtain ⟨k', d, r, i, c1, c2, c3, -, c5⟩ := cen_spec hM hA hp g1
      rw [hk] at c1; cases c1
      have hkl := (List.getElem?_eq_some_iff.mp c2).1
      refine ⟨k, by rw [List.mem_range'_1]; omega, by rw [List.getD_eq_getElem?_getD, c2]; exact c5, g.center, ?_, ?_⟩
      · exact List.mem_of_getElem? ((vertsOf_get hM hp c2).mpr c3)
      · exact (hA.v2a p hp _ a).mpr ⟨g, g1, hA.cen p hp g (List.mem_of_getElem? g1)⟩

/-- the state that `exData` ends with -/
abbrev Good (C : Ctx) (aggs : List Agg) (st : VSt) : Prop := VInv C aggs (fun a => ∃ k, k ≠ 0 ∧ cen C aggs a = some k) st

omit hM hA in
theorem good_cnt0 {C : Ctx} {aggs : List Agg} {st : VSt} (h : Good C aggs st) : st.cnt.getD 0 0 = 0 := by
  by_contra hne
  obtain ⟨a, ha⟩ := h.surj 0 0 (by omega)
  obtain ⟨k, hk0, hk⟩ := (h.mem a).mp ⟨_, ha⟩
  have := (h.ok a 0 0 ha).1
  rw [hk] at this
  exact hk0 (Option.some.inj this)

omit hM hA in
theorem good_agg {C : Ctx} {aggs : List Agg} {st : VSt} (h : Good C aggs st) {a k : ℕ} (hk : cen C aggs a = some k) (h0 : k ≠ 0) :
    st.agg[a]? = some (some (numOf C aggs st a, k)) := by
  obtain ⟨⟨c, k'⟩, hx⟩ := (h.mem a).mpr ⟨k, h0, hk⟩
  have := (h.ok a c k' hx).1
  rw [hk] at this
  cases this
  unfold numOf
  rw [if_neg (by rw [hk]; simpa using h0), hx]
  rfl

omit hM hA in
theorem num_lt {C : Ctx} {aggs : List Agg} {st : VSt} (h : Good C aggs st) {a k : ℕ} (hk : cen C aggs a = some k) :
    numOf C aggs st a < cntOf C aggs st k := by
  by_cases h0 : k = 0
  · subst h0
    unfold numOf cntOf
    rw [if_pos hk, if_pos rfl]
    obtain ⟨g, g1, g2⟩ := Option.bind_eq_some_iff.mp hk
    exact countP_take_lt _ _ g1 (by simp [isLoc, g2])
  · have := (h.ok a _ _ (good_agg h hk h0)).2
    unfold cntOf
    rwa [if_neg h0]

omit hM hA in
theorem num_inj {C : Ctx} {aggs : List Agg} {st : VSt} (h : Good C aggs st) {a b k : ℕ} (ha : cen C aggs a = some k) (hb : cen C aggs b = some k)
    (he : numOf C aggs st a = numOf C aggs st b) : a = b := by
  by_cases h0 : k = 0
  · subst h0
    unfold numOf at he
    rw [if_pos ha, if_pos hb] at he
    obtain ⟨g, g1, g2⟩ := Option.bind_eq_some_iff.mp ha
    obtain ⟨g', g1', g2'⟩ := Option.bind_eq_some_iff.mp hb
    rcases Nat.lt_trichotomy a b with hlt | heq | hlt
    · have := countP_take_mono (isLoc C) aggs g1 (by simp [isLoc, g2]) hlt
      omega
    · exact heq
    · have := countP_take_mono (isLoc C) aggs g1' (by simp [isLoc, g2']) hlt
      omega
  · have h1 := good_agg h ha h0
    have h2 := good_agg h hb h0
    rw [he] at h1
    exact h.inj a b _ h1 h2

omit hM hA in
theorem num_surj {C : Ctx} {aggs : List Agg} {st : VSt} (h : Good C aggs st) {k c : ℕ} (hc : c < cntOf C aggs st k) :
    ∃ a, cen C aggs a = some k ∧ numOf C aggs st a = c := by
  unfold cntOf at hc
  by_cases h0 : k = 0
  · subst h0
    rw [if_pos rfl] at hc
    obtain ⟨i, g, h1, h2, h3⟩ := countP_take_surj _ _ hc
    have hcen : cen C aggs i = some 0 := by unfold cen; rw [h1]; simpa [isLoc] using h2
    exact ⟨i, hcen, by unfold numOf; rw [if_pos hcen, h3]⟩
  · rw [if_neg h0] at hc
    obtain ⟨a, ha⟩ := h.surj k c hc
    have hk := (h.ok a c k ha).1
    refine ⟨a, hk, ?_⟩
    have := good_agg h hk h0
    rw [ha] at this
    simpa using this.symm

end

end NgsAMG.CMap
