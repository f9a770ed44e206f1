import Verif.Model.CoarseMap
import Verif.Props.BTM10

/-!
# C75: the vertices of the coarse mesh: numbers given by one process
-/

namespace NgsAMG.CMap

open NgsAMG.EQC NgsAMG.RedTab NgsAMG.Exch NgsAMG.BTM

/-- the class of the center of the agglomerate `a` -/
def cen (C : Ctx) (aggs : List Agg) (a : ℕ) : Option ℕ := (aggs[a]?).bind fun g => C.eqcV g.center

/-- the numbers given so far, to the agglomerates `seen` -/
structure VInv (C : Ctx) (aggs : List Agg) (seen : ℕ → Prop) (st : VSt) : Prop where
  lc : st.cnt.length = C.T.length
  la : st.agg.length = aggs.length
  ok : ∀ a c k : ℕ, st.agg[a]? = some (some (c, k)) → cen C aggs a = some k ∧ c < st.cnt.getD k 0
  inj : ∀ (a b : ℕ) (x : ℕ × ℕ), st.agg[a]? = some (some x) → st.agg[b]? = some (some x) → a = b
  surj : ∀ k c : ℕ, c < st.cnt.getD k 0 → ∃ a : ℕ, st.agg[a]? = some (some (c, k))
  mem : ∀ a : ℕ, (∃ x, st.agg[a]? = some (some x)) ↔ seen a

/-- numbers are not changed -/
def Ext (s t : VSt) : Prop := ∀ (a : ℕ) (x : ℕ × ℕ), s.agg[a]? = some (some x) → t.agg[a]? = some (some x)

theorem Ext.refl (s : VSt) : Ext s s := fun _ _ h => h
theorem Ext.trans {s t u : VSt} (h : Ext s t) (h' : Ext t u) : Ext s u := fun a x hx => h' a x (h a x hx)

theorem VInv.congr {C : Ctx} {aggs : List Agg} {s t : ℕ → Prop} {st : VSt} (h : VInv C aggs s st) (he : ∀ a, s a ↔ t a) : VInv C aggs t st :=
  ⟨h.lc, h.la, h.ok, h.inj, h.surj, fun a => (h.mem a).trans (he a)⟩

section
variable {C : Ctx} {aggs : List Agg} {v2agg : List (Option ℕ)}

/-- what is needed of a vertex -/
def VOK (C : Ctx) (aggs : List Agg) (v2agg : List (Option ℕ)) (v : ℕ) : Prop :=
  ∃ o, v2agg[v]? = some o ∧ ∀ a, o = some a → ∃ k id, cen C aggs a = some k ∧ k < C.T.length ∧ C.ids[k]? = some id

/-- the entry of the vertex `v` -/
def EntryOK (C : Ctx) (v2agg : List (Option ℕ)) (st : VSt) (v : ℕ) (e : VEntry) : Prop :=
  (v2agg[v]? = some none ∧ e = none) ∨
    ∃ a c k id : ℕ, v2agg[v]? = some (some a) ∧ st.agg[a]? = some (some (c, k)) ∧ C.ids[k]? = some id ∧ e = some (c, id)

theorem EntryOK.ext {s t : VSt} {v : ℕ} {e : VEntry} (h : EntryOK C v2agg s v e) (he : Ext s t) : EntryOK C v2agg t v e := by
  rcases h with h | ⟨a, c, k, id, h1, h2, h3, h4⟩
  · exact Or.inl h
  · exact Or.inr ⟨a, c, k, id, h1, he _ _ h2, h3, h4⟩

theorem visitV_spec {seen : ℕ → Prop} {st : VSt} (hi : VInv C aggs seen st) {v : ℕ} (hv : VOK C aggs v2agg v) :
    ∃ st' e, visitV C aggs v2agg st v = some (st', e) ∧ VInv C aggs (fun a => seen a ∨ v2agg[v]? = some (some a)) st' ∧ Ext st st' ∧
      EntryOK C v2agg st' v e := by
  obtain ⟨o, ho, hk⟩ := hv
  unfold visitV
  rw [ho, Option.bind_some]
  cases o with
  | none =>
    refine ⟨st, none, rfl, hi.congr fun a => ?_, Ext.refl _, Or.inl ⟨ho, rfl⟩⟩
    simp
  | some a =>
    obtain ⟨k, id, h1, h2, h3⟩ := hk a rfl
    have hal : a < st.agg.length := by
      rw [hi.la]
      unfold cen at h1
      by_contra hge
      rw [List.getElem?_eq_none (by omega)] at h1
      simp at h1
    obtain ⟨g, hg, hgk⟩ := Option.bind_eq_some_iff.mp h1
    dsimp only
    rw [List.getElem?_eq_getElem hal, Option.bind_some]
    cases hx : st.agg[a] with
    | some x =>
      obtain ⟨c, k'⟩ := x
      have hx' : st.agg[a]? = some (some (c, k')) := by rw [List.getElem?_eq_getElem hal, hx]
      have := (hi.ok a c k' hx').1
      rw [h1] at this
      obtain rfl := Option.some.inj this
      refine ⟨st, some (c, id), by simp [h3], hi.congr fun b => ?_, Ext.refl _, Or.inr ⟨a, c, k, id, ho, hx', h3, rfl⟩⟩
      constructor
      · exact Or.inl
      · rintro (h | h)
        · exact h
        · cases h
          exact (hi.mem a).mp ⟨_, hx'⟩
    | none =>
      have hx' : st.agg[a]? = some none := by rw [List.getElem?_eq_getElem hal, hx]
      have hkc : k < st.cnt.length := by rw [hi.lc]; exact h2
      refine ⟨⟨st.cnt.set k (st.cnt[k] + 1), st.agg.set a (some (st.cnt[k], k))⟩, some (st.cnt[k], id), ?_, ?_, ?_, ?_⟩
      · simp only [hg, hgk, Option.bind_some, List.getElem?_eq_getElem hkc, h3, Option.map_some]
      · have hset : ∀ b x, (st.agg.set a (some (st.cnt[k], k)))[b]? = some (some x) ↔ (b = a ∧ x = (st.cnt[k], k)) ∨ (b ≠ a ∧ st.agg[b]? = some (some x)) := by
          intro b x
          rw [List.getElem?_set]
          by_cases hb : a = b
          · subst hb
            simp [hal, eq_comm]
          · have hb' : b ≠ a := fun h => hb h.symm
            simp [hb, hb']
        have hcnt : ∀ l, (st.cnt.set k (st.cnt[k] + 1)).getD l 0 = if l = k then st.cnt[k] + 1 else st.cnt.getD l 0 := by
          intro l
          rw [List.getD_eq_getElem?_getD, List.getElem?_set]
          by_cases hl : k = l
          · subst hl
            simp [hkc]
          · have hl' : l ≠ k := fun h => hl h.symm
            rw [if_neg hl, if_neg hl', List.getD_eq_getElem?_getD]
        have hck : st.cnt.getD k 0 = st.cnt[k] := by rw [List.getD_eq_getElem?_getD, List.getElem?_eq_getElem hkc]; rfl
        refine ⟨by simp [hi.lc], by simp [hi.la], ?_, ?_, ?_, ?_⟩
        · intro b c l hb
          rw [hset] at hb
          rw [hcnt]
          rcases hb with ⟨rfl, hb⟩ | ⟨_, hb⟩
          · cases hb
            exact ⟨h1, by simp⟩
          · obtain ⟨b1, b2⟩ := hi.ok b c l hb
            refine ⟨b1, ?_⟩
            split
            · subst l; rw [hck] at b2; omega
            · exact b2
        · intro b b' x hb hb'
          rw [hset] at hb hb'
          rcases hb with ⟨rfl, hb⟩ | ⟨hba, hb⟩
          · rcases hb' with ⟨rfl, -⟩ | ⟨-, hb'⟩
            · rfl
            · subst hb
              have := (hi.ok _ _ _ hb').2
              rw [hck] at this
              omega
          · rcases hb' with ⟨rfl, hb'⟩ | ⟨-, hb'⟩
            · subst hb'
              have := (hi.ok _ _ _ hb).2
              rw [hck] at this
              omega
            · exact hi.inj b b' x hb hb'
        · intro l c hc
          rw [hcnt] at hc
          by_cases hl : l = k
          · rw [if_pos hl] at hc
            subst hl
            by_cases hcc : c = st.cnt[l]
            · exact ⟨a, (hset _ _).mpr (Or.inl ⟨rfl, by rw [hcc]⟩)⟩
            · obtain ⟨b, hb⟩ := hi.surj l c (by rw [hck]; omega)
              exact ⟨b, (hset _ _).mpr (Or.inr ⟨by rintro rfl; rw [hx'] at hb; simp at hb, hb⟩)⟩
          · rw [if_neg hl] at hc
            obtain ⟨b, hb⟩ := hi.surj l c hc
            exact ⟨b, (hset _ _).mpr (Or.inr ⟨by rintro rfl; rw [hx'] at hb; simp at hb, hb⟩)⟩
        · intro b
          constructor
          · rintro ⟨x, hb⟩
            rw [hset] at hb
            rcases hb with ⟨rfl, -⟩ | ⟨-, hb⟩
            · exact Or.inr rfl
            · exact Or.inl ((hi.mem b).mp ⟨x, hb⟩)
          · rintro (h | h)
            · obtain ⟨x, hy⟩ := (hi.mem b).mpr h
              exact ⟨x, (hset _ _).mpr (Or.inr ⟨by rintro rfl; rw [hx'] at hy; simp at hy, hy⟩)⟩
            · cases h
              exact ⟨_, (hset _ _).mpr (Or.inl ⟨rfl, rfl⟩)⟩
      · intro b x hb
        dsimp only
        rw [List.getElem?_set]
        by_cases hb' : a = b
        · subst hb'; rw [hx'] at hb; simp at hb
        · rw [if_neg hb']; exact hb
      · refine Or.inr ⟨a, st.cnt[k], k, id, ho, ?_, h3, rfl⟩
        dsimp only
        rw [List.getElem?_set_self hal]

theorem visits_spec (vs : List ℕ) {seen : ℕ → Prop} {st : VSt} (hi : VInv C aggs seen st) (hv : ∀ v ∈ vs, VOK C aggs v2agg v) :
    ∃ st' es, visits C aggs v2agg st vs = some (st', es) ∧ VInv C aggs (fun a => seen a ∨ ∃ v ∈ vs, v2agg[v]? = some (some a)) st' ∧ Ext st st' ∧
      List.Forall₂ (EntryOK C v2agg st') vs es := by
  induction vs generalizing seen st with
  | nil => exact ⟨st, [], rfl, hi.congr (by simp), Ext.refl _, .nil⟩
  | cons v vs ih =>
    obtain ⟨s1, e, h1, h2, h3, h4⟩ := visitV_spec hi (hv v (by simp))
    obtain ⟨s2, es, g1, g2, g3, g4⟩ := ih h2 (fun w hw => hv w (by simp [hw]))
    refine ⟨s2, e :: es, ?_, g2.congr fun a => ?_, h3.trans g3, .cons (h4.ext g3) g4⟩
    · unfold visits
      rw [h1, Option.bind_some, g1]; rfl
    · constructor
      · rintro ((h | h) | ⟨w, hw, h⟩)
        · exact Or.inl h
        · exact Or.inr ⟨v, by simp, h⟩
        · exact Or.inr ⟨w, by simp [hw], h⟩
      · rintro (h | ⟨w, hw, h⟩)
        · exact Or.inl (Or.inl h)
        · rcases List.mem_cons.mp hw with rfl | hw
          · exact Or.inl (Or.inr h)
          · exact Or.inr ⟨w, hw, h⟩

/-- the row of the class `k` -/
def RowOK (C : Ctx) (rank : ℕ) (v2agg : List (Option ℕ)) (st : VSt) (k : ℕ) (row : List VEntry) : Prop :=
  row.length = (vertsOf C k).length ∧ (isMaster rank (C.T.getD k []) = true → List.Forall₂ (EntryOK C v2agg st) (vertsOf C k) row)

theorem exLoop_spec (rank : ℕ) (ks : List ℕ) {seen : ℕ → Prop} {st : VSt} (hi : VInv C aggs seen st)
    (hv : ∀ k ∈ ks, isMaster rank (C.T.getD k []) = true → ∀ v ∈ vertsOf C k, VOK C aggs v2agg v) :
    ∃ st' rows, exLoop C rank aggs v2agg st ks = some (st', rows) ∧
      VInv C aggs (fun a => seen a ∨ ∃ k ∈ ks, isMaster rank (C.T.getD k []) = true ∧ ∃ v ∈ vertsOf C k, v2agg[v]? = some (some a)) st' ∧ Ext st st' ∧
      List.Forall₂ (RowOK C rank v2agg st') ks rows := by
  induction ks generalizing seen st with
  | nil => exact ⟨st, [], rfl, hi.congr (by simp), Ext.refl _, .nil⟩
  | cons k ks ih =>
    unfold exLoop
    by_cases hm : isMaster rank (C.T.getD k []) = true
    · obtain ⟨s1, es, h1, h2, h3, h4⟩ := visits_spec (vertsOf C k) hi (hv k (by simp) hm)
      obtain ⟨s2, rows, g1, g2, g3, g4⟩ := ih h2 (fun l hl => hv l (by simp [hl]))
      refine ⟨s2, es :: rows, by rw [if_pos hm, h1, Option.bind_some, g1]; rfl, g2.congr fun a => ?_, h3.trans g3, .cons ⟨h4.length_eq.symm, fun _ => h4.imp fun _ _ h => h.ext g3⟩ g4⟩
      constructor
      · rintro ((h | h) | ⟨l, hl, h⟩)
        · exact Or.inl h
        · exact Or.inr ⟨k, by simp, hm, h⟩
        · exact Or.inr ⟨l, by simp [hl], h⟩
      · rintro (h | ⟨l, hl, h⟩)
        · exact Or.inl (Or.inl h)
        · rcases List.mem_cons.mp hl with rfl | hl
          · exact Or.inl (Or.inr h.2)
          · exact Or.inr ⟨l, hl, h⟩
    · obtain ⟨s2, rows, g1, g2, g3, g4⟩ := ih hi (fun l hl => hv l (by simp [hl]))
      refine ⟨s2, _ :: rows, by rw [if_neg hm, g1]; rfl, g2.congr fun a => ?_, g3, .cons ⟨by simp, fun h => absurd h hm⟩ g4⟩
      constructor
      · rintro (h | ⟨l, hl, h⟩)
        · exact Or.inl h
        · exact Or.inr ⟨l, by simp [hl], h⟩
      · rintro (h | ⟨l, hl, h⟩)
        · exact Or.inl h
        · rcases List.mem_cons.mp hl with rfl | hl
          · exact absurd h.1 hm
          · exact Or.inr ⟨l, hl, h⟩

end

end NgsAMG.CMap
