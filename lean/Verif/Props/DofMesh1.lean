import Verif.Model.DofMesh
import Verif.Props.DofMaps3

/-!
# C95: degrees of freedom of the vertices, new numbers
-/

namespace NgsAMG.DofM
open NgsAMG.Spec

/-! ### degrees of freedom of the vertices -/

/-- `dof v c` is the component `c` of the vertex `v` -/
structure Dofs (nv : ℕ) (bs D : List ℕ) (dof : ℕ → ℕ → ℕ) : Prop where
  place : ∀ v < nv, ∀ c < bs.sum, ∃ k, D[k]? = some (dof v c) ∧ slot nv bs k = some (v, c)
  of : ∀ (k d v c : ℕ), D[k]? = some d → slot nv bs k = some (v, c) → d = dof v c
  surj : ∀ d ∈ D, ∃ v < nv, ∃ c < bs.sum, d = dof v c
  inj : ∀ v < nv, ∀ c < bs.sum, ∀ w < nv, ∀ c' < bs.sum, dof v c = dof w c' → v = w ∧ c = c'
  mono : ∀ v < nv, ∀ c < bs.sum, ∀ c' < bs.sum, c < c' → dof v c < dof v c'

theorem dofs_exist {nv : ℕ} {bs D : List ℕ} (hl : D.length = nv * bs.sum) (hs : D.Pairwise (· < ·)) : ∃ dof, Dofs nv bs D dof := by
  have hnd : D.Nodup := hs.imp fun h => h.ne
  have key : ∀ v c, ∃ d, v < nv → c < bs.sum → ∃ k, D[k]? = some d ∧ slot nv bs k = some (v, c) := by
    intro v c
    by_cases h : v < nv ∧ c < bs.sum
    · obtain ⟨k, hk⟩ := slot_surj h.1 h.2
      have hkl : k < D.length := by rw [hl]; exact (slot_lt hk).2.2
      exact ⟨D[k], fun _ _ => ⟨k, List.getElem?_eq_getElem hkl, hk⟩⟩
    · exact ⟨0, fun h1 h2 => absurd ⟨h1, h2⟩ h⟩
  choose dof hdof using key
  refine ⟨dof, fun v hv c hc => hdof v c hv hc, ?_, ?_, ?_, ?_⟩
  · intro k d v c hk hsl
    obtain ⟨hv, hc, -⟩ := slot_lt hsl
    obtain ⟨k', h1, h2⟩ := hdof v c hv hc
    have := slot_inj hsl h2
    subst this
    rw [hk] at h1
    exact Option.some.inj h1
  · intro d hd
    obtain ⟨k, hk, rfl⟩ := List.mem_iff_getElem.mp hd
    obtain ⟨v, c, hsl⟩ := slot_some (nv := nv) (bs := bs) (by rw [← hl]; exact hk)
    obtain ⟨hv, hc, -⟩ := slot_lt hsl
    obtain ⟨k', h1, h2⟩ := hdof v c hv hc
    have := slot_inj hsl h2
    subst this
    rw [List.getElem?_eq_getElem hk] at h1
    exact ⟨v, hv, c, hc, Option.some.inj h1⟩
  · intro v hv c hc w hw c' hc' he
    obtain ⟨k, h1, h2⟩ := hdof v c hv hc
    obtain ⟨k', h3, h4⟩ := hdof w c' hw hc'
    rw [he] at h1
    have := (List.getElem?_inj (List.getElem?_eq_some_iff.mp h1).1 hnd).mp (h1.trans h3.symm)
    subst this
    rw [h2] at h4
    simpa using h4
  · intro v hv c hc c' hc' hlt
    obtain ⟨k, h1, h2⟩ := hdof v c hv hc
    obtain ⟨k', h3, h4⟩ := hdof v c' hv hc'
    have hk : k < k' := by
      have := slot_mono h4 h2
      omega
    obtain ⟨g1, g2⟩ := List.getElem?_eq_some_iff.mp h1
    obtain ⟨g3, g4⟩ := List.getElem?_eq_some_iff.mp h3
    rw [← g2, ← g4]
    exact List.pairwise_iff_getElem.mp hs k k' g1 g3 hk

/-- the numbering in terms of the components -/
theorem numbering_iff {ndof nv : ℕ} {bs D : List ℕ} {dof : ℕ → ℕ → ℕ} (hD : Dofs nv bs D dof) {num : ℕ → ℕ} {d2v v2d : List (Option ℕ)} :
    Numbering ndof nv bs D num d2v v2d ↔ d2v.length = ndof ∧ v2d.length = nv * bs.sum ∧
      (∀ v < nv, ∀ c < bs.sum, d2v[dof v c]? = some (some (num v)) ∧ v2d[num v * bs.sum + c]? = some (some (dof v c))) ∧ ∀ d < ndof, d ∉ D → d2v[d]? = some none := by
  constructor
  · intro h
    refine ⟨h.len, h.size, fun v hv c hc => ?_, h.off⟩
    obtain ⟨k, h1, h2⟩ := hD.place v hv c hc
    exact h.on k _ v c h1 h2
  · rintro ⟨h1, h2, h3, h4⟩
    refine ⟨h1, h2, fun k d v c hk hsl => ?_, h4⟩
    obtain ⟨hv, hc, -⟩ := slot_lt hsl
    have := hD.of k d v c hk hsl
    subst this
    exact h3 v hv c hc

section
variable {ndof nv : ℕ} {bs D : List ℕ} {dof : ℕ → ℕ → ℕ} (hD : Dofs nv bs D dof) (hlt : ∀ d ∈ D, d < ndof) {m : Maps} (hm : Numbering ndof nv bs D id m.d2v m.v2d)
  {sort : List ℕ} (hsort : sort.Perm (List.range nv))

include hD in
theorem dof_mem {v c : ℕ} (hv : v < nv) (hc : c < bs.sum) : dof v c ∈ D := by
  obtain ⟨k, h1, -⟩ := hD.place v hv c hc
  exact List.mem_of_getElem? h1

include hD hm in
theorem v2d_get {v c : ℕ} (hv : v < nv) (hc : c < bs.sum) : m.v2d[v * bs.sum + c]? = some (some (dof v c)) := (((numbering_iff hD).mp hm).2.2.1 v hv c hc).2

include hD hm in
theorem d2v_get {v c : ℕ} (hv : v < nv) (hc : c < bs.sum) : m.d2v[dof v c]? = some (some v) := (((numbering_iff hD).mp hm).2.2.1 v hv c hc).1

include hD hm in
theorem firstDof_eq (hp : 0 < bs.sum) {v : ℕ} (hv : v < nv) : firstDof m bs.sum v = some (dof v 0) := by
  unfold firstDof
  have := v2d_get hD hm hv hp
  rw [Nat.add_zero] at this
  rw [this]; rfl

include hsort in
theorem sort_length : sort.length = nv := by rw [hsort.length_eq, List.length_range]

include hsort in
theorem sort_get {v : ℕ} (hv : v < nv) : sort[v]? = some (sort.getD v 0) ∧ sort.getD v 0 < nv := by
  have hl : v < sort.length := by rw [sort_length hsort]; exact hv
  have e : sort.getD v 0 = sort[v] := by rw [List.getD_eq_getElem?_getD, List.getElem?_eq_getElem hl, Option.getD_some]
  rw [e]
  exact ⟨List.getElem?_eq_getElem hl, by have := List.getElem_mem hl; rwa [hsort.mem_iff, List.mem_range] at this⟩

include hsort in
theorem sort_inj {v w : ℕ} (hv : v < nv) (hw : w < nv) (h : sort.getD v 0 = sort.getD w 0) : v = w := by
  have hnd : sort.Nodup := hsort.nodup_iff.mpr List.nodup_range
  have h1 := (sort_get hsort hv).1
  have h2 := (sort_get hsort hw).1
  rw [h] at h1
  exact (List.getElem?_inj (List.getElem?_eq_some_iff.mp h1).1 hnd).mp (h1.trans h2.symm)

include hsort in
theorem sort_surj {n : ℕ} (hn : n < nv) : ∃ v < nv, sort.getD v 0 = n := by
  have hmem : n ∈ sort := by rw [hsort.mem_iff, List.mem_range]; exact hn
  obtain ⟨v, hv, rfl⟩ := List.mem_iff_getElem.mp hmem
  refine ⟨v, by rw [← sort_length hsort]; exact hv, ?_⟩
  rw [List.getD_eq_getElem?_getD, List.getElem?_eq_getElem hv, Option.getD_some]

/-! ### new vertices of the degrees of freedom -/

/-- the vertices before the place `(k, c)` have been renumbered -/
def D2V (ndof nv : ℕ) (bs D : List ℕ) (dof : ℕ → ℕ → ℕ) (sort : List ℕ) (i : ℕ) (d2v : List (Option ℕ)) : Prop :=
  d2v.length = ndof ∧ (∀ v < nv, ∀ c < bs.sum, v * bs.sum + c < i → d2v[dof v c]? = some (some (sort.getD v 0))) ∧ ∀ d < ndof, d ∉ D → d2v[d]? = some none

include hD hlt hm hsort in
theorem newD2V_spec : ∃ d2v, newD2V m bs.sum nv sort = some d2v ∧ d2v.length = ndof ∧ (∀ v < nv, ∀ c < bs.sum, d2v[dof v c]? = some (some (sort.getD v 0))) ∧
    ∀ d < ndof, d ∉ D → d2v[d]? = some none := by
  obtain ⟨d2v, h1, h2⟩ := foldlM_inv (D := List.range nv) (f := fun (d2v : List (Option ℕ)) k => (sort[k]?).bind fun n =>
      (List.range bs.sum).foldlM (fun (d2v : List (Option ℕ)) c => (m.v2d[k * bs.sum + c]?).join.bind fun d => if d < d2v.length then some (d2v.set d (some n)) else none) d2v)
    (I := fun k d2v => D2V ndof nv bs D dof sort (k * bs.sum) d2v) (s := m.d2v)
    (by
      intro k v d2v hk hI
      obtain ⟨hkl, hke⟩ := List.getElem?_eq_some_iff.mp hk
      rw [List.getElem_range] at hke
      subst hke
      rw [List.length_range] at hkl
      rw [(sort_get hsort hkl).1, Option.bind_some]
      obtain ⟨d2v', g1, g2⟩ := foldlM_inv (D := List.range bs.sum)
        (f := fun (d2v : List (Option ℕ)) c => (m.v2d[k * bs.sum + c]?).join.bind fun d => if d < d2v.length then some (d2v.set d (some (sort.getD k 0))) else none)
        (I := fun c d2v => D2V ndof nv bs D dof sort (k * bs.sum + c) d2v) (s := d2v)
        (by
          rintro c c' d2v hc ⟨i1, i2, i3⟩
          obtain ⟨hcl, hce⟩ := List.getElem?_eq_some_iff.mp hc
          rw [List.getElem_range] at hce
          subst hce
          rw [List.length_range] at hcl
          have hmem := dof_mem hD hkl hcl
          have hdl := hlt _ hmem
          refine ⟨d2v.set (dof k c) (some (sort.getD k 0)), ?_, by simpa using i1, ?_, ?_⟩
          · rw [v2d_get hD hm hkl hcl]
            simp [i1, hdl]
          · intro v hv c1 hc1 hle
            by_cases he : dof k c = dof v c1
            · obtain ⟨rfl, rfl⟩ := hD.inj k hkl c hcl v hv c1 hc1 he
              rw [List.getElem?_set_self (by rw [i1]; exact hdl)]
            · rw [List.getElem?_set_ne he]
              refine i2 v hv c1 hc1 ?_
              rcases Nat.lt_succ_iff_lt_or_eq.mp hle with h | h
              · exact h
              · obtain ⟨rfl, rfl⟩ := place_inj hc1 hcl h
                exact absurd rfl he
          · intro d hd hno
            rw [List.getElem?_set_ne (fun h : dof k c = d => hno (h ▸ hmem))]
            exact i3 d hd hno)
        (by simpa using hI)
      rw [List.length_range] at g2
      exact ⟨d2v', g1, by rw [Nat.add_mul, Nat.one_mul]; exact g2⟩)
    ⟨hm.len, fun v _ c _ h => absurd h (by omega), hm.off⟩
  rw [List.length_range] at h2
  exact ⟨d2v, h1, h2.1, fun v hv c hc => h2.2.1 v hv c hc (place_lt hv hc), h2.2.2⟩

/-! ### degrees of freedom of the new vertices -/

/-- the state of the loop over the degrees of freedom: `cnt` says how many components of a vertex have been met, and these are at their places -/
def TabOK (nv : ℕ) (bs : List ℕ) (dof : ℕ → ℕ → ℕ) (sort : List ℕ) (k : ℕ) (s : List (Option ℕ) × List ℕ) : Prop :=
  s.1.length = nv * bs.sum ∧ s.2.length = nv ∧ ∀ v < nv, ∃ c, s.2[sort.getD v 0]? = some c ∧
    (∀ c' < bs.sum, c' < c → dof v c' < k ∧ s.1[sort.getD v 0 * bs.sum + c']? = some (some (dof v c'))) ∧ ∀ c' < bs.sum, c ≤ c' → k ≤ dof v c'

include hD hlt hm hsort in
theorem updateTab_correct : ∃ m', updateTab m bs.sum nv sort = some m' ∧ Numbering ndof nv bs D (fun v => sort.getD v 0) m'.d2v m'.v2d := by
  obtain ⟨d2v, h1, h2, h3, h4⟩ := newD2V_spec hD hlt hm hsort
  obtain ⟨⟨v2d, cnt⟩, g1, g2⟩ := foldlM_inv (D := List.range d2v.length) (f := tabStep bs.sum d2v) (I := fun k s => TabOK nv bs dof sort k s) (s := (m.v2d, List.replicate nv 0))
    (by
      rintro k k' ⟨v2d, cnt⟩ hk ⟨i1, i2, i3⟩
      dsimp only at i1 i2 i3
      obtain ⟨hkl, hke⟩ := List.getElem?_eq_some_iff.mp hk
      rw [List.getElem_range] at hke
      subst hke
      rw [List.length_range, h2] at hkl
      unfold tabStep
      dsimp only
      by_cases hkD : k ∈ D
      · obtain ⟨v, hv, c1, hc1, he⟩ := hD.surj k hkD
        obtain ⟨c, j1, j2, j3⟩ := i3 v hv
        have hc : c1 = c := by
          rcases Nat.lt_trichotomy c1 c with h | h | h
          · have := (j2 c1 hc1 h).1
            omega
          · exact h
          · have q1 := j3 c (by omega) le_rfl
            have q2 := hD.mono v hv c (by omega) c1 hc1 h
            omega
        subst hc
        have hsv := (sort_get hsort hv).2
        have hpl := place_lt hsv hc1
        refine ⟨(v2d.set (sort.getD v 0 * bs.sum + c1) (some k), cnt.set (sort.getD v 0) (c1 + 1)), ?_, ?_, ?_, ?_⟩
        · rw [he, h3 v hv c1 hc1, Option.bind_some]
          dsimp only
          rw [j1, Option.bind_some, if_pos (by rw [i1]; exact hpl)]
        · simpa using i1
        · simpa using i2
        · intro w hw
          dsimp only
          by_cases hvw : v = w
          · subst hvw
            refine ⟨c1 + 1, List.getElem?_set_self (by rw [i2]; exact hsv), ?_, ?_⟩
            · intro c' hc' hlt'
              rcases Nat.lt_succ_iff_lt_or_eq.mp hlt' with h | rfl
              · obtain ⟨a1, a2⟩ := j2 c' hc' h
                refine ⟨by omega, ?_⟩
                rw [List.getElem?_set_ne (by omega)]
                exact a2
              · refine ⟨by omega, ?_⟩
                rw [List.getElem?_set_self (by rw [i1]; exact hpl), he]
            · intro c' hc' hle
              have := hD.mono v hv c1 hc1 c' hc' (by omega)
              omega
          · obtain ⟨cw, a1, a2, a3⟩ := i3 w hw
            have hne : sort.getD v 0 ≠ sort.getD w 0 := fun h => hvw (sort_inj hsort hv hw h)
            refine ⟨cw, by rw [List.getElem?_set_ne hne]; exact a1, ?_, ?_⟩
            · intro c' hc' hlt'
              obtain ⟨b1, b2⟩ := a2 c' hc' hlt'
              refine ⟨by omega, ?_⟩
              rw [List.getElem?_set_ne (fun h => hne (place_inj hc1 hc' h).1)]
              exact b2
            · intro c' hc' hle
              have q := a3 c' hc' hle
              rcases Nat.lt_or_ge k (dof w c') with h | h
              · exact h
              · exfalso
                have : k = dof w c' := by omega
                exact hvw (hD.inj v hv c1 hc1 w hw c' hc' (he ▸ this)).1
      · refine ⟨(v2d, cnt), by rw [h4 k hkl hkD]; rfl, i1, i2, ?_⟩
        intro v hv
        obtain ⟨c, j1, j2, j3⟩ := i3 v hv
        refine ⟨c, j1, fun c' hc' hlt' => ⟨by have := (j2 c' hc' hlt').1; omega, (j2 c' hc' hlt').2⟩, fun c' hc' hle => ?_⟩
        have q := j3 c' hc' hle
        rcases Nat.lt_or_ge k (dof v c') with h | h
        · exact h
        · exfalso
          have : k = dof v c' := by omega
          exact hkD (this ▸ dof_mem hD hv hc'))
    ⟨hm.size, by simp, fun v hv => ⟨0, by dsimp only; rw [List.getElem?_replicate, if_pos (sort_get hsort hv).2], fun c' _ h => absurd h (by omega), fun _ _ _ => Nat.zero_le _⟩⟩
  rw [List.length_range, h2] at g2
  refine ⟨⟨d2v, v2d⟩, ?_, (numbering_iff hD).mpr ⟨h2, g2.1, ?_, h4⟩⟩
  · unfold updateTab
    rw [h1, Option.bind_some, g1]
    rfl
  · intro v hv c hc
    refine ⟨h3 v hv c hc, ?_⟩
    obtain ⟨c1, j1, j2, j3⟩ := g2.2.2 v hv
    have hcc : c < c1 := by
      by_contra hge
      have := j3 c hc (by omega)
      have := hlt _ (dof_mem hD hv hc)
      omega
    exact (j2 c hc hcc).2

end

section
variable {ndof nv : ℕ} {D : List ℕ} {dof : ℕ → ℕ → ℕ} (hD : Dofs nv [1] D dof) (hlt : ∀ d ∈ D, d < ndof) {m : Maps} (hm : Numbering ndof nv [1] D id m.d2v m.v2d)
  {sort : List ℕ} (hsort : sort.Perm (List.range nv))

include hD hlt hm hsort in
theorem updateArr_correct : ∃ m', updateArr m nv sort = some m' ∧ Numbering ndof nv [1] D (fun v => sort.getD v 0) m'.d2v m'.v2d := by
  obtain ⟨d2v, h1, h2, h3, h4⟩ := newD2V_spec hD hlt hm hsort
  have one : ([1] : List ℕ).sum = 1 := rfl
  obtain ⟨v2d, g1, g2, g3⟩ := foldlM_inv (D := List.range d2v.length) (f := arrStep d2v)
    (I := fun k v2d => v2d.length = nv ∧ ∀ v < nv, dof v 0 < k → v2d[sort.getD v 0]? = some (some (dof v 0))) (s := m.v2d)
    (by
      rintro k k' v2d hk ⟨i1, i2⟩
      obtain ⟨hkl, hke⟩ := List.getElem?_eq_some_iff.mp hk
      rw [List.getElem_range] at hke
      subst hke
      rw [List.length_range, h2] at hkl
      unfold arrStep
      by_cases hkD : k ∈ D
      · obtain ⟨v, hv, c, hc, he⟩ := hD.surj k hkD
        have hc0 : c = 0 := by rw [one] at hc; omega
        subst hc0
        have hsv := (sort_get hsort hv).2
        refine ⟨v2d.set (sort.getD v 0) (some k), ?_, by simpa using i1, ?_⟩
        · rw [he, h3 v hv 0 hc, Option.bind_some]
          dsimp only
          rw [if_pos (by rw [i1]; exact hsv)]
        · intro w hw hlt'
          by_cases hvw : v = w
          · subst hvw
            rw [List.getElem?_set_self (by rw [i1]; exact hsv), he]
          · rw [List.getElem?_set_ne (fun h => hvw (sort_inj hsort hv hw h))]
            refine i2 w hw ?_
            rcases Nat.lt_succ_iff_lt_or_eq.mp hlt' with h | h
            · exact h
            · exact absurd (hD.inj v hv 0 hc w hw 0 hc (by rw [← he, h])).1 hvw
      · refine ⟨v2d, by rw [h4 k hkl hkD]; rfl, i1, fun w hw hlt' => i2 w hw ?_⟩
        rcases Nat.lt_succ_iff_lt_or_eq.mp hlt' with h | h
        · exact h
        · exact absurd (h ▸ dof_mem hD hw (by decide)) hkD)
    ⟨by rw [hm.size]; simp, fun v _ h => absurd h (by omega)⟩
  rw [List.length_range, h2] at g3
  refine ⟨⟨d2v, v2d⟩, ?_, (numbering_iff hD).mpr ⟨h2, by rw [g2]; simp, ?_, h4⟩⟩
  · unfold updateArr
    rw [one] at h1
    rw [h1, Option.bind_some, g1]
    rfl
  · intro v hv c hc
    have hc0 : c = 0 := by rw [one] at hc; omega
    subst hc0
    refine ⟨h3 v hv 0 hc, ?_⟩
    rw [one, Nat.mul_one, Nat.add_zero]
    exact g3 v hv (hlt _ (dof_mem hD hv hc))

end

end NgsAMG.DofM
