import Verif.Props.Embedding2

/-!
# C96: the embedding of the finest mesh
-/

namespace NgsAMG.DofM
open NgsAMG NgsAMG.SparseMM NgsAMG.SparseLA NgsAMG.Spec Matrix

variable {K : Type*} [CommRing K] {a b c n : ℕ}

/-- what is assumed about the chosen degrees of freedom (amg_pc_vertex.hpp:216: "ranges must be non-overlapping and increasing") -/
def Subset.OK (nd : ℕ) : Subset → Prop
  | .ranges rs => (∀ r ∈ rs, r.1 ≤ r.2) ∧ (dofsOf rs).Pairwise (· < ·) ∧ ∀ d ∈ dofsOf rs, d < nd
  | .bits ss => ss.length = nd

theorem Subset.OK.asc {nd : ℕ} {S : Subset} (h : S.OK nd) : S.dofs.Pairwise (· < ·) := by
  cases S with
  | ranges rs => exact h.2.1
  | bits ss => exact List.pairwise_lt_range.filter _

theorem Subset.OK.lt {nd : ℕ} {S : Subset} (h : S.OK nd) : ∀ d ∈ S.dofs, d < nd := by
  cases S with
  | ranges rs => exact h.2.2
  | bits ss =>
    intro d hd
    have : ss.length = nd := h
    rw [← this]
    exact List.mem_range.mp (List.mem_filter.mp hd).1

theorem buildES_correct {nd : ℕ} {S : Subset} (h : S.OK nd) : ∃ ES, (buildES n nd S : Option (Option (CSR (Mt n n K)))) = some ES ∧ IsES nd S.dofs ES := by
  cases S with
  | ranges rs => exact esRange_correct h.1 h.2.1 h.2.2
  | bits ss =>
    have : ss.length = nd := h
    subst this
    exact esSelect_correct ss

theorem subsetCount_eq {nd : ℕ} {D : List ℕ} {ES : Option (CSR (Mt n n K))} (h : IsES nd D ES) : subsetCount nd ES = D.length := by
  cases ES with
  | none =>
    have : D = List.range nd := h
    rw [this, List.length_range]
    rfl
  | some S => exact One.width h

/-- the block that picks the components from `c` on -/
def pick (a b c : ℕ) : Mt a b K := fun i j => if j.val = c + i.val then 1 else 0

theorem pick_apply (x : Fin b → K) (i : Fin a) (h : c + i < b) : (pick a b c *ᵥ x) i = x ⟨c + i, h⟩ := by
  unfold mulVec dotProduct pick
  rw [Finset.sum_eq_single ⟨c + i, h⟩]
  · simp
  · intro j _ hj
    show (if j.val = c + i.val then (1 : K) else 0) * x j = 0
    rw [if_neg, zero_mul]
    intro he
    exact hj (Fin.ext he)
  · intro h'
    exact absurd (Finset.mem_univ _) h'

theorem unitRow_pick {c : Fin b} : (unitRow c : Mt 1 b K) = pick 1 b c := by
  funext i j
  unfold unitRow pick
  have : i.val = 0 := by omega
  simp only [this, Nat.add_zero, Fin.ext_iff]

theorem dispBlock_pick : (dispBlock a b : Mt a b K) = pick a b 0 := by
  funext i j
  unfold dispBlock pick
  simp only [Nat.zero_add, eq_comm]

theorem one_pick : (1 : Mt n n K) = pick n n 0 := by
  funext i j
  unfold pick
  rw [Matrix.one_apply]
  simp only [Nat.zero_add, Fin.ext_iff, eq_comm]

theorem embeds_of_one {nd nv : ℕ} {bs D : List ℕ} {num : ℕ → ℕ} {E : CSR (Mt a b K)} (hD : D.Nodup) (hlt : ∀ d ∈ D, d < nd)
    (hE : One E nd nv fun d => (pos D d).bind fun k => (slot nv bs k).map fun p => (num p.1, pick a b p.2)) (hab : ∀ k v c, slot nv bs k = some (v, c) → c + a ≤ b) :
    Embeds nd nv bs D num E := by
  refine ⟨hE.wf, hE.height, hE.width, ?_, ?_⟩
  · intro k d v c hk hs
    refine ⟨hab k v c hs, fun x i h => ?_⟩
    rw [hE.act (hlt d (List.mem_of_getElem? hk)), (pos_get hD).mpr hk, Option.bind_some, hs]
    exact pick_apply _ i h
  · intro d hd hn x
    rw [hE.act hd, pos_none hn]
    rfl

/-- the numbers of the vertices in the mesh: `vert_sort` in parallel -/
def newNum (nv : ℕ) (sort : Option (List ℕ)) (v : ℕ) : ℕ := (sort.getD (List.range nv)).getD v 0

/-- **C96** (scalar degrees of freedom): the embedding is defined and embeds. -/
theorem embedding_scal {nd nv : ℕ} {S : Subset} (hS : S.OK nd) {bs : List ℕ} (hl : S.dofs.length = nv * bs.sum) (hb : bs.sum ≤ b) {sort : Option (List ℕ)}
    (hs : ∀ s, sort = some s → s.Perm (List.range nv)) (hw : nv ≤ 2 ^ 30) (h1 h2 : Tables) (junk : ℕ → ℕ × Mt 1 b K) :
    ∃ E, embScal h1 h2 b nd nv S bs junk sort = some E ∧ Embeds nd nv bs S.dofs (newNum nv sort) E := by
  have hD : S.dofs.Nodup := hS.asc.imp fun h => h.ne
  obtain ⟨ES, e1, e2⟩ := buildES_correct (n := 1) (K := K) hS
  have hc := subsetCount_eq e2
  obtain ⟨ED, e3, e4⟩ := edScal_correct (height := subsetCount nd ES) (by rw [hc, hl]) hb junk
  obtain ⟨E, e5, e6⟩ := embDiff_one hD hS.lt hc.symm e2 e4 hs hw h1 h2
  refine ⟨E, by simp only [embScal, e1, e3, e5, Option.bind_some], embeds_of_one hD hS.lt (e6.congr fun d hd => ?_) ?_⟩
  · rcases pos S.dofs d with _ | k
    · rfl
    · simp only [Option.bind_some, edEntry]
      rcases hsl : slot nv bs k with _ | p
      · rfl
      · have : p.2 < b := by have := (slot_lt (v := p.1) (c := p.2) hsl).2.1; omega
        simp only [Option.bind_some, Option.map_some]
        rw [dif_pos this, unitRow_pick]
        rfl
  · intro k v c h
    have := (slot_lt h).2.1
    omega

/-- **C96** (displacements, blocks with rotations on the mesh): the embedding is defined and embeds. -/
theorem embedding_disp {nd nv : ℕ} {S : Subset} (hS : S.OK nd) (hl : S.dofs.length = nv) (hab : a ≤ b) {sort : Option (List ℕ)}
    (hs : ∀ s, sort = some s → s.Perm (List.range nv)) (hw : nv ≤ 2 ^ 30) (h1 h2 : Tables) :
    ∃ E, (embDisp h1 h2 a b nd nv S [1] sort : Option (CSR (Mt a b K))) = some E ∧ Embeds nd nv [1] S.dofs (newNum nv sort) E := by
  have hD : S.dofs.Nodup := hS.asc.imp fun h => h.ne
  obtain ⟨ES, e1, e2⟩ := buildES_correct (n := a) (K := K) hS
  obtain ⟨ED, e3, e4⟩ := edDisp_correct (a := a) (b := b) (K := K) nv
  obtain ⟨E, e5, e6⟩ := embDiff_one hD hS.lt hl e2 e4 hs hw h1 h2
  refine ⟨E, by simp only [embDisp, e1, e3, e5, Option.bind_some], embeds_of_one hD hS.lt (e6.congr fun d hd => ?_) ?_⟩
  · rcases hp : pos S.dofs d with _ | k
    · rfl
    · have hk : k < nv := by rw [← hl]; exact pos_lt hp
      simp only [Option.bind_some, Option.map_some, slot_one hk, dispBlock_pick]
      rfl
  · intro k v c h
    have := (slot_lt h).2.1
    simp at this
    omega

/-- **C96** (the same blocks): the embedding is defined; either it embeds, or there is none and the degrees of freedom are the vertices. -/
theorem embedding_block {nd nv : ℕ} {S : Subset} (hS : S.OK nd) (hl : S.dofs.length = nv) {sort : Option (List ℕ)}
    (hs : ∀ s, sort = some s → s.Perm (List.range nv)) (hw : nv ≤ 2 ^ 30) (h1 : Tables) :
    ∃ E, (embBlock h1 n nd S sort : Option (Option (CSR (Mt n n K)))) = some E ∧ (match E with
      | none => S.dofs = List.range nd ∧ nv = nd ∧ ∀ v < nv, newNum nv sort v = v
      | some E => Embeds nd nv [1] S.dofs (newNum nv sort) E) := by
  have hD : S.dofs.Nodup := hS.asc.imp fun h => h.ne
  obtain ⟨ES, e1, e2⟩ := buildES_correct (n := n) (K := K) hS
  obtain ⟨E, e5, e6⟩ := embSame_one hD hS.lt hl e2 hs hw h1
  refine ⟨E, by simp only [embBlock, e1, e5, Option.bind_some], ?_⟩
  cases E with
  | none =>
    obtain ⟨q1, q2⟩ := e6
    refine ⟨q1, by rw [← hl, q1, List.length_range], fun v hv => ?_⟩
    subst q2
    unfold newNum
    rw [Option.getD_none, List.getD_eq_getElem?_getD, List.getElem?_range hv]
    rfl
  | some E =>
    have e7 : One E nd nv fun d => (pos S.dofs d).map fun k => (newNum nv sort k, 1) := e6
    refine embeds_of_one hD hS.lt (e7.congr fun d hd => ?_) ?_
    · rcases hp : pos S.dofs d with _ | k
      · rfl
      · have hk : k < nv := by rw [← hl]; exact pos_lt hp
        simp only [Option.bind_some, Option.map_some, slot_one hk, one_pick]
    · intro k v c h
      have := (slot_lt h).2.1
      simp at this
      omega

/-- **C96** (all processes): if a process has an embedding, all have one; a process whose degrees of freedom are the vertices gets the identity. -/
theorem embedding_all {np : ℕ} {nd nv : ℕ → ℕ} {D : ℕ → List ℕ} {num : ℕ → ℕ → ℕ} {E : ℕ → Option (CSR (Mt n n K))}
    (h : ∀ p < np, match E p with
      | none => D p = List.range (nd p) ∧ nv p = nd p ∧ ∀ v < nv p, num p v = v
      | some E => Embeds (nd p) (nv p) [1] (D p) (num p) E) :
    (∀ p < np, ∃ F, finalE np nd nv E p = some F ∧ Embeds (nd p) (nv p) [1] (D p) (num p) F) ∨
      (∀ p < np, finalE np nd nv E p = none ∧ D p = List.range (nd p) ∧ nv p = nd p ∧ ∀ v < nv p, num p v = v) := by
  by_cases hany : (List.range np).any (fun q => (E q).isSome) = true
  · left
    intro p hp
    refine ⟨_, if_pos hany, ?_⟩
    have hp' := h p hp
    cases hE : E p with
    | some F =>
      rw [hE] at hp'
      exact hp'
    | none =>
      rw [hE] at hp'
      obtain ⟨q1, q2, q3⟩ := hp'
      have hone : One (identE n n (nd p) (nv p) : CSR (Mt n n K)) (nd p) (nv p) fun d => some (d, dispBlock n n) := by
        refine ⟨rfl, rfl, fun i hi => if_pos hi, fun i hi => if_neg (by omega), ?_⟩
        intro i hi e he
        cases he
        show i < nv p
        omega
      rw [Option.getD_none]
      have hnd : (D p).Nodup := by rw [q1]; exact List.nodup_range
      refine embeds_of_one hnd (fun d hd => by rw [q1] at hd; exact List.mem_range.mp hd) (hone.congr fun d hd => ?_) ?_
      · rw [(pos_get hnd (k := d) (d := d)).mpr (by rw [q1, List.getElem?_range hd]), Option.bind_some, slot_one (by omega), dispBlock_pick]
        simp only [Option.map_some]
        rw [q3 d (by omega)]
      · intro k v c h
        have := (slot_lt h).2.1
        simp at this
        omega
  · right
    intro p hp
    refine ⟨if_neg hany, ?_⟩
    have hp' := h p hp
    cases hE : E p with
    | some F =>
      exfalso
      apply hany
      rw [List.any_eq_true]
      exact ⟨p, List.mem_range.mpr hp, by rw [hE]; rfl⟩
    | none =>
      rw [hE] at hp'
      exact hp'

/-- **C96** (maps): the value of a degree of freedom is a component of the vertex it is mapped to; degrees of freedom without vertex get zero. -/
theorem embedding_maps {nd nv : ℕ} {bs D : List ℕ} {num : ℕ → ℕ} {E : CSR (Mt 1 b K)} (hE : Embeds nd nv bs D num E) {d2v v2d : List (Option ℕ)} (hN : Numbering nd nv bs D num d2v v2d)
    (hl : D.length = nv * bs.sum) :
    (∀ d w, d2v[d]? = some (some w) → ∃ cc, ∃ h : cc < b, v2d[w * bs.sum + cc]? = some (some d) ∧ ∀ x, act E x d 0 = x w ⟨cc, h⟩) ∧
      ∀ d, d2v[d]? = some none → ∀ x, act E x d = 0 := by
  constructor
  · intro d w hd
    have hdn : d < nd := by rw [← hN.len]; exact (List.getElem?_eq_some_iff.mp hd).1
    by_cases hm : d ∈ D
    · obtain ⟨k, hk⟩ := List.getElem?_of_mem hm
      obtain ⟨v, cc, hs⟩ := slot_some (nv := nv) (bs := bs) (k := k) (by rw [← hl]; exact (List.getElem?_eq_some_iff.mp hk).1)
      obtain ⟨q1, q2⟩ := hN.on k d v cc hk hs
      obtain ⟨q3, q4⟩ := hE.on k d v cc hk hs
      rw [hd] at q1
      cases q1
      exact ⟨cc, by omega, q2, fun x => q4 x 0 (by simp; omega)⟩
    · rw [hN.off d hdn hm] at hd
      cases hd
  · intro d hd x
    have hdn : d < nd := by rw [← hN.len]; exact (List.getElem?_eq_some_iff.mp hd).1
    refine hE.off d hdn (fun hm => ?_) x
    obtain ⟨k, hk⟩ := List.getElem?_of_mem hm
    obtain ⟨v, cc, hs⟩ := slot_some (nv := nv) (bs := bs) (k := k) (by rw [← hl]; exact (List.getElem?_eq_some_iff.mp hk).1)
    rw [(hN.on k d v cc hk hs).1] at hd
    cases hd

end NgsAMG.DofM
