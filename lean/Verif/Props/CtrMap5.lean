import Verif.Props.CtrMap4

/-! C87: `SwapWithProl` - prolongation before contraction instead of after it. -/

namespace NgsAMG.Ctr
open NgsAMG.DCC NgsAMG.HybSm NgsAMG.HybMat Finset NgsAMG.Exch NgsAMG.SparseMM

section local_
variable {E : Type} [AddCommMonoid E]

theorem mem_newDmap {R : CSR E} (hR : R.WF) {dmap : List ℕ} {c : ℕ} : c ∈ newDmap R dmap ↔ ∃ r ∈ dmap, ∃ v, (c, v) ∈ R.row r := by
  simp only [newDmap, List.mem_filter, List.mem_range, List.any_eq_true, beq_iff_eq]
  constructor
  · rintro ⟨-, r, hr, e, he, rfl⟩
    exact ⟨r, hr, e.2, he⟩
  · rintro ⟨r, hr, v, hv⟩
    exact ⟨hR.inRange r _ hv, r, hr, _, hv, rfl⟩

theorem newDmap_sorted (R : CSR E) (dmap : List ℕ) : (newDmap R dmap).Pairwise (· < ·) := List.pairwise_lt_range.filter _

theorem newDmap_lt {R : CSR E} {dmap : List ℕ} {c : ℕ} (h : c ∈ newDmap R dmap) : c < R.width := by
  simp only [newDmap, List.mem_filter, List.mem_range] at h
  exact h.1

theorem newDmap_nil (R : CSR E) : newDmap R [] = [] := by simp [newDmap]

/-- the part of the prolongation for one member: its rows, with renumbered columns -/
theorem chunk_spec {R : CSR E} (hR : R.WF) {dmap : List ℕ} (hd : ∀ r ∈ dmap, r < R.height) :
    ∃ Q, chunk R dmap = some Q ∧ Q.WF ∧ Q.height = dmap.length ∧ Q.width = (newDmap R dmap).length ∧
      (∀ (j r : ℕ), dmap[j]? = some r → mrow (newDmap R dmap) (Q.row j) = R.row r) ∧
      ∀ (j r i c : ℕ), dmap[j]? = some r → (newDmap R dmap)[i]? = some c → Q.entry j i = R.entry r c := by
  have hcond : (dmap.all fun r => decide (r < R.height) && (R.row r).all fun e => decide (e.1 < R.width)) = true := by
    rw [List.all_eq_true]
    intro r hr
    rw [Bool.and_eq_true, decide_eq_true_eq, List.all_eq_true]
    exact ⟨hd r hr, fun e he => by rw [decide_eq_true_eq]; exact hR.inRange r e he⟩
  have hnd : (newDmap R dmap).Nodup := (newDmap_sorted R dmap).imp fun h => Nat.ne_of_lt h
  refine ⟨⟨dmap.length, (newDmap R dmap).length, fun j => ((dmap[j]?).elim [] fun r => R.row r).filterMap fun e => (rmap (newDmap R dmap) e.1).map fun c => (c, e.2)⟩,
    by rw [chunk, if_pos hcond], ?_⟩
  have hrow : ∀ (j r : ℕ), dmap[j]? = some r → (((dmap[j]?).elim [] fun r => R.row r).filterMap fun e => (rmap (newDmap R dmap) e.1).map fun c => (c, e.2)) =
      (R.row r).map fun e => ((newDmap R dmap).idxOf e.1, e.2) := by
    intro j r hj
    rw [hj]
    show (R.row r).filterMap _ = _
    rw [← List.filterMap_eq_map]
    refine List.filterMap_congr fun e he => ?_
    have : e.1 ∈ newDmap R dmap := (mem_newDmap hR).2 ⟨r, List.mem_of_getElem? hj, e.2, he⟩
    rw [rmap, if_pos (by simpa using this)]
    rfl
  have hidx : ∀ (r : ℕ), r ∈ dmap → ∀ e ∈ R.row r, (newDmap R dmap)[(newDmap R dmap).idxOf e.1]? = some e.1 ∧ (newDmap R dmap).idxOf e.1 < (newDmap R dmap).length := by
    intro r hr e he
    have hm : e.1 ∈ newDmap R dmap := (mem_newDmap hR).2 ⟨r, hr, e.2, he⟩
    have hl := List.idxOf_lt_length_iff.2 hm
    refine ⟨?_, hl⟩
    rw [List.getElem?_eq_getElem hl, List.getElem_idxOf]
  have hnone : ∀ j : ℕ, dmap[j]? = none → (((dmap[j]?).elim [] fun r => R.row r).filterMap fun e => (rmap (newDmap R dmap) e.1).map fun c => (c, e.2)) = [] := by
    intro j hj
    rw [hj]
    rfl
  have hwf : CSR.WF (E := E) ⟨dmap.length, (newDmap R dmap).length, fun j => ((dmap[j]?).elim [] fun r => R.row r).filterMap fun e => (rmap (newDmap R dmap) e.1).map fun c => (c, e.2)⟩ := by
    refine ⟨fun j => ?_, fun j e he => ?_, fun j hj => hnone j (List.getElem?_eq_none hj)⟩
    · dsimp only
      rcases hj : dmap[j]? with _ | r
      · have := hnone j hj
        rw [hj] at this
        rw [this]
        simp
      · have := hrow j r hj
        rw [hj] at this
        rw [this, List.map_map]
        have hs := hR.sorted r
        rw [List.pairwise_map] at hs ⊢
        refine hs.imp_of_mem ?_
        intro a b ha hb hab
        obtain ⟨a1, a2⟩ := hidx r (List.mem_of_getElem? hj) a ha
        obtain ⟨b1, b2⟩ := hidx r (List.mem_of_getElem? hj) b hb
        show (newDmap R dmap).idxOf a.1 < (newDmap R dmap).idxOf b.1
        by_contra hle
        rw [Nat.not_lt] at hle
        rw [List.getElem?_eq_getElem a2, Option.some.injEq] at a1
        rw [List.getElem?_eq_getElem b2, Option.some.injEq] at b1
        rcases Nat.lt_or_eq_of_le hle with hlt | heq
        · have := List.pairwise_iff_getElem.1 (newDmap_sorted R dmap) _ _ b2 a2 hlt
          omega
        · have : b.1 = a.1 := by rw [← a1, ← b1]; congr 1
          omega
    · dsimp only at he ⊢
      rcases hj : dmap[j]? with _ | r
      · rw [hnone j hj] at he
        cases he
      · rw [hrow j r hj, List.mem_map] at he
        obtain ⟨f, hf, rfl⟩ := he
        exact (hidx r (List.mem_of_getElem? hj) f hf).2
  have hm : ∀ (j r : ℕ), dmap[j]? = some r → mrow (newDmap R dmap) (((dmap[j]?).elim [] fun r => R.row r).filterMap fun e => (rmap (newDmap R dmap) e.1).map fun c => (c, e.2)) = R.row r := by
    intro j r hj
    rw [hrow j r hj, mrow, List.map_map]
    conv_rhs => rw [← List.map_id (R.row r)]
    refine List.map_congr_left fun e he => ?_
    show ((((newDmap R dmap)[(newDmap R dmap).idxOf e.1]?).getD 0), e.2) = e
    rw [(hidx r (List.mem_of_getElem? hj) e he).1]
    rfl
  refine ⟨hwf, rfl, rfl, hm, fun j r i c hj hi => ?_⟩
  have h1 := colSum_mrow hwf rfl j c
  dsimp only at h1
  rw [hm j r hj] at h1
  have h2 : R.entry r c = colSum (R.row r) c := rfl
  rw [h2, h1]
  have hil := (List.getElem?_eq_some_iff.1 hi).1
  rw [sum_eq_single i]
  · rw [hi, Option.getD_some, if_pos rfl]
  · intro l hl hne
    rw [mem_range] at hl
    rw [if_neg]
    rw [List.getElem?_eq_getElem hl, Option.getD_some]
    intro he
    obtain ⟨_, hi'⟩ := List.getElem?_eq_some_iff.1 hi
    exact hne ((List.Nodup.getElem_inj_iff hnd).1 (he.trans hi'.symm))
  · intro hn
    exact absurd (mem_range.2 hil) hn

end local_

variable {C : Ctr} {P Pc Pcc : PD} {k : ℕ} {E : Type} [AddCommMonoid E]

/-- the unknowns between prolongation and contraction after the swap, dof_contract.cpp:477-495 (who shares them is not computed by the code, 484) -/
def midPD (C : Ctr) (P Pcc : PD) (R : ℕ → CSR E) : PD where
  np := P.np
  ndof p := (newDmap (R (C.grpOf p)) (C.map (C.grpOf p) ((C.group (C.grpOf p)).idxOf p))).length
  glob p j := Pcc.glob (C.grpOf p) (((newDmap (R (C.grpOf p)) (C.map (C.grpOf p) ((C.group (C.grpOf p)).idxOf p)))[j]?).getD 0)

/-- the prolongations of the masters fit to the unknowns of the contracted and of the coarse level, and every coarse unknown is used -/
structure ProlOK (C : Ctr) (Pc Pcc : PD) (R : ℕ → CSR E) : Prop where
  np : Pcc.np = C.ng
  wf : ∀ gi < C.ng, (R gi).WF ∧ (R gi).height = Pc.ndof gi ∧ (R gi).width = Pcc.ndof gi
  used : ∀ gi < C.ng, ∀ c < Pcc.ndof gi, ∃ r v, (c, v) ∈ (R gi).row r

theorem swapped_map (C : Ctr) (R : ℕ → CSR E) (gi kp : ℕ) : (C.swapped R).map gi kp = newDmap (R gi) (C.map gi kp) := by
  rw [Ctr.map, Ctr.swapped, Ctr.map, List.getElem?_map]
  cases (C.maps gi)[kp]? with
  | none => exact (newDmap_nil _).symm
  | some m => rfl

theorem CtrOK.idxOf (h : CtrOK C P Pc) {gi kp : ℕ} (hi : gi < C.ng) (hk : kp < (C.group gi).length) : (C.group gi).idxOf (C.rank gi kp) = kp := by
  obtain ⟨hl, e⟩ := List.getElem?_eq_some_iff.1 (h.rank_mem hk).2
  rw [← e]
  exact (h.groupNodup hi).idxOf_getElem kp hl

theorem mid_ndof (h : CtrOK C P Pc) (R : ℕ → CSR E) {gi kp : ℕ} (hi : gi < C.ng) (hk : kp < (C.group gi).length) :
    (midPD C P Pcc R).ndof (C.rank gi kp) = (newDmap (R gi) (C.map gi kp)).length ∧
    ∀ j, (midPD C P Pcc R).glob (C.rank gi kp) j = Pcc.glob gi (((newDmap (R gi) (C.map gi kp))[j]?).getD 0) := by
  simp only [midPD, h.rank_grp hi hk, h.idxOf hi hk]
  exact ⟨trivial, fun _ => trivial⟩

/-- **C87**: after the swap the contraction is one from the unknowns in between to the coarse unknowns -/
theorem swapped_ok (h : CtrOK C P Pc) {R : ℕ → CSR E} (hR : ProlOK C Pc Pcc R) : CtrOK (C.swapped R) (midPD C P Pcc R) Pcc := by
  have hrk : ∀ gi kp (p : ℕ), (C.group gi)[kp]? = some p → kp < (C.group gi).length ∧ C.rank gi kp = p := by
    intro gi kp p hp
    exact ⟨(List.getElem?_eq_some_iff.1 hp).1, by rw [Ctr.rank, hp]; rfl⟩
  refine ⟨hR.np, h.perm, h.ne, fun gi hi => ?_, fun gi hi kp p hp => ?_, fun gi hi kp p hp j c hc => ?_, fun gi hi c hc => ?_⟩
  · show ((C.maps gi).map _).length = _
    rw [List.length_map]
    exact h.len gi hi
  · obtain ⟨hk, rfl⟩ := hrk gi kp p hp
    rw [swapped_map, (mid_ndof h R hi hk).1]
  · obtain ⟨hk, rfl⟩ := hrk gi kp p hp
    rw [swapped_map] at hc
    rw [(mid_ndof h R hi hk).2 j, hc]
    exact ⟨(hR.wf gi hi).2.2 ▸ newDmap_lt (List.mem_of_getElem? hc), rfl⟩
  · obtain ⟨r, v, hv⟩ := hR.used gi hi c hc
    have hr : r < Pc.ndof gi := by
      rw [← (hR.wf gi hi).2.1]
      by_contra hn
      rw [(hR.wf gi hi).1.outside r (Nat.not_lt.1 hn)] at hv
      cases hv
    obtain ⟨kp, p, j, hp, hj⟩ := h.cover gi hi r hr
    obtain ⟨i, hi'⟩ := List.mem_iff_getElem?.1 ((mem_newDmap (hR.wf gi hi).1 (dmap := C.map gi kp)).2 ⟨r, List.mem_of_getElem? hj, v, hv⟩)
    exact ⟨kp, p, i, hp, by rw [swapped_map]; exact hi'⟩

theorem swap_matched (h : CtrOK C P Pc) : Matched P.np [swapPhase (E := E) C] := by
  intro ph hph p hp
  rw [List.mem_singleton] at hph
  subst hph
  refine ⟨fun q hq => (h.member_iff hq hp).symm, fun q hs => ?_, fun q hs => ?_⟩
  · simp only [swapPhase, Bool.and_eq_true, List.contains_iff_mem] at hs
    exact h.mem.2 ⟨_, (h.group_lt hp).1, List.mem_of_mem_tail hs.2⟩
  · simp only [swapPhase, Bool.and_eq_true, beq_iff_eq] at hs
    rw [← hs.2]
    exact master_lt h hp

/-- what the processes start with: the masters have the prolongation after contraction -/
def swapStart (C : Ctr) (R : ℕ → CSR E) (p : ℕ) : Option (CSR E) × Option (CSR E) := (if C.isGm p then some (R (C.grpOf p)) else none, none)

/-- what a process has after the swap -/
structure SwapRes (C : Ctr) (P : PD) (R : ℕ → CSR E) (Q : ℕ → CSR E) : Prop where
  wf : ∀ gi < C.ng, ∀ kp < (C.group gi).length, (Q (C.rank gi kp)).WF ∧ (Q (C.rank gi kp)).height = P.ndof (C.rank gi kp) ∧
    (Q (C.rank gi kp)).width = ((C.swapped R).map gi kp).length
  row : ∀ gi < C.ng, ∀ kp < (C.group gi).length, ∀ (j r : ℕ), (C.map gi kp)[j]? = some r → mrow ((C.swapped R).map gi kp) ((Q (C.rank gi kp)).row j) = (R gi).row r
  entry : ∀ gi < C.ng, ∀ kp < (C.group gi).length, ∀ (j r i c : ℕ), (C.map gi kp)[j]? = some r → ((C.swapped R).map gi kp)[i]? = some c →
    (Q (C.rank gi kp)).entry j i = (R gi).entry r c

/-- **C87**: for every schedule every process gets its rows of the prolongation, with columns in the new numbering, and the masters have the maps of the new contraction. -/
theorem swap_correct (h : CtrOK C P Pc) {R : ℕ → CSR E} (hR : ProlOK C Pc Pcc R) {n : ℕ} {s : St (Option (CSR E) × Option (CSR E)) (Option (CSR E))}
    (hr : Reach P.np [swapPhase C] (swapStart C R) n s) (hf : Final P.np [swapPhase C] s) :
    (∃ Q, (∀ p < P.np, (s.vec p).2 = some (Q p)) ∧ SwapRes C P R Q) ∧ ∀ gi < C.ng, (swapMaster (C.maps gi) (R gi)).map Prod.fst = some ((C.swapped R).maps gi) := by
  obtain ⟨hv, -⟩ := final_state (swap_matched h) hr hf
  have hrun : ∀ p < P.np, s.vec p = runPhase (swapPhase C) (swapStart C R) p := fun p hp => hv p hp
  have hch : ∀ gi kp, ∃ Q, gi < C.ng → kp < (C.group gi).length → chunk (R gi) (C.map gi kp) = some Q ∧ Q.WF ∧ Q.height = (C.map gi kp).length ∧
      Q.width = (newDmap (R gi) (C.map gi kp)).length ∧ (∀ (j r : ℕ), (C.map gi kp)[j]? = some r → mrow (newDmap (R gi) (C.map gi kp)) (Q.row j) = (R gi).row r) ∧
      ∀ (j r i c : ℕ), (C.map gi kp)[j]? = some r → (newDmap (R gi) (C.map gi kp))[i]? = some c → Q.entry j i = (R gi).entry r c := by
    intro gi kp
    by_cases hi : gi < C.ng
    · by_cases hk : kp < (C.group gi).length
      · obtain ⟨Q, hQ⟩ := chunk_spec (hR.wf gi hi).1 (dmap := C.map gi kp) (by
          intro r hr
          obtain ⟨j, hj⟩ := List.mem_iff_getElem?.1 hr
          rw [(hR.wf gi hi).2.1]
          exact (h.glob gi hi kp _ (h.rank_mem hk).2 j r hj).1)
        exact ⟨Q, fun _ _ => hQ⟩
      · exact ⟨⟨0, 0, fun _ => []⟩, fun _ hk' => absurd hk' hk⟩
    · exact ⟨⟨0, 0, fun _ => []⟩, fun hi' => absurd hi' hi⟩
  choose Q hQ using hch
  have hmaps : ∀ gi < C.ng, C.maps gi = (List.range (C.group gi).length).map (C.map gi) := by
    intro gi hi
    refine List.ext_getElem ?_ fun i h1 h2 => ?_
    · rw [List.length_map, List.length_range, h.len gi hi]
    · rw [List.getElem_map, List.getElem_range, Ctr.map, List.getElem?_eq_getElem h1]
      rfl
  have hsw : ∀ gi < C.ng, ∃ r, swapMaster (C.maps gi) (R gi) = some r ∧ (∀ kp < (C.group gi).length, r.2[kp]? = some (Q gi kp)) ∧ r.1 = (C.swapped R).maps gi := by
    intro gi hi
    have hm : (C.maps gi).mapM (chunk (R gi)) = some ((List.range (C.group gi).length).map (Q gi)) := by
      rw [hmaps gi hi, List.mapM_map]
      refine RedTab.mapM_some_of _ _ _ fun kp hkp => ?_
      exact (hQ gi kp hi (List.mem_range.1 hkp)).1
    rw [swapMaster, hm]
    refine ⟨_, rfl, fun kp hkp => ?_, rfl⟩
    dsimp only
    rw [List.getElem?_map, List.getElem?_range hkp]
    rfl
  refine ⟨?_, fun gi hi => by obtain ⟨r, hr1, -, hr3⟩ := hsw gi hi; rw [hr1, ← hr3]; rfl⟩
  refine ⟨fun p => Q (C.grpOf p) ((C.group (C.grpOf p)).idxOf p), fun p hp => ?_, ?_⟩
  · obtain ⟨gi, hi, kp, hkp, -, rfl⟩ := h.index hp
    obtain ⟨r, hr1, hr2, -⟩ := hsw gi hi
    have hgrp := h.rank_grp hi hkp
    rw [hrun _ hp, runPhase]
    simp only [swapPhase]
    by_cases h0 : kp = 0
    · subst h0
      have hgm : C.isGm (C.rank gi 0) = true := by rw [h.isGm_rank hi hkp]; rfl
      rw [if_pos hgm]
      dsimp only
      rw [swapStart, if_pos hgm, hgrp, h.idxOf hi hkp]
      show (swapMaster (C.maps gi) (R gi)).bind _ = _
      rw [hr1]
      exact hr2 0 hkp
    · have hgm : C.isGm (C.rank gi kp) = false := by rw [h.isGm_rank hi hkp]; simp [h0]
      rw [if_neg (by rw [hgm]; simp)]
      dsimp only
      refine Eq.trans (if_pos (by rw [hgm]; simp)) ?_
      rw [hgrp, swapStart, if_pos (h.isGm_master hi), h.grpOf hi (h.master_mem hi).1, h.idxOf hi hkp]
      show (swapMaster (C.maps gi) (R gi)).bind _ = _
      rw [hr1]
      exact hr2 kp hkp
  · refine ⟨fun gi hi kp hkp => ?_, fun gi hi kp hkp => ?_, fun gi hi kp hkp => ?_⟩ <;> rw [h.rank_grp hi hkp, h.idxOf hi hkp, swapped_map]
    · obtain ⟨-, a, b, c, -⟩ := hQ gi kp hi hkp
      exact ⟨a, b.trans (h.size gi hi kp _ (h.rank_mem hkp).2), c⟩
    · exact (hQ gi kp hi hkp).2.2.2.2.1
    · exact (hQ gi kp hi hkp).2.2.2.2.2

end NgsAMG.Ctr
