import Verif.Props.CtrMap2
import Verif.Props.Exchange

/-! C85, C86, third part: communication within groups, contracted matrix. -/

namespace NgsAMG.Ctr
open NgsAMG.DCC NgsAMG.SparseMM NgsAMG.Hybrid Finset NgsAMG.Exch

variable {C : Ctr} {P Pc : PD}

theorem CtrOK.index (h : CtrOK C P Pc) {p : ℕ} (hp : p < P.np) : ∃ gi < C.ng, ∃ k < (C.group gi).length, C.grpOf p = gi ∧ C.rank gi k = p := by
  obtain ⟨h1, h2⟩ := h.group_lt hp
  obtain ⟨k, hk, e⟩ := List.getElem_of_mem h2
  refine ⟨_, h1, k, hk, rfl, ?_⟩
  rw [Ctr.rank, List.getElem?_eq_getElem hk]
  exact e

theorem CtrOK.rank_lt (h : CtrOK C P Pc) {gi k : ℕ} (hi : gi < C.ng) (hk : k < (C.group gi).length) : C.rank gi k < P.np := h.mem.2 ⟨gi, hi, (h.rank_mem hk).1⟩

theorem CtrOK.rank_grp (h : CtrOK C P Pc) {gi k : ℕ} (hi : gi < C.ng) (hk : k < (C.group gi).length) : C.grpOf (C.rank gi k) = gi := h.grpOf hi (h.rank_mem hk).1

theorem CtrOK.rank_inj (h : CtrOK C P Pc) {gi k l : ℕ} (hi : gi < C.ng) (hk : k < (C.group gi).length) (hl : l < (C.group gi).length) (e : C.rank gi k = C.rank gi l) : k = l := by
  obtain ⟨a, ha⟩ := List.getElem?_eq_some_iff.1 (h.rank_mem hk).2
  obtain ⟨b, hb⟩ := List.getElem?_eq_some_iff.1 (h.rank_mem hl).2
  exact (List.Nodup.getElem_inj_iff (h.groupNodup hi)).1 (ha.trans (e.trans hb.symm))

theorem CtrOK.master_eq (h : CtrOK C P Pc) {gi : ℕ} (hi : gi < C.ng) : C.master gi = C.rank gi 0 ∧ 0 < (C.group gi).length :=
  ⟨rfl, List.length_pos_iff.2 (h.ne gi hi)⟩

theorem CtrOK.isGm_iff (h : CtrOK C P Pc) {p : ℕ} (hp : p < P.np) : C.isGm p = true ↔ p = C.master (C.grpOf p) := by rw [Ctr.isGm, beq_iff_eq]

theorem CtrOK.mem_tail (h : CtrOK C P Pc) {gi p : ℕ} (hi : gi < C.ng) (hp : p < P.np) : p ∈ (C.group gi).tail ↔ C.grpOf p = gi ∧ C.isGm p = false := by
  constructor
  · intro hm
    obtain ⟨k, hk, e⟩ := List.getElem_of_mem hm
    rw [List.getElem_tail] at e
    rw [List.length_tail] at hk
    have hk' : k + 1 < (C.group gi).length := by omega
    have e' : C.rank gi (k + 1) = p := by rw [Ctr.rank, List.getElem?_eq_getElem hk']; exact e
    refine ⟨h.grpOf hi (List.mem_of_mem_tail hm), ?_⟩
    rw [← e', h.isGm_rank hi hk']
    simp
  · rintro ⟨rfl, hg⟩
    obtain ⟨gi, hi, k, hk, e1, e2⟩ := h.index hp
    rw [e1]
    rw [← e2, h.isGm_rank hi hk, decide_eq_false_iff_not] at hg
    rw [← e2, List.mem_iff_getElem]
    refine ⟨k - 1, by rw [List.length_tail]; omega, ?_⟩
    rw [List.getElem_tail, Ctr.rank, List.getElem?_eq_getElem hk, Option.getD_some]
    congr 1
    omega

theorem CtrOK.member_iff (h : CtrOK C P Pc) {p q : ℕ} (hp : p < P.np) (hq : q < P.np) :
    (!C.isGm p && C.master (C.grpOf p) == q) = (C.isGm q && (C.group (C.grpOf q)).tail.contains p) := by
  rw [Bool.eq_iff_iff]
  simp only [Bool.and_eq_true, Bool.not_eq_true', beq_iff_eq, List.contains_iff_mem, h.mem_tail (h.group_lt hq).1 hp]
  constructor
  · rintro ⟨h1, rfl⟩
    have := (h.group_lt hp).1
    rw [h.grpOf this (h.master_mem this).1]
    exact ⟨h.isGm_master this, rfl, h1⟩
  · rintro ⟨h1, h2, h3⟩
    exact ⟨h3, by rw [h2]; exact ((h.isGm_iff hq).1 h1).symm⟩

theorem CtrOK.serves_iff (h : CtrOK C P Pc) {p q : ℕ} (hp : p < P.np) (hq : q < P.np) : (C.hands P p && C.master (C.grpOf p) == q) = C.serves q p := by
  rw [Bool.eq_iff_iff, Ctr.hands, Ctr.serves]
  simp only [Bool.and_eq_true, Bool.not_eq_true', beq_iff_eq, decide_eq_true_eq, List.any_eq_true, Ctr.active, List.mem_filter, List.mem_range'_1]
  obtain ⟨gi, hi, k, hk, e1, e2⟩ := h.index hp
  have hsz := h.size gi hi k p (e2 ▸ (h.rank_mem hk).2)
  constructor
  · rintro ⟨⟨h1, h2⟩, rfl⟩
    rw [e1, h.grpOf hi (h.master_mem hi).1]
    rw [← e2, h.isGm_rank hi hk, decide_eq_false_iff_not] at h1
    exact ⟨h.isGm_master hi, k, ⟨⟨by omega, by omega⟩, by omega⟩, e2⟩
  · rintro ⟨h1, l, ⟨⟨h2, h3⟩, h4⟩, h5⟩
    have hgq := (h.group_lt hq).1
    have hl : l < (C.group (C.grpOf q)).length := by omega
    have h6 : C.grpOf p = C.grpOf q := by rw [← h5]; exact h.rank_grp hgq hl
    have h7 : C.isGm p = false := by
      rw [← h5, h.isGm_rank hgq hl]
      simp
      omega
    have h8 : l = k := by
      have : C.grpOf q = gi := h6 ▸ e1
      rw [this] at hl h5
      exact h.rank_inj hi hl hk (h5.trans e2.symm)
    subst h8
    refine ⟨⟨h7, ?_⟩, by rw [h6]; exact ((h.isGm_iff hq).1 h1).symm⟩
    rw [← hsz, ← e1, h6]
    exact h4

theorem serves_lt (h : CtrOK C P Pc) {p q : ℕ} (hp : p < P.np) (hs : C.serves p q = true) : q < P.np := by
  rw [Ctr.serves] at hs
  simp only [Bool.and_eq_true, List.any_eq_true, beq_iff_eq, Ctr.active, List.mem_filter, List.mem_range'_1] at hs
  obtain ⟨-, k, ⟨⟨h1, h2⟩, -⟩, rfl⟩ := hs
  exact h.rank_lt (h.group_lt hp).1 (by omega)

theorem master_lt (h : CtrOK C P Pc) {p : ℕ} (hp : p < P.np) : C.master (C.grpOf p) < P.np := h.mem.2 ⟨_, (h.group_lt hp).1, (h.master_mem (h.group_lt hp).1).1⟩

/-! ### the matrix -/

variable {E : Type} [AddCommMonoid E]

instance : Inhabited (CSR E) := ⟨⟨0, 0, fun _ => []⟩⟩

theorem assemble_matched (h : CtrOK C P Pc) (sortI : SortI) (mjunk : ℕ → ℕ → ℕ → ℕ × ℕ) (junk : ℕ → ℕ → ℕ → E) : Matched P.np [assemblePhase (E := E) C Pc sortI mjunk junk] := by
  intro ph hph p hp
  rw [List.mem_singleton] at hph
  subst hph
  refine ⟨fun q hq => h.member_iff hp hq, fun q hs => ?_, fun q hs => ?_⟩
  · simp only [assemblePhase, Bool.and_eq_true, beq_iff_eq] at hs
    rw [← hs.2]
    exact master_lt h hp
  · simp only [assemblePhase, Bool.and_eq_true, List.contains_iff_mem] at hs
    exact h.mem.2 ⟨_, (h.group_lt hp).1, List.mem_of_mem_tail hs.2⟩

/-- the matrices of the members of a group -/
theorem members_eq (h : CtrOK C P Pc) {gi : ℕ} (hi : gi < C.ng) (A : ℕ → CSR E) : A (C.master gi) :: (C.group gi).tail.map A = (C.group gi).map A := by
  obtain ⟨-, h2⟩ := h.master_mem hi
  cases hg : C.group gi with
  | nil => exact absurd hg (h.ne gi hi)
  | cons a l =>
    rw [hg, List.getElem?_cons_zero] at h2
    rw [List.tail_cons, List.map_cons, Option.some.inj h2]

theorem asmOK (h : CtrOK C P Pc) (hP : P.WF) {A : ℕ → CSR E} (hA : ∀ p < P.np, (A p).WF ∧ (A p).height = P.ndof p ∧ (A p).width = P.ndof p) {gi : ℕ} (hi : gi < C.ng) :
    AsmOK (C.maps gi) ((C.group gi).map A) (Pc.ndof gi) := by
  have hmap : ∀ map ∈ C.maps gi, ∃ k < (C.group gi).length, C.map gi k = map := by
    intro map hm
    obtain ⟨k, hk, e⟩ := List.getElem_of_mem hm
    refine ⟨k, (h.len gi hi) ▸ hk, ?_⟩
    rw [Ctr.map, List.getElem?_eq_getElem hk]
    exact e
  refine ⟨by rw [List.length_map, h.len gi hi], fun map hm => ?_, fun map hm c hc => ?_, fun k map B hm hB => ?_⟩
  · obtain ⟨k, hk, rfl⟩ := hmap map hm
    exact h.map_nodup hP hi hk
  · obtain ⟨k, hk, rfl⟩ := hmap map hm
    obtain ⟨j, hj⟩ := List.mem_iff_getElem?.1 hc
    exact (h.glob gi hi k _ (h.rank_mem hk).2 j c hj).1
  · rw [List.getElem?_map, Option.map_eq_some_iff] at hB
    obtain ⟨p, hp, rfl⟩ := hB
    have hsz := h.size gi hi k p hp
    rw [Ctr.map, hm, Option.getD_some] at hsz
    rw [hsz]
    exact hA p (h.mem.2 ⟨gi, hi, List.mem_of_getElem? hp⟩)

/-- **C86**: the contracted matrices represent the same global operator, whatever the order of messages and the contents of uninitialised memory; every contracted matrix is well-formed, and it has
an entry exactly where a member has one. -/
theorem assemble_correct (hP : P.WF) (h : CtrOK C P Pc) {A : ℕ → CSR E} (hA : ∀ p < P.np, (A p).WF ∧ (A p).height = P.ndof p ∧ (A p).width = P.ndof p)
    (hn : ∀ gi < C.ng, ∀ c < Pc.ndof gi, 2 * c ≤ MergeArrays.intMax) {sortI : SortI} (hs : SortIOK sortI) (mjunk : ℕ → ℕ → ℕ → ℕ × ℕ) (junk : ℕ → ℕ → ℕ → E) {n : ℕ}
    {s : St (CSR E × Option (CSR E)) (CSR E)} (hr : Reach P.np [assemblePhase C Pc sortI mjunk junk] (fun p => (A p, none)) n s)
    (hf : Final P.np [assemblePhase C Pc sortI mjunk junk] s) :
    ∃ B : ℕ → CSR E, (∀ gi < C.ng, (s.vec (C.master gi)).2 = some (B gi) ∧ (B gi).WF ∧ (B gi).height = Pc.ndof gi ∧ (B gi).width = Pc.ndof gi) ∧
      (∀ p < P.np, C.isGm p = false → (s.vec p).2 = none) ∧ (∀ g g', gop Pc B g g' = gop P A g g') ∧
      (∀ gi < C.ng, ∀ r c, (∃ v, (c, v) ∈ (B gi).row r) ↔ ∃ (k p j i : ℕ) (v : E), (C.group gi)[k]? = some p ∧ (C.map gi k)[j]? = some r ∧ (C.map gi k)[i]? = some c ∧ (i, v) ∈ (A p).row j) ∧
      ∀ gi < C.ng, ∀ d e, (B gi).entry d e = ∑ k ∈ range (C.group gi).length, ∑ j ∈ range (P.ndof (C.rank gi k)), ∑ i ∈ range (P.ndof (C.rank gi k)),
        if ((C.map gi k)[j]?).getD 0 = d ∧ ((C.map gi k)[i]?).getD 0 = e then (A (C.rank gi k)).entry j i else 0 := by
  obtain ⟨hv, -⟩ := final_state (assemble_matched h sortI mjunk junk) hr hf
  have hrun : ∀ p < P.np, s.vec p = runPhase (assemblePhase C Pc sortI mjunk junk) (fun p => (A p, none)) p := fun p hp => hv p hp
  have hm : ∀ gi < C.ng, (s.vec (C.master gi)).2 = assembleMat sortI (mjunk (C.master gi)) (junk (C.master gi)) (C.maps gi) ((C.group gi).map A) (Pc.ndof gi) := by
    intro gi hi
    have hlt : C.master gi < P.np := h.mem.2 ⟨gi, hi, (h.master_mem hi).1⟩
    have hg := h.grpOf hi (h.master_mem hi).1
    rw [hrun _ hlt, runPhase]
    simp only [assemblePhase]
    rw [if_pos (h.isGm_master hi), hg, ← members_eq h hi A]
    dsimp only
    congr 2
    refine List.map_congr_left fun q hq => ?_
    rw [if_pos]
    rw [h.isGm_master hi, Bool.true_and]
    simpa using hq
  choose! B hB using fun gi (hi : gi < C.ng) => assembleMat_spec hs (asmOK h hP hA hi) (hn gi hi) (mjunk (C.master gi)) (junk (C.master gi))
  have he1 : ∀ gi < C.ng, ∀ d e, (B gi).entry d e = ∑ k ∈ range (C.group gi).length, ∑ j ∈ range (P.ndof (C.rank gi k)), ∑ i ∈ range (P.ndof (C.rank gi k)),
        if ((C.map gi k)[j]?).getD 0 = d ∧ ((C.map gi k)[i]?).getD 0 = e then (A (C.rank gi k)).entry j i else 0 := by
    intro gi hi
    have hk : ∀ k < (C.group gi).length, matAt ((C.group gi).map A) k = A (C.rank gi k) ∧ ((C.maps gi)[k]?).getD [] = C.map gi k ∧ (C.map gi k).length = P.ndof (C.rank gi k) := by
      intro k hk
      refine ⟨?_, rfl, h.size gi hi k _ (h.rank_mem hk).2⟩
      rw [matAt, List.getElem?_map, (h.rank_mem hk).2]
      rfl
    intro d e
    rw [(hB gi hi).2.2.2.2.1, colSum_contribs (asmOK h hP hA hi), h.len gi hi]
    refine sum_congr rfl fun k hk' => ?_
    obtain ⟨a, b, c⟩ := hk k (mem_range.1 hk')
    rw [a, b, c]
  refine ⟨B, fun gi hi => ⟨by rw [hm gi hi]; exact (hB gi hi).1, (hB gi hi).2.1, (hB gi hi).2.2.1, (hB gi hi).2.2.2.1⟩, fun p hp hg => ?_, fun g g' => ?_, fun gi hi r c => ?_, he1⟩
  · rw [hrun _ hp, runPhase]
    simp only [assemblePhase]
    rw [if_neg (by rw [hg]; simp)]
  · rw [gop, gop, h.np, h.sum]
    refine sum_congr rfl fun gi hi => ?_
    rw [mem_range] at hi
    have key : ∀ k < (C.group gi).length, ∀ j ∈ range (P.ndof (C.rank gi k)), ∀ i ∈ range (P.ndof (C.rank gi k)),
        (∑ d ∈ range (Pc.ndof gi), ∑ e ∈ range (Pc.ndof gi), if Pc.glob gi d = g ∧ Pc.glob gi e = g' then
          (if ((C.map gi k)[j]?).getD 0 = d ∧ ((C.map gi k)[i]?).getD 0 = e then (A (C.rank gi k)).entry j i else 0) else 0) =
        if P.glob (C.rank gi k) j = g ∧ P.glob (C.rank gi k) i = g' then (A (C.rank gi k)).entry j i else 0 := by
      intro k hk j hj i hi'
      rw [mem_range] at hj hi'
      obtain ⟨-, b1, c1⟩ := h.mapAt hi hk hj
      obtain ⟨-, b2, c2⟩ := h.mapAt hi hk hi'
      rw [sum_eq_single (((C.map gi k)[j]?).getD 0), sum_eq_single (((C.map gi k)[i]?).getD 0), c1, c2]
      · simp
      · intro e _ he
        simp [Ne.symm he]
      · intro he
        exact absurd (mem_range.2 b2) he
      · intro d _ hd
        refine sum_eq_zero fun e _ => ?_
        simp [Ne.symm hd]
      · intro he
        exact absurd (mem_range.2 b1) he
    have e1 := he1 gi hi
    simp only [e1]
    have e2 : ∀ d e, (if Pc.glob gi d = g ∧ Pc.glob gi e = g' then ∑ k ∈ range (C.group gi).length, ∑ j ∈ range (P.ndof (C.rank gi k)), ∑ i ∈ range (P.ndof (C.rank gi k)),
        if ((C.map gi k)[j]?).getD 0 = d ∧ ((C.map gi k)[i]?).getD 0 = e then (A (C.rank gi k)).entry j i else 0 else 0) =
        ∑ k ∈ range (C.group gi).length, ∑ j ∈ range (P.ndof (C.rank gi k)), ∑ i ∈ range (P.ndof (C.rank gi k)),
          if Pc.glob gi d = g ∧ Pc.glob gi e = g' then (if ((C.map gi k)[j]?).getD 0 = d ∧ ((C.map gi k)[i]?).getD 0 = e then (A (C.rank gi k)).entry j i else 0) else 0 := by
      intro d e
      split
      · rfl
      · simp
    simp only [e2]
    have e3 : ∀ d, ∑ e ∈ range (Pc.ndof gi), ∑ k ∈ range (C.group gi).length, ∑ j ∈ range (P.ndof (C.rank gi k)), ∑ i ∈ range (P.ndof (C.rank gi k)),
          (if Pc.glob gi d = g ∧ Pc.glob gi e = g' then (if ((C.map gi k)[j]?).getD 0 = d ∧ ((C.map gi k)[i]?).getD 0 = e then (A (C.rank gi k)).entry j i else 0) else 0) =
        ∑ k ∈ range (C.group gi).length, ∑ j ∈ range (P.ndof (C.rank gi k)), ∑ i ∈ range (P.ndof (C.rank gi k)), ∑ e ∈ range (Pc.ndof gi),
          (if Pc.glob gi d = g ∧ Pc.glob gi e = g' then (if ((C.map gi k)[j]?).getD 0 = d ∧ ((C.map gi k)[i]?).getD 0 = e then (A (C.rank gi k)).entry j i else 0) else 0) := by
      intro d
      rw [sum_comm]
      refine sum_congr rfl fun k _ => ?_
      rw [sum_comm]
      refine sum_congr rfl fun j _ => ?_
      rw [sum_comm]
    simp only [e3]
    rw [sum_comm]
    refine sum_congr rfl fun k hk' => ?_
    rw [sum_comm]
    refine sum_congr rfl fun j hj => ?_
    rw [sum_comm]
    exact sum_congr rfl fun i hi' => key k (mem_range.1 hk') j hj i hi'
  · rw [(hB gi hi).2.2.2.2.2 r c, contribs, List.map_flatMap, List.mem_flatMap]
    constructor
    · rintro ⟨⟨k, j⟩, hkj, hc⟩
      obtain ⟨map, B', hm, hB', -, -, h3, h4, -⟩ := member (asmOK h hP hA hi) hkj
      dsimp only at hm hB' h3 h4
      obtain ⟨map', hm', hj⟩ := mem_revRow.1 hkj
      rw [hm] at hm'
      cases hm'
      rw [h4] at hc
      obtain ⟨e, he, rfl⟩ := List.mem_map.1 hc
      obtain ⟨f, hf', rfl⟩ := List.mem_map.1 he
      rw [List.getElem?_map, Option.map_eq_some_iff] at hB'
      obtain ⟨p, hp, rfl⟩ := hB'
      have e1 : C.map gi k = map := by rw [Ctr.map, hm]; rfl
      refine ⟨k, p, j, f.1, f.2, hp, e1 ▸ hj, ?_, hf'⟩
      rw [e1, List.getElem?_eq_getElem (h3 f hf')]
      rfl
    · rintro ⟨k, p, j, i, v, hp, hj, hi', hv'⟩
      have hkl : k < (C.maps gi).length := by rw [h.len gi hi]; exact (List.getElem?_eq_some_iff.1 hp).1
      have e1 : (C.maps gi)[k]? = some (C.map gi k) := by rw [Ctr.map, List.getElem?_eq_getElem hkl]; rfl
      refine ⟨(k, j), mem_revRow.2 ⟨_, e1, hj⟩, ?_⟩
      obtain ⟨map, B', hm, hB', -, -, h3, h4, -⟩ := member (asmOK h hP hA hi) (mem_revRow.2 ⟨_, e1, hj⟩)
      dsimp only at hm hB' h3 h4
      rw [e1] at hm
      cases hm
      rw [List.getElem?_map, hp] at hB'
      cases hB'
      rw [h4, mrow_keys]
      refine List.mem_map.2 ⟨(i, v), hv', ?_⟩
      dsimp only
      rw [hi']
      rfl

end NgsAMG.Ctr
