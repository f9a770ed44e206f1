import Verif.Props.CtrMap3

/-! C85: transfer of vectors between all processes and the masters of the groups. -/

namespace NgsAMG.Ctr
open NgsAMG.DCC NgsAMG.HybSm NgsAMG.HybMat Finset NgsAMG.Exch

variable {C : Ctr} {P Pc : PD} {k : ℕ}

theorem addMapped_apply (fac : ℝ) (map : List ℕ) (buf : ℕ → Fin k → ℝ) (c : BVec k) (x : ℕ) :
    addMapped fac map buf c x = c x + ∑ j ∈ range map.length, if ((map[j]?).getD 0) = x then fac • buf j else 0 := by
  have h1 : ∀ (l : List (ℕ × ℕ)) (c : BVec k), l.foldl (fun c e => Function.update c e.1 (c e.1 + fac • buf e.2)) c x = c x + (l.map fun e => if e.1 = x then fac • buf e.2 else 0).sum := by
    intro l
    induction l with
    | nil => intro c; simp
    | cons e l ih =>
      intro c
      rw [List.foldl_cons, ih, Function.update_apply, List.map_cons, List.sum_cons]
      by_cases h : x = e.1
      · rw [if_pos h, if_pos h.symm, h, add_assoc]
      · rw [if_neg h, if_neg (Ne.symm h), zero_add]
  rw [addMapped, h1, zipIdx_sum map 0]

theorem foldMapped_apply (fac : ℝ) (map : ℕ → List ℕ) (buf : ℕ → ℕ → Fin k → ℝ) (x : ℕ) : ∀ (l : List ℕ) (c : BVec k),
    l.foldl (fun c kp => addMapped fac (map kp) (buf kp) c) c x = c x + (l.map fun kp => ∑ j ∈ range (map kp).length, if (((map kp)[j]?).getD 0) = x then fac • buf kp j else 0).sum
  | [], c => by simp
  | kp :: l, c => by
    rw [List.foldl_cons, foldMapped_apply fac map buf x l, addMapped_apply, List.map_cons, List.sum_cons, add_assoc]

theorem f2c_matched (h : CtrOK C P Pc) (fac : ℝ) (arr : ℕ → List ℕ) : Matched P.np [addF2CPhase (k := k) C P fac arr] := by
  intro ph hph p hp
  rw [List.mem_singleton] at hph
  subst hph
  refine ⟨fun q hq => h.serves_iff hp hq, fun q hs => ?_, fun q hs => serves_lt h hp hs⟩
  simp only [addF2CPhase, Bool.and_eq_true, beq_iff_eq] at hs
  rw [← hs.2]
  exact master_lt h hp

theorem c2f_matched (h : CtrOK C P Pc) (add : Option ℝ) : Matched P.np [c2fPhase (k := k) C P add] := by
  intro ph hph p hp
  rw [List.mem_singleton] at hph
  subst hph
  refine ⟨fun q hq => (h.serves_iff hq hp).symm, fun q hs => serves_lt h hp hs, fun q hs => ?_⟩
  simp only [c2fPhase, c2fPhaseT, Bool.and_eq_true, beq_iff_eq] at hs
  rw [← hs.2]
  exact master_lt h hp

theorem mem_active {gi kp : ℕ} : kp ∈ C.active gi ↔ (1 ≤ kp ∧ kp < (C.group gi).length) ∧ 0 < (C.map gi kp).length := by
  simp only [Ctr.active, List.mem_filter, List.mem_range'_1, decide_eq_true_eq]
  constructor <;> rintro ⟨⟨h1, h2⟩, h3⟩ <;> refine ⟨⟨h1, ?_⟩, h3⟩ <;> omega

/-- sum over the members from whom a message is received -/
theorem active_sum {M : Type} [AddCommMonoid M] {gi : ℕ} (hne : C.group gi ≠ []) (f : ℕ → M) (hf : ∀ kp, (C.map gi kp).length = 0 → f kp = 0) {arr : List ℕ} (ha : arr.Perm (C.active gi)) :
    f 0 + (arr.map f).sum = ∑ kp ∈ range (C.group gi).length, f kp := by
  rw [(ha.map f).sum_eq]
  have h1 : ((C.active gi).map f).sum = ((List.range' 1 ((C.group gi).length - 1)).map f).sum := by
    rw [Ctr.active]
    generalize List.range' 1 ((C.group gi).length - 1) = l
    induction l with
    | nil => rfl
    | cons a l ih =>
      rw [List.filter_cons]
      split
      · rw [List.map_cons, List.map_cons, List.sum_cons, List.sum_cons, ih]
      · rename_i h
        rw [ih, List.map_cons, List.sum_cons, hf a (by simpa using h), zero_add]
  have h2 : List.range (C.group gi).length = 0 :: List.range' 1 ((C.group gi).length - 1) := by
    have hl := List.length_pos_iff.2 hne
    conv_lhs => rw [show (C.group gi).length = ((C.group gi).length - 1) + 1 by omega]
    rw [List.range_eq_range', List.range'_succ]
  rw [h1, ← MapData.list_range_sum, h2, List.map_cons, List.sum_cons]

/-- `F2C` on all processes: the contracted vectors get the sums of the values of all copies, for every order in which the messages are reported -/
theorem f2c_spec (h : CtrOK C P Pc) (fac : ℝ) {arr : ℕ → List ℕ} (ha : ∀ gi < C.ng, (arr (C.master gi)).Perm (C.active gi)) {v : ℕ → VS k} {n : ℕ} {s : St (VS k) (List (Fin k → ℝ))}
    (hr : Reach P.np [addF2CPhase C P fac arr] v n s) (hf : Final P.np [addF2CPhase C P fac arr] s) :
    (∀ p < P.np, (s.vec p).ok = (v p).ok ∧ (s.vec p).fine = (v p).fine) ∧
    ∀ gi < C.ng, ∀ x, (s.vec (C.master gi)).coarse x = (v (C.master gi)).coarse x +
      ∑ kp ∈ range (C.group gi).length, ∑ j ∈ range (C.map gi kp).length, if (((C.map gi kp)[j]?).getD 0) = x then fac • (v (C.rank gi kp)).fine j else 0 := by
  obtain ⟨hv, -⟩ := final_state (f2c_matched h fac arr) hr hf
  have hrun : ∀ p < P.np, s.vec p = runPhase (addF2CPhase C P fac arr) v p := fun p hp => hv p hp
  -- the message of a member
  have hmsg : ∀ gi < C.ng, ∀ kp ∈ arr (C.master gi), (if C.serves (C.master gi) (C.rank gi kp) = true then (List.range (P.ndof (C.rank gi kp))).map (v (C.rank gi kp)).fine else default) =
      (List.range (C.map gi kp).length).map (v (C.rank gi kp)).fine := by
    intro gi hi kp hkp
    have hk := mem_active.1 ((ha gi hi).mem_iff.1 hkp)
    rw [if_pos, h.size gi hi kp _ (h.rank_mem hk.1.2).2]
    rw [Ctr.serves, h.isGm_master hi, Bool.true_and, h.grpOf hi (h.master_mem hi).1, List.any_eq_true]
    exact ⟨kp, mem_active.2 hk, by simp⟩
  constructor
  · intro p hp
    rw [hrun p hp, runPhase]
    simp only [addF2CPhase]
    by_cases hg : C.isGm p = true
    · rw [if_pos hg]
      have hgi := (h.group_lt hp).1
      have hpm := (h.isGm_iff hp).1 hg
      refine ⟨?_, rfl⟩
      show ((v p).ok && _) = _
      rw [List.all_eq_true.2, Bool.and_true]
      intro kp hkp
      have hkp' : kp ∈ arr (C.master (C.grpOf p)) := hpm ▸ hkp
      have := hmsg (C.grpOf p) hgi kp hkp'
      rw [← hpm] at this
      rw [this]
      simp
    · rw [if_neg hg]
      exact ⟨rfl, rfl⟩
  · intro gi hi x
    have hlt : C.master gi < P.np := h.mem.2 ⟨gi, hi, (h.master_mem hi).1⟩
    rw [hrun _ hlt, runPhase]
    simp only [addF2CPhase]
    rw [if_pos (h.isGm_master hi), h.grpOf hi (h.master_mem hi).1]
    dsimp only
    rw [foldMapped_apply fac (C.map gi) (fun kp j => (if C.serves (C.master gi) (C.rank gi kp) = true then (List.range (P.ndof (C.rank gi kp))).map (v (C.rank gi kp)).fine else default).getD j 0) x,
      addMapped_apply, add_assoc]
    congr 1
    have e : ((arr (C.master gi)).map fun kp => ∑ j ∈ range (C.map gi kp).length, if (((C.map gi kp)[j]?).getD 0) = x then
        fac • (if C.serves (C.master gi) (C.rank gi kp) = true then (List.range (P.ndof (C.rank gi kp))).map (v (C.rank gi kp)).fine else default).getD j 0 else 0) =
      (arr (C.master gi)).map fun kp => ∑ j ∈ range (C.map gi kp).length, if (((C.map gi kp)[j]?).getD 0) = x then fac • (v (C.rank gi kp)).fine j else 0 := by
      refine List.map_congr_left fun kp hkp => ?_
      rw [hmsg gi hi kp hkp]
      refine sum_congr rfl fun j hj => ?_
      rw [mem_range] at hj
      congr 2
      rw [List.getD_eq_getElem?_getD, List.getElem?_map, List.getElem?_range hj]
      rfl
    rw [e]
    exact active_sum (h.ne gi hi) (fun kp => ∑ j ∈ range (C.map gi kp).length, if (((C.map gi kp)[j]?).getD 0) = x then fac • (v (C.rank gi kp)).fine j else 0)
      (fun kp h0 => by rw [h0]; simp) (ha gi hi)

theorem gsum_f2c (h : CtrOK C P Pc) (fac : ℝ) {z y x : ℕ → BVec k} (hz : ∀ gi < C.ng, ∀ c, z gi c = y gi c +
      ∑ kp ∈ range (C.group gi).length, ∑ j ∈ range (C.map gi kp).length, if (((C.map gi kp)[j]?).getD 0) = c then fac • x (C.rank gi kp) j else 0) (g : ℕ) :
    gsum Pc z g = gsum Pc y g + fac • gsum P x g := by
  rw [gsum, gsum, gsum, h.np, h.sum, smul_sum, ← sum_add_distrib]
  refine sum_congr rfl fun gi hi => ?_
  rw [mem_range] at hi
  have e1 : ∀ c, (if Pc.glob gi c = g then z gi c else 0) = (if Pc.glob gi c = g then y gi c else 0) +
      ∑ kp ∈ range (C.group gi).length, ∑ j ∈ range (C.map gi kp).length, if Pc.glob gi c = g then (if (((C.map gi kp)[j]?).getD 0) = c then fac • x (C.rank gi kp) j else 0) else 0 := by
    intro c
    split
    · rw [hz gi hi c]
    · simp
  simp only [e1]
  rw [sum_add_distrib]
  congr 1
  rw [sum_comm, smul_sum]
  refine sum_congr rfl fun kp hkp => ?_
  rw [mem_range] at hkp
  rw [sum_comm, smul_sum, h.size gi hi kp _ (h.rank_mem hkp).2]
  refine sum_congr rfl fun j hj => ?_
  rw [mem_range] at hj
  obtain ⟨-, b1, c1⟩ := h.mapAt hi hkp hj
  rw [sum_eq_single (((C.map gi kp)[j]?).getD 0), c1]
  · simp
  · intro c _ hc
    simp [Ne.symm hc]
  · intro hn
    exact absurd (mem_range.2 b1) hn

/-- **C85** (`AddF2C`): for every order in which the messages arrive, `fac` times the vector of all processes is added to the vector of the masters. -/
theorem addF2C_correct (hP : P.WF) (hPc : Pc.WF) (h : CtrOK C P Pc) (fac : ℝ) {arr : ℕ → List ℕ} (ha : ∀ gi < C.ng, (arr (C.master gi)).Perm (C.active gi))
    (xDist yDist : Bool) {x y : ℕ → BVec k} {xh yh : ℕ → Fin k → ℝ} (hx : Represents P xDist x xh) (hy : Represents Pc yDist y yh) {n : ℕ} {s : St (VS k) (List (Fin k → ℝ))}
    (hr : Reach P.np [addF2CPhase C P fac arr] (startF2C C P Pc xDist x yDist y) n s) (hf : Final P.np [addF2CPhase C P fac arr] s) :
    (∀ p < P.np, (s.vec p).ok = true) ∧ Represents Pc true (fun gi => (s.vec (C.master gi)).coarse) fun g => yh g + fac • xh g := by
  obtain ⟨h1, h2⟩ := f2c_spec h fac ha hr hf
  refine ⟨fun p hp => (h1 p hp).1, ?_⟩
  have hz : ∀ gi < C.ng, ∀ c, (s.vec (C.master gi)).coarse c = distributeIf Pc yDist y gi c +
      ∑ kp ∈ range (C.group gi).length, ∑ j ∈ range (C.map gi kp).length, if (((C.map gi kp)[j]?).getD 0) = c then fac • distributeIf P xDist x (C.rank gi kp) j else 0 := by
    intro gi hi c
    rw [h2 gi hi c, startF2C]
    dsimp only
    rw [h.grpOf hi (h.master_mem hi).1]
    rfl
  have hx' := distributeIf_represents hP hx
  have hy' := distributeIf_represents hPc hy
  rw [Represents, if_pos rfl] at hx' hy' ⊢
  intro g hg
  rw [gsum_f2c h fac hz, hy' g hg, hx' g (allDofs_eq h ▸ hg)]

/-- **C85** (`TransferF2C`): the masters get the same global vector; what the vector held before does not matter. -/
theorem transferF2C_correct (hP : P.WF) (h : CtrOK C P Pc) {arr : ℕ → List ℕ} (ha : ∀ gi < C.ng, (arr (C.master gi)).Perm (C.active gi))
    (xDist : Bool) {x : ℕ → BVec k} {xh : ℕ → Fin k → ℝ} (hx : Represents P xDist x xh) {n : ℕ} {s : St (VS k) (List (Fin k → ℝ))}
    (hr : Reach P.np [addF2CPhase C P 1 arr] (startTransferF2C P xDist x) n s) (hf : Final P.np [addF2CPhase C P 1 arr] s) :
    (∀ p < P.np, (s.vec p).ok = true) ∧ Represents Pc true (fun gi => (s.vec (C.master gi)).coarse) xh := by
  obtain ⟨h1, h2⟩ := f2c_spec h 1 ha hr hf
  refine ⟨fun p hp => (h1 p hp).1, ?_⟩
  have hz : ∀ gi < C.ng, ∀ c, (s.vec (C.master gi)).coarse c = (0 : BVec k) c +
      ∑ kp ∈ range (C.group gi).length, ∑ j ∈ range (C.map gi kp).length, if (((C.map gi kp)[j]?).getD 0) = c then (1 : ℝ) • distributeIf P xDist x (C.rank gi kp) j else 0 :=
    fun gi hi c => h2 gi hi c
  have hx' := distributeIf_represents hP hx
  rw [Represents, if_pos rfl] at hx' ⊢
  intro g hg
  rw [gsum_f2c h 1 (y := fun _ => 0) hz, hx' g (allDofs_eq h ▸ hg), one_smul, show gsum Pc (fun _ => (0 : BVec k)) g = 0 by simp [gsum], zero_add]

/-! ### from the masters -/

/-- `C2F` on all processes -/
theorem c2f_spec (h : CtrOK C P Pc) (add : Option ℝ) {v : ℕ → VS k} {n : ℕ} {s : St (VS k) (List (Fin k → ℝ))}
    (hr : Reach P.np [c2fPhase C P add] v n s) (hf : Final P.np [c2fPhase C P add] s) :
    ∀ gi < C.ng, ∀ kp < (C.group gi).length, (s.vec (C.rank gi kp)).ok = (v (C.rank gi kp)).ok ∧ ∀ j < P.ndof (C.rank gi kp), (s.vec (C.rank gi kp)).fine j =
      match add with
      | none => (v (C.master gi)).coarse (((C.map gi kp)[j]?).getD 0)
      | some fac => (v (C.rank gi kp)).fine j + fac • (v (C.master gi)).coarse (((C.map gi kp)[j]?).getD 0) := by
  obtain ⟨hv, -⟩ := final_state (c2f_matched h add) hr hf
  intro gi hi kp hkp
  have hlt := h.rank_lt hi hkp
  have hgrp := h.rank_grp hi hkp
  rw [hv _ hlt, show run [c2fPhase C P add] v = runPhase (c2fPhase C P add) v from rfl, runPhase]
  simp only [c2fPhase, c2fPhaseT]
  rw [hgrp]
  by_cases h0 : kp = 0
  · subst h0
    rw [if_pos (by rw [h.isGm_rank hi hkp]; rfl)]
    refine ⟨rfl, fun j hj => ?_⟩
    obtain ⟨e, -⟩ := h.mapAt hi hkp hj
    dsimp only
    rw [show ((C.map gi 0)[j]?).map (v (C.rank gi 0)).coarse = some ((v (C.rank gi 0)).coarse (((C.map gi 0)[j]?).getD 0)) by rw [e]; rfl]
    cases add <;> rfl
  · have hgm : C.isGm (C.rank gi kp) = false := by rw [h.isGm_rank hi hkp]; simp [h0]
    rw [if_neg (by rw [hgm]; simp)]
    have hsz := h.size gi hi kp _ (h.rank_mem hkp).2
    by_cases hh : 0 < P.ndof (C.rank gi kp)
    · have hhands : C.hands P (C.rank gi kp) = true := by rw [Ctr.hands, hgm]; simpa using hh
      rw [if_pos hhands]
      have hact : kp ∈ C.active gi := mem_active.2 ⟨⟨by omega, hkp⟩, by omega⟩
      have hfind : (C.active gi).find? (fun l => C.rank gi l == C.rank gi kp) = some kp := by
        have hs : ((C.active gi).find? fun l => C.rank gi l == C.rank gi kp).isSome := by
          rw [List.find?_isSome]
          exact ⟨kp, hact, by simp⟩
        obtain ⟨l, hl⟩ := Option.isSome_iff_exists.1 hs
        rw [hl]
        have h1 := List.find?_some hl
        have h2 := mem_active.1 (List.mem_of_find?_eq_some hl)
        rw [beq_iff_eq] at h1
        rw [h.rank_inj hi h2.1.2 hkp h1]
      have hmsg : (if (C.hands P (C.rank gi kp) && C.master gi == C.master gi) = true then
          ((C.active (C.grpOf (C.master gi))).find? fun l => C.rank (C.grpOf (C.master gi)) l == C.rank gi kp).elim [] fun l => (C.map (C.grpOf (C.master gi)) l).map (v (C.master gi)).coarse else default) =
          (C.map gi kp).map (v (C.master gi)).coarse := by
        rw [if_pos (by rw [hhands]; simp), h.grpOf hi (h.master_mem hi).1, hfind]
        rfl
      rw [hmsg]
      refine ⟨?_, fun j hj => ?_⟩
      · show ((v _).ok && _) = _
        rw [List.length_map, hsz]
        simp
      · obtain ⟨e, -⟩ := h.mapAt hi hkp hj
        dsimp only
        rw [show ((C.map gi kp).map (v (C.master gi)).coarse)[j]? = some ((v (C.master gi)).coarse (((C.map gi kp)[j]?).getD 0)) by rw [List.getElem?_map, e]; rfl]
        cases add <;> rfl
    · rw [if_neg (by rw [Ctr.hands, hgm]; simpa using hh)]
      exact ⟨rfl, fun j hj => absurd (Nat.lt_of_le_of_lt (Nat.zero_le _) hj) hh⟩

theorem coarse_at (h : CtrOK C P Pc) {y : ℕ → BVec k} {yh : ℕ → Fin k → ℝ} (hy : Consistent Pc y yh) {gi kp j : ℕ} (hi : gi < C.ng) (hkp : kp < (C.group gi).length)
    (hj : j < P.ndof (C.rank gi kp)) : y gi (((C.map gi kp)[j]?).getD 0) = yh (P.glob (C.rank gi kp) j) := by
  obtain ⟨-, b1, c1⟩ := h.mapAt hi hkp hj
  rw [hy gi (h.np.symm ▸ hi) _ b1, c1]

/-- **C85** (`TransferC2F`): all processes get the values of the global vector of the masters. -/
theorem transferC2F_correct (h : CtrOK C P Pc) (yDist : Bool) {x y : ℕ → BVec k} {yh : ℕ → Fin k → ℝ} (hy : Represents Pc yDist y yh) {n : ℕ} {s : St (VS k) (List (Fin k → ℝ))}
    (hr : Reach P.np [c2fPhase C P none] (startTransferC2F C Pc x yDist y) n s) (hf : Final P.np [c2fPhase C P none] s) :
    (∀ p < P.np, (s.vec p).ok = true) ∧ Represents P false (fun p => (s.vec p).fine) yh := by
  have hs := c2f_spec h none hr hf
  constructor
  · intro p hp
    obtain ⟨gi, hi, kp, hkp, -, rfl⟩ := h.index hp
    exact (hs gi hi kp hkp).1
  · show Consistent P _ yh
    intro p hp d hd
    obtain ⟨gi, hi, kp, hkp, -, rfl⟩ := h.index hp
    dsimp only
    rw [(hs gi hi kp hkp).2 d hd]
    show cumulate Pc yDist y (C.grpOf (C.master gi)) _ = _
    rw [h.grpOf hi (h.master_mem hi).1]
    exact coarse_at h (cumulate_consistent hy) hi hkp hd

/-- **C85** (`AddC2F`): `fac` times the vector of the masters is added. -/
theorem addC2F_correct (h : CtrOK C P Pc) (fac : ℝ) (xDist yDist : Bool) {x y : ℕ → BVec k} {xh yh : ℕ → Fin k → ℝ} (hx : Represents P xDist x xh) (hy : Represents Pc yDist y yh) {n : ℕ}
    {s : St (VS k) (List (Fin k → ℝ))} (hr : Reach P.np [c2fPhase C P (some fac)] (startAddC2F C P Pc xDist x yDist y) n s) (hf : Final P.np [c2fPhase C P (some fac)] s) :
    (∀ p < P.np, (s.vec p).ok = true) ∧ Represents P false (fun p => (s.vec p).fine) fun g => xh g + fac • yh g := by
  have hs := c2f_spec h (some fac) hr hf
  constructor
  · intro p hp
    obtain ⟨gi, hi, kp, hkp, -, rfl⟩ := h.index hp
    exact (hs gi hi kp hkp).1
  · show Consistent P _ (fun g => xh g + fac • yh g)
    intro p hp d hd
    obtain ⟨gi, hi, kp, hkp, -, rfl⟩ := h.index hp
    dsimp only
    rw [(hs gi hi kp hkp).2 d hd]
    show cumulate P xDist x _ d + fac • cumulate Pc yDist y (C.grpOf (C.master gi)) _ = _
    rw [h.grpOf hi (h.master_mem hi).1, coarse_at h (cumulate_consistent hy) hi hkp hd, cumulate_consistent hx _ hp d hd]

/-- **C85**: the transfers do not deadlock, and end after at most `2 np` steps. -/
theorem transfer_progress (h : CtrOK C P Pc) (ph : Phase (VS k) (List (Fin k → ℝ))) (hph : (∃ fac arr, ph = addF2CPhase C P fac arr) ∨ ∃ add, ph = c2fPhase C P add) (v : ℕ → VS k) :
    (∀ n s, Reach P.np [ph] v n s → n ≤ 2 * P.np ∧ (¬ Final P.np [ph] s → ∃ t, Step P.np [ph] s t)) ∧ ∃ n s, Reach P.np [ph] v n s ∧ Final P.np [ph] s := by
  have hm : Matched P.np [ph] := by
    rcases hph with ⟨fac, arr, rfl⟩ | ⟨add, rfl⟩
    · exact f2c_matched h fac arr
    · exact c2f_matched h add
  refine ⟨fun n s hr => ⟨?_, no_deadlock hm hr⟩, exists_final hm v⟩
  have := terminates hm hr
  simpa using this

end NgsAMG.Ctr
