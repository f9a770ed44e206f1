import Verif.Props.CtrMap6
import Mathlib.Tactic.IntervalCases
import Mathlib.Data.Fin.Tuple.Sort

/-! C85-C87: a case that meets the hypotheses: three processes, the first two contracted to one. -/

namespace NgsAMG.Ctr
open NgsAMG.DCC NgsAMG.HybSm NgsAMG.HybMat Finset NgsAMG.Exch Matrix

/-- processes 0 and 1 form a group, process 2 is alone -/
def exCtr : Ctr where
  ng := 2
  group gi := if gi = 0 then [0, 1] else [2]
  maps gi := if gi = 0 then [[0, 1, 3], [1, 2, 3]] else [[0, 1, 2]]

/-- unknowns 0, 1, 2, 7 and 2, 3, 7 after contraction -/
def exPc : PD where
  np := 2
  ndof gi := if gi = 0 then 4 else 3
  glob gi d := if gi = 0 then (if d = 3 then 7 else d) else (if d = 2 then 7 else d + 2)

/-- coarse unknowns 0, 7 and 3, 7 -/
def exPcc : PD where
  np := 2
  ndof _ := 2
  glob gi d := if d = 1 then 7 else 3 * gi

theorem exPc_WF : exPc.WF := by
  constructor
  · decide
  · intro p hp q hq d hd d' hd' e he e' he' h h' hl
    simp only [exPc] at *
    split_ifs at * <;> omega

theorem exPcc_WF : exPcc.WF := by
  constructor
  · decide
  · intro p hp q hq d hd d' hd' e he e' he' h h' hl
    simp only [exPcc] at *
    split_ifs at * <;> omega

theorem exCtr_ok : CtrOK exCtr exPD exPc := by
  have hg : ∀ gi < 2, ∀ (k p : ℕ), (exCtr.group gi)[k]? = some p → (gi = 0 ∧ k = 0 ∧ p = 0) ∨ (gi = 0 ∧ k = 1 ∧ p = 1) ∨ (gi = 1 ∧ k = 0 ∧ p = 2) := by
    intro gi hi k p h
    interval_cases gi <;> rcases k with _ | _ | k <;> simp_all [exCtr]
  refine ⟨rfl, by decide, by decide, by decide, fun gi hi k p h => ?_, fun gi hi k p h j c hc => ?_, fun gi hi c hc => ?_⟩
  · rcases hg gi hi k p h with ⟨rfl, rfl, rfl⟩ | ⟨rfl, rfl, rfl⟩ | ⟨rfl, rfl, rfl⟩ <;> rfl
  · have hj : j < 3 := by
      rcases hg gi hi k p h with ⟨rfl, rfl, rfl⟩ | ⟨rfl, rfl, rfl⟩ | ⟨rfl, rfl, rfl⟩ <;> exact (List.getElem?_eq_some_iff.1 hc).1
    rcases hg gi hi k p h with ⟨rfl, rfl, rfl⟩ | ⟨rfl, rfl, rfl⟩ | ⟨rfl, rfl, rfl⟩ <;> interval_cases j <;> (cases hc; decide)
  · have hi' : gi = 0 ∨ gi = 1 := by have : gi < 2 := hi; omega
    rcases hi' with rfl | rfl
    · have hc' : c < 4 := hc
      interval_cases c
      · exact ⟨0, 0, 0, rfl, rfl⟩
      · exact ⟨0, 0, 1, rfl, rfl⟩
      · exact ⟨1, 1, 1, rfl, rfl⟩
      · exact ⟨0, 0, 2, rfl, rfl⟩
    · have hc' : c < 3 := hc
      interval_cases c
      · exact ⟨0, 2, 0, rfl, rfl⟩
      · exact ⟨0, 2, 1, rfl, rfl⟩
      · exact ⟨0, 2, 2, rfl, rfl⟩

/-- vertices 0, 1 become the coarse vertex 0, vertices 2 and 7 the coarse vertex 7, vertex 3 the coarse vertex 3 -/
noncomputable def exR (gi : ℕ) : CSR (Blk 1) where
  height := exPc.ndof gi
  width := 2
  row r := if gi = 0 then (if r < 2 then [(0, 1)] else if r < 4 then [(1, 1)] else []) else (if r = 1 then [(0, 1)] else if r < 3 then [(1, 1)] else [])

theorem exR_ok : ProlOK exCtr exPc exPcc exR := by
  refine ⟨rfl, fun gi hi => ⟨⟨fun i => ?_, fun i e he => ?_, fun i h => ?_⟩, rfl, rfl⟩, fun gi hi c hc => ?_⟩
  · simp only [exR]
    split_ifs <;> simp
  · simp only [exR] at he ⊢
    split_ifs at he <;> simp_all
  · simp only [exR, exPc] at h ⊢
    split_ifs at h ⊢ <;> first | rfl | omega
  · have hc' : c < 2 := hc
    have hi' : gi < 2 := hi
    interval_cases gi <;> interval_cases c
    · exact ⟨0, 1, by simp [exR]⟩
    · exact ⟨3, 1, by simp [exR]⟩
    · exact ⟨1, 1, by simp [exR]⟩
    · exact ⟨0, 1, by simp [exR]⟩

/-- a sorting permutation exists -/
theorem exists_sortI : ∃ sortI : SortI, SortIOK sortI := by
  have : ∀ n (keys : Fin n → ℕ), ∃ σ : Equiv.Perm (Fin n), ∀ i j, i ≤ j → keys (σ i) ≤ keys (σ j) := fun n keys => ⟨Tuple.sort keys, fun i j h => Tuple.monotone_sort keys h⟩
  choose σ hσ using this
  exact ⟨fun n keys => Permutation.asInts (σ n keys), fun n keys => ⟨σ n keys, rfl, hσ n keys⟩⟩

/-- C85: the transfers run to their end, and carry the vector `g ↦ g` to the masters -/
example : ∃ n s, Reach exPD.np [addF2CPhase (k := 1) exCtr exPD 1 fun p => exCtr.active (exCtr.grpOf p)] (startTransferF2C exPD false fun p d _ => exPD.glob p d) n s ∧
    (∀ p < 3, (s.vec p).ok = true) ∧ Represents exPc true (fun gi => (s.vec (exCtr.master gi)).coarse) fun g _ => (g : ℝ) := by
  obtain ⟨-, n, s, hr, hf⟩ := transfer_progress (k := 1) exCtr_ok _ (Or.inl ⟨1, fun p => exCtr.active (exCtr.grpOf p), rfl⟩) (startTransferF2C exPD false fun p d _ => exPD.glob p d)
  refine ⟨n, s, hr, ?_⟩
  refine transferF2C_correct exPD_WF exCtr_ok (fun gi hi => ?_) false (xh := fun g _ => (g : ℝ)) ?_ hr hf
  · rw [exCtr_ok.grpOf hi (exCtr_ok.master_mem hi).1]
  · intro p hp d hd
    rfl

/-- and back, from vectors in either state -/
example (yDist : Bool) (y : ℕ → BVec 1) (yh : ℕ → Fin 1 → ℝ) (hy : Represents exPc yDist y yh) (fac : ℝ) : ∃ n s,
    Reach exPD.np [c2fPhase exCtr exPD (some fac)] (startAddC2F exCtr exPD exPc false (fun p d _ => (exPD.glob p d : ℝ)) yDist y) n s ∧
    Represents exPD false (fun p => (s.vec p).fine) fun g => (fun _ => (g : ℝ)) + fac • yh g := by
  obtain ⟨-, n, s, hr, hf⟩ := transfer_progress (k := 1) exCtr_ok _ (Or.inr ⟨some fac, rfl⟩) (startAddC2F exCtr exPD exPc false (fun p d _ => (exPD.glob p d : ℝ)) yDist y)
  exact ⟨n, s, hr, (addC2F_correct exCtr_ok fac false yDist (xh := fun g _ => (g : ℝ)) (fun p hp d hd => rfl) hy hr hf).2⟩

/-- the identity on every process -/
def exId (_ : ℕ) : CSR ℕ where
  height := 3
  width := 3
  row r := if r < 3 then [(r, 1)] else []

/-- C86: the contraction of identities -/
example : ∃ (n : ℕ) (s : St (CSR ℕ × Option (CSR ℕ)) (CSR ℕ)) (B : ℕ → CSR ℕ), (∀ gi < 2, (s.vec (exCtr.master gi)).2 = some (B gi) ∧ (B gi).WF) ∧
    (∀ g g', Hybrid.gop exPc B g g' = Hybrid.gop exPD exId g g') ∧ (B 0).entry 1 1 = 2 ∧ n ≤ 2 * 3 := by
  obtain ⟨sortI, hs⟩ := exists_sortI
  have hm := assemble_matched (E := ℕ) exCtr_ok sortI (fun _ _ _ => (0, 0)) (fun _ _ _ => 17)
  obtain ⟨n, s, hr, hf⟩ := exists_final hm fun p => (exId p, none)
  have hA : ∀ p < exPD.np, (exId p).WF ∧ (exId p).height = exPD.ndof p ∧ (exId p).width = exPD.ndof p := by
    intro p _
    refine ⟨⟨fun i => ?_, fun i e he => ?_, fun i h => ?_⟩, rfl, rfl⟩
    · simp only [exId]
      split_ifs <;> simp
    · simp only [exId] at he ⊢
      split_ifs at he <;> simp_all
    · simp only [exId] at h ⊢
      rw [if_neg (by omega)]
  obtain ⟨B, h1, -, h2, -, h4⟩ := assemble_correct exPD_WF exCtr_ok hA (fun gi hi c hc => by
    have : c < 4 := Nat.lt_of_lt_of_le hc (by simp only [exPc]; split_ifs <;> omega)
    have h8 : (8 : ℤ) ≤ MergeArrays.intMax := by decide
    omega) hs _ _ hr hf
  refine ⟨n, s, B, fun gi hi => ⟨(h1 gi hi).1, (h1 gi hi).2.1⟩, h2, ?_, by simpa [exPD] using terminates hm hr⟩
  rw [h4 0 (by decide)]
  decide

/-- C87: the swap runs to its end on all processes -/
example : ∃ n s Q, Reach exPD.np [swapPhase exCtr] (swapStart exCtr exR) n s ∧ (∀ p < 3, (s.vec p).2 = some (Q p)) ∧ SwapRes exCtr exPD exR Q ∧
    CtrOK (exCtr.swapped exR) (midPD exCtr exPD exPcc exR) exPcc ∧ (midPD exCtr exPD exPcc exR).WF := by
  obtain ⟨n, s, hr, hf⟩ := exists_final (swap_matched (E := Blk 1) exCtr_ok) (swapStart exCtr exR)
  obtain ⟨⟨Q, h1, h2⟩, -⟩ := swap_correct exCtr_ok exR_ok hr hf
  exact ⟨n, s, Q, hr, h1, h2, swapped_ok exCtr_ok exR_ok, mid_WF exCtr_ok exR_ok exPcc_WF⟩

/-- **C87**, violated: once `SetUpMPIStuff` has been called (it is called when a matrix is contracted), the swap leaves the old MPI types in place (`setUpMPI`), and the next transfer sends the old
unknowns: process 1 gets three values for its two unknowns. -/
theorem swap_stale (v : ℕ → VS 1) : setUpMPI (setUpMPI none exCtr) (exCtr.swapped exR) = some exCtr ∧
    ∃ n s, Reach 3 [c2fPhaseT exCtr (exCtr.swapped exR) (midPD exCtr exPD exPcc exR) none] v n s ∧ Final 3 [c2fPhaseT exCtr (exCtr.swapped exR) (midPD exCtr exPD exPcc exR) none] s ∧
      (s.vec 1).ok = false := by
  refine ⟨rfl, ?_⟩
  have hok := swapped_ok exCtr_ok exR_ok
  have hm : Matched 3 [c2fPhaseT (k := 1) exCtr (exCtr.swapped exR) (midPD exCtr exPD exPcc exR) none] := by
    intro ph hph p hp
    rw [List.mem_singleton] at hph
    subst hph
    exact c2f_matched (k := 1) hok none _ (List.mem_singleton.2 rfl) p hp
  obtain ⟨n, s, hr, hf⟩ := exists_final hm v
  refine ⟨n, s, hr, hf, ?_⟩
  obtain ⟨hv, -⟩ := final_state hm hr hf
  have hd : (exCtr.swapped exR).map 0 1 = [0, 1] := by
    rw [swapped_map]
    show newDmap (exR 0) [1, 2, 3] = [0, 1]
    simp [newDmap, exR, List.range_succ]
  have hn : (midPD exCtr exPD exPcc exR).ndof 1 = 2 := by
    have := (mid_ndof (Pcc := exPcc) exCtr_ok exR (gi := 0) (kp := 1) (by decide) (by decide)).1
    rw [swapped_map] at hd
    rw [hd] at this
    exact this
  have hgrp : (exCtr.swapped exR).grpOf 1 = 0 := by show exCtr.grpOf 1 = 0; decide
  have hgm : (exCtr.swapped exR).isGm 1 = false := by show exCtr.isGm 1 = false; decide
  have hma : (exCtr.swapped exR).master 0 = 0 := rfl
  have hgr0 : (exCtr.swapped exR).grpOf 0 = 0 := by show exCtr.grpOf 0 = 0; decide
  have hh : (exCtr.swapped exR).hands (midPD exCtr exPD exPcc exR) 1 = true := by
    rw [Ctr.hands, hgm, hn]
    rfl
  have hact : (exCtr.swapped exR).active 0 = [1] := by
    show (List.range' 1 1).filter _ = [1]
    simp [hd]
  have hmsg : (c2fPhaseT (k := 1) exCtr (exCtr.swapped exR) (midPD exCtr exPD exPcc exR) none).msg 0 (v 0) 1 = [(v 0).coarse 1, (v 0).coarse 2, (v 0).coarse 3] := by
    simp only [c2fPhaseT]
    rw [hgr0, hact]
    rfl
  rw [hv 1 (by decide)]
  show (((c2fPhaseT (k := 1) exCtr (exCtr.swapped exR) (midPD exCtr exPD exPcc exR) none).apply 1 (v 1) fun q =>
    if (c2fPhaseT (k := 1) exCtr (exCtr.swapped exR) (midPD exCtr exPD exPcc exR) none).recvs 1 q = true then
      (c2fPhaseT (k := 1) exCtr (exCtr.swapped exR) (midPD exCtr exPD exPcc exR) none).msg q (v q) 1 else default)).ok = false
  have hrec : (c2fPhaseT (k := 1) exCtr (exCtr.swapped exR) (midPD exCtr exPD exPcc exR) none).recvs 1 0 = true := by
    simp only [c2fPhaseT]
    rw [hh, hgrp, hma]
    rfl
  have happ : ∀ recv : ℕ → List (Fin 1 → ℝ), ((c2fPhaseT (k := 1) exCtr (exCtr.swapped exR) (midPD exCtr exPD exPcc exR) none).apply 1 (v 1) recv).ok =
      ((v 1).ok && (recv 0).length == 2) := by
    intro recv
    simp only [c2fPhaseT]
    rw [if_neg (by rw [hgm]; simp), if_pos hh]
    dsimp only
    rw [hgrp, hma, hn]
  rw [happ, if_pos hrec, hmsg]
  simp

end NgsAMG.Ctr
