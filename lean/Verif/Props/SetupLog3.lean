import Verif.Props.SetupLog2

/-! `Finalize`. -/

namespace NgsAMG.SLog

open Relation (ReflTransGen)

variable {α β : Type} {J : ℕ → List ℕ → ℕ → ℕ}

theorem idx_range {n p : ℕ} (h : p < n) : (List.range n).idxOf p = p := by
  have := (List.nodup_range (n := n)).idxOf_getElem p (by simpa using h)
  simpa using this

theorem alam_steps (n : ℕ) (hn : 0 < n) (v : ℕ → ℚ) (arr : ℕ → List ℚ) (K : ℕ → ℕ × ℚ × List ℚ → Prog α) (h : ℕ → Prog α) :
    ReflTransGen (Step J) (fun p => if p ∈ List.range n then (alam (List.range n) p (v p) (arr p)).bind (K p) else h p)
      fun p => if p ∈ List.range n then K p (0, v p, arr p) else h p := by
  by_cases h1 : 1 < n
  · have hne : List.range n ≠ [] := by simp; omega
    have e : (fun p => if p ∈ List.range n then (alam (List.range n) p (v p) (arr p)).bind (K p) else h p) = fun p => if p ∈ List.range n then
        .amin (List.range n) ((List.range n).idxOf p) (fun rk => (if (List.range n).idxOf p = 0 ∧ rk ≠ 0 then
          Prog.recv ((List.range n).getD rk 0) (fun a => .ret (rk, v p, a))
          else if (List.range n).idxOf p = rk ∧ rk ≠ 0 then .send ((List.range n).getD 0 0) (arr p) (.ret (rk, v p, arr p))
          else .ret (rk, v p, arr p)).bind (K p)) else h p := by
      funext p
      simp only [alam, List.length_range, if_pos h1]
      rfl
    rw [e]
    have hm : lmin ((List.range n).map fun p => (List.range n).idxOf p) = 0 := by
      refine Nat.le_zero.1 (lmin_le _ 0 (List.mem_map.2 ⟨0, by simpa using hn, idx_range hn⟩))
    have s := step_amin (J := J) (List.range n) (fun p => (List.range n).idxOf p) (fun p rk => (if (List.range n).idxOf p = 0 ∧ rk ≠ 0 then
          Prog.recv ((List.range n).getD rk 0) (fun a => .ret (rk, v p, a))
          else if (List.range n).idxOf p = rk ∧ rk ≠ 0 then .send ((List.range n).getD 0 0) (arr p) (.ret (rk, v p, arr p))
          else .ret (rk, v p, arr p)).bind (K p)) h hne
    rw [hm] at s
    simp only [ne_eq, not_true_eq_false, and_false, if_false] at s
    exact ReflTransGen.single s
  · have e : (fun p => if p ∈ List.range n then (alam (List.range n) p (v p) (arr p)).bind (K p) else h p) =
        fun p => if p ∈ List.range n then K p (0, v p, arr p) else h p := by
      funext p
      simp only [alam, List.length_range, if_neg h1]
      rfl
    rw [e]

/-- the log after the first part of `Finalize` -/
def globalDone (p : ℕ) (g : Log) : Log :=
  if p = 0 then { g with
    vcc := scaled g.vcc (g.vcc.headD 0)
    vComp := (scaled g.vcc (g.vcc.headD 0)).sum
    occ := scaled g.occ (g.occ.headD 0)
    opComp := (scaled g.occ (g.occ.headD 0)).sum }
  else { g with
    vComp := 0
    opComp := 0 }

/-- the log after the second part of `Finalize` -/
def locDone (g : Log) : Log :=
  { g with
    vccl := scaled g.vccl (max (g.vccl.headD 0) 1)
    vCompL := (scaled g.vccl (max (g.vccl.headD 0) 1)).sum
    vccRank := 0
    occl := scaled g.occl (max (g.occl.headD 0) 1)
    opCompL := (scaled g.occl (max (g.occl.headD 0) 1)).sum
    occRank := 0 }

/-- the log after `Finalize` -/
def finDone (p : ℕ) (lev : LogLev) (g : Log) : Log :=
  if lev = .none then g else if lev.small then globalDone p g else locDone (globalDone p g)

theorem global_eq {n p : ℕ} (hp : p < n) (g : Log) (h : p = 0 → g.vcc ≠ [] ∧ g.occ ≠ []) :
    global (List.range n) p { g with vComp := 0, opComp := 0 } = some (globalDone p g) := by
  unfold global globalDone
  rw [idx_range hp]
  by_cases h0 : p = 0
  · obtain ⟨h1, h2⟩ := h h0
    obtain ⟨v0, vs, e1⟩ := List.exists_cons_of_ne_nil h1
    obtain ⟨o0, os, e2⟩ := List.exists_cons_of_ne_nil h2
    simp [h0, e1, e2]
  · simp [h0]

theorem loc_steps (n : ℕ) (hn : 0 < n) (g : ℕ → Log) (hg : ∀ p < n, (g p).vccl ≠ [] ∧ (g p).occl ≠ []) (K : ℕ → Option Log → Prog α) (h : ℕ → Prog α) :
    ReflTransGen (Step J) (fun p => if p ∈ List.range n then (loc (List.range n) p (g p)).bind (K p) else h p)
      fun p => if p ∈ List.range n then K p (some (locDone (g p))) else h p := by
  have e : (fun p => if p ∈ List.range n then (loc (List.range n) p (g p)).bind (K p) else h p) = fun p => if p ∈ List.range n then
      (alam (List.range n) p (scaled (g p).vccl (max ((g p).vccl.headD 0) 1)).sum (scaled (g p).vccl (max ((g p).vccl.headD 0) 1))).bind (fun v =>
        (alam (List.range n) p (scaled (g p).occl (max ((g p).occl.headD 0) 1)).sum (scaled (g p).occl (max ((g p).occl.headD 0) 1))).bind fun o =>
          K p (some { g p with
            vccl := v.2.2
            vCompL := v.2.1
            vccRank := v.1
            occl := o.2.2
            opCompL := o.2.1
            occRank := o.1 })) else h p := by
    funext p
    by_cases m : p ∈ List.range n
    · obtain ⟨h1, h2⟩ := hg p (List.mem_range.1 m)
      obtain ⟨v0, vs, e1⟩ := List.exists_cons_of_ne_nil h1
      obtain ⟨o0, os, e2⟩ := List.exists_cons_of_ne_nil h2
      simp only [if_pos m, loc, e1, e2, bind_assoc, List.headD_cons]
      rfl
    · simp only [if_neg m]
  rw [e]
  refine (alam_steps n hn _ _ _ _).trans ?_
  exact alam_steps n hn _ _ _ _

theorem finalize_steps (n : ℕ) (hn : 0 < n) (lev : LogLev) (g : ℕ → Log) (hv : lev ≠ .none → (g 0).vcc ≠ [] ∧ (g 0).occ ≠ [])
    (hg : lev.small = false → ∀ p < n, (g p).vccl ≠ [] ∧ (g p).occl ≠ []) (K : ℕ → Option Log → Prog α) (h : ℕ → Prog α) :
    ReflTransGen (Step J) (fun p => if p ∈ List.range n then (finalize (List.range n) p lev (g p)).bind (K p) else h p)
      fun p => if p ∈ List.range n then K p (some (finDone p lev (g p))) else h p := by
  by_cases hl : lev = .none
  · have e : (fun p => if p ∈ List.range n then (finalize (List.range n) p lev (g p)).bind (K p) else h p) =
        fun p => if p ∈ List.range n then K p (some (finDone p lev (g p))) else h p := by
      funext p
      simp only [finalize, finDone, if_pos hl]
      rfl
    rw [e]
  · have hgl : ∀ p ∈ List.range n, global (List.range n) p { g p with vComp := 0, opComp := 0 } = some (globalDone p (g p)) := fun p hp =>
      global_eq (List.mem_range.1 hp) (g p) (by rintro rfl; exact hv hl)
    by_cases hs : lev.small = true
    · have e : (fun p => if p ∈ List.range n then (finalize (List.range n) p lev (g p)).bind (K p) else h p) =
          fun p => if p ∈ List.range n then K p (some (finDone p lev (g p))) else h p := by
        funext p
        by_cases m : p ∈ List.range n
        · simp only [if_pos m, finalize, finDone, if_neg hl, hgl p m, hs, if_true]
          rfl
        · simp only [if_neg m]
      rw [e]
    · have e : (fun p => if p ∈ List.range n then (finalize (List.range n) p lev (g p)).bind (K p) else h p) =
          fun p => if p ∈ List.range n then (loc (List.range n) p (globalDone p (g p))).bind (K p) else h p := by
        funext p
        by_cases m : p ∈ List.range n
        · simp only [if_pos m, finalize, if_neg hl, hgl p m, if_neg hs]
        · simp only [if_neg m]
      rw [e]
      have hk : ∀ p < n, (globalDone p (g p)).vccl ≠ [] ∧ (globalDone p (g p)).occl ≠ [] := fun p hp => by
        have := hg (by simpa using hs) p hp
        unfold globalDone
        split <;> exact this
      refine (loc_steps n hn _ hk K h).trans ?_
      refine Eq.subst (motive := fun x => ReflTransGen (Step J) _ x) ?_ ReflTransGen.refl
      funext p
      simp only [finDone, if_neg hl, if_neg hs]

/-! ### the arrays of the levels of a hierarchy -/

variable {n : ℕ} {L0 : Level} {Ls : List Level}

theorem LevelsOK.ne_nil (hL : LevelsOK n Ls) : ∀ L ∈ Ls, L.procs ≠ [] := fun L h e => by
  have := hL.zero L h
  rw [e] at this
  cases this

theorem LevelsOK.pos (hL : LevelsOK n (L0 :: Ls)) : L0.procs = List.range n ∧ 0 < n := by
  have h := hL.first L0 rfl
  refine ⟨h, Nat.pos_of_ne_zero fun e => ?_⟩
  have := hL.zero L0 List.mem_cons_self
  rw [h, e] at this
  cases this

theorem LevelsOK.zero_mem (hL : LevelsOK n Ls) : ∀ L ∈ Ls, 0 ∈ L.procs := fun L h => List.mem_of_mem_head? (hL.zero L h)

theorem own_zero (hL : LevelsOK n Ls) : own 0 Ls = Ls := List.filter_eq_self.2 fun L h => decide_eq_true (hL.zero_mem L h)

theorem setup_steps (hL : LevelsOK n (L0 :: Ls)) (O : Opts) : ReflTransGen (Step J) (setup O (L0 :: Ls)) fun p => if p ∈ List.range n then
    summary (List.range n) p O (logged J p O.lev (L0 :: Ls) {}) else .ret (some []) := by
  have hp := hL.pos
  have e : setup O (L0 :: Ls) = fun p => if p ∈ L0.procs then (logAll p O.lev (L0 :: Ls) {}).bind (summary L0.procs p O) else .ret (some []) := rfl
  rw [e]
  have := all_steps (J := J) O.lev (L0 :: Ls) hL.ne_nil hL.nested L0.procs (fun L h p hpL => by
    rcases List.mem_cons.1 h with rfl | h
    · exact hpL
    · exact (List.pairwise_cons.1 hL.nested).1 L h p hpL) (fun _ => {}) (fun p => summary L0.procs p O) fun _ => .ret (some [])
  rw [hp.1] at this ⊢
  exact this

theorem logged_zero (hL : LevelsOK n (L0 :: Ls)) {lev : LogLev} (hl : lev ≠ .none) :
    (logged J 0 lev (L0 :: Ls) {}).vcc = (L0 :: Ls).map (fun L => (L.nv : ℚ)) ∧ (logged J 0 lev (L0 :: Ls) {}).occ = (L0 :: Ls).map (fun L => (L.size : ℚ)) ∧
    (logged J 0 lev (L0 :: Ls) {}).nvs = (L0 :: Ls).map Level.nv ∧ (logged J 0 lev (L0 :: Ls) {}).nes = (L0 :: Ls).map Level.ne ∧
    (logged J 0 lev (L0 :: Ls) {}).nps = (L0 :: Ls).map (fun L => L.procs.length) ∧
    (logged J 0 lev (L0 :: Ls) {}).nzes = (L0 :: Ls).map (fun L => (L.procs.map L.nze).sum) := by
  obtain ⟨h1, h2, h3, h4, h5, -⟩ := logged_fields (J := J) lev hl 0 (L0 :: Ls) hL.nested {}
  obtain ⟨h5, h6⟩ := h5 hL.zero
  rw [own_zero hL] at h1 h2 h3 h4 h5 h6
  exact ⟨h1, h5, h2, h3, h4, h6⟩

theorem logged_loc (hL : LevelsOK n (L0 :: Ls)) {lev : LogLev} (hs : lev.small = false) (p : ℕ) :
    (logged J p lev (L0 :: Ls) {}).vccl = (own p (L0 :: Ls)).map (fun L => (L.nvl p : ℚ)) ∧
    (logged J p lev (L0 :: Ls) {}).occl = (own p (L0 :: Ls)).map (fun L => ((L.nze p * L.bs : ℕ) : ℚ)) := by
  have hl : lev ≠ .none := by rintro rfl; cases hs
  exact (logged_fields (J := J) lev hl p (L0 :: Ls) hL.nested {}).2.2.2.2.2 hs

end NgsAMG.SLog
