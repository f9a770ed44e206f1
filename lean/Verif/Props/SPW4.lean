import Verif.Props.SPW3
import Mathlib.Data.Rat.Defs
import Mathlib.Algebra.Order.Ring.Rat
import Mathlib.Algebra.Field.Rat

/-!
# Properties of the pairwise aggregation, part 4: the aggregates (C53, C55, C56)
-/

namespace NgsAMG.SPW

variable {K : Type}

/-! ### specification -/

/-- the vertices that have to be put into aggregates by this rank: free, coarsened by this rank, not in a fixed aggregate,
not dominated by their L2 weight, and not an isolated local vertex -/
def Eligible (I : Input) (v : ℕ) : Prop :=
  I.free v = true ∧
  (I.par.trulyParallel = true → match I.par.solid with
    | some solid => I.eqc v = 0 ∨ solid v = true
    | none => I.par.isMaster (I.eqc v) = true) ∧
  (∀ agg ∈ I.fixed, v ∉ agg) ∧
  I.l2dominant v = false ∧
  ¬ (I.eqc v = 0 ∧ I.adj v = [])

theorem eligible_iff (I : Input) (v : ℕ) : handled0 I v = false ↔ Eligible I v := by
  unfold handled0 Eligible
  cases hs : I.par.solid <;> cases hp : I.par.trulyParallel <;> simp [hp]
  · tauto
  · tauto
  · tauto
  · tauto

/-- the mesh and the fixed aggregates make sense -/
structure InputOK (I : Input) : Prop where
  adj : ∀ v < I.n, ∀ w ∈ I.adj v, w < I.n
  fixNe : ∀ agg ∈ I.fixed, agg ≠ []
  fixNodup : ∀ agg ∈ I.fixed, agg.Nodup
  fixRange : ∀ agg ∈ I.fixed, ∀ v ∈ agg, v < I.n
  fixDisj : I.fixed.Pairwise List.Disjoint

/-- the sort routines sort -/
structure OracleOK [LE K] (O : Oracle K) : Prop where
  srt : ∀ r, IsSortDesc (O.srt r)
  srtDeg : ∀ r, IsPerm (O.srtDeg r)
  srtFin : ∀ l, (O.srtFin l).Perm l ∧ (O.srtFin l).Pairwise (· ≤ ·)

/-! ### the rounds -/

section
variable [Field K] [LinearOrder K] [IsStrictOrderedRing K]

theorem round0_level (I : Input) (cfg : Cfg K) (O : Oracle K) (hI : InputOK I) (hc : CfgOK cfg) (hO : OracleOK O) :
    Level I.n I.adj (Eligible I) (round0 I cfg O) ∧ SizeLe 2 (round0 I cfg O) ∧
    (I.par.trulyParallel = true → LeqOK I.par.leq → HasTop I.par.leq I.eqc I.n (round0 I cfg O) ∧
      EqOK I.par.leq I.eqc I.n ((round0 I cfg O).finishUp I.par.leq I.adj (some I.eqc))) := by
  obtain ⟨hs, hp⟩ := pairing_spec true I.par cfg hc ⟨I.n, I.adj, I.eqc, O.soc 0, O.srt 0, O.srtDeg 0⟩ (hO.srt 0)
    (hO.srtDeg 0) hI.adj (handled0 I) (fun _ => none)
  have he : (fun v => handled0 I v = false) = Eligible I := by
    funext v; exact propext (eligible_iff I v)
  rw [he] at hs hp
  have hL : Level I.n I.adj (Eligible I) (round0 I cfg O) := level_of_star _ _ _ _ _ _ hs _ _
  have hel : ∀ v < I.n, ∀ c, (round0 I cfg O).vmap v = some c → Eligible I v := by
    intro v hv c e
    by_contra hne
    rw [hL.other v hv hne] at e; cases e
  refine ⟨hL, pairs_size _ _ _ hL.table hel hp, ?_⟩
  intro hpar hl
  have hch := star_chain hl hpar hs hp
  refine ⟨?_, ?_⟩
  · intro c hc
    obtain ⟨-, k, hk, -, ek, hall⟩ := hch c hc
    exact ⟨k, ⟨hk, ek⟩, fun v hv => hall v hv.1 (hel v hv.1 c hv.2) hv.2⟩
  · refine firstEq_ok hL I.par.leq hl I.eqc ?_
    intro c hc v w hv hw
    exact (hch c hc).1 v w hv.1 hw.1 (hel v hv.1 c hv.2) (hel w hw.1 c hw.2) hv.2 hw.2

/-- the further rounds keep everything; sizes at most double per round; without orphan round every aggregate has a largest
EQC -/
theorem laterRounds_spec (I : Input) (cfg : Cfg K) (O : Oracle K) (hc : CfgOK cfg) (hO : OracleOK O)
    (total : ℕ) (ht : total = cfg.numRounds + (if cfg.orphanRound then 1 else 0)) :
    ∀ (todo round : ℕ) (conc : LMap), round + todo = total → 1 ≤ round →
      Level I.n I.adj (Eligible I) conc → (1 ≤ todo → Finished I.n I.adj conc) →
      Level I.n I.adj (Eligible I) (laterRounds I cfg O total todo round conc) ∧
      (cfg.orphanRound = false → SizeLe (2 ^ round) conc →
        SizeLe (2 ^ cfg.numRounds) (laterRounds I cfg O total todo round conc)) ∧
      (cfg.orphanRound = false → I.par.trulyParallel = true → LeqOK I.par.leq →
        (if todo = 0 then HasTop I.par.leq I.eqc I.n conc else EqOK I.par.leq I.eqc I.n conc) →
        HasTop I.par.leq I.eqc I.n (laterRounds I cfg O total todo round conc)) := by
  intro todo
  induction todo with
  | zero =>
    intro round conc hr h1 hL _
    refine ⟨hL, ?_, ?_⟩
    · intro ho hs
      have : round = cfg.numRounds := by rw [ho] at ht; simp at ht; omega
      rw [← this]; exact hs
    · intro _ _ _ h
      rw [if_pos rfl] at h
      exact h
  | succ todo ih =>
    intro round conc hr h1 hL hF
    have hF' := hF (by omega)
    have hadj : ∀ u < conc.nc, ∀ w ∈ conc.cadj u, w < conc.nc := fun u hu w hw => (hF'.edge u hu w hw).1
    simp only [laterRounds]
    by_cases hrn : round < cfg.numRounds
    · rw [if_pos hrn]
      obtain ⟨hs, hp⟩ := pairing_spec false I.par cfg hc
        ⟨conc.nc, conc.cadj, conc.cEq, O.soc round, O.srt round, O.srtDeg round⟩ (hO.srt round) (hO.srtDeg round) hadj
        (fun _ => false) (O.garbage round)
      have htrue : (fun v : ℕ => (fun _ : ℕ => false) v = false) = fun _ => True := by funext v; simp
      rw [htrue] at hs hp
      by_cases hlast : round + 1 = total
      · rw [if_pos hlast]
        have ht0 : todo = 0 := by omega
        subst ht0
        have hV := level_concVM hL hF' hs
        obtain ⟨a, b, c⟩ := ih (round + 1) _ (by omega) (by omega) hV (by omega)
        refine ⟨a, ?_, ?_⟩
        · intro ho hsz
          refine b ho ?_
          rw [pow_succ, mul_comm]
          exact size_concVM hL hF' hp _ hsz
        · intro ho hpar hl he
          refine c ho hpar hl ?_
          rw [if_pos rfl]
          exact hasTop_concVM hl hpar (by simpa using he) hL hs hp
      · rw [if_neg hlast]
        obtain ⟨hL2, hF2⟩ := level_concProper I.par.leq hL hF' hs (fun _ => []) (fun _ => 0)
        obtain ⟨a, b, c⟩ := ih (round + 1) _ (by omega) (by omega) hL2 (fun _ => hF2)
        refine ⟨a, ?_, ?_⟩
        · intro ho hsz
          refine b ho ?_
          rw [pow_succ, mul_comm]
          exact size_concProper I.par.leq hL hF' hs hp _ _ _ hsz
        · intro ho hpar hl he
          refine c ho hpar hl ?_
          rw [if_neg (by omega)]
          exact eqOK_concProper hl hpar (by simpa using he) hL hs hp _ _
    · rw [if_neg hrn]
      have horph : cfg.orphanRound = true := by
        by_contra ho
        rw [Bool.not_eq_true] at ho
        rw [ho] at ht
        simp at ht
        omega
      have ht0 : todo = 0 := by rw [horph] at ht; simp at ht; omega
      subst ht0
      have hno : cfg.orphanRound ≠ false := by rw [horph]; simp
      refine ⟨?_, fun h => absurd h hno, fun h => absurd h hno⟩
      split
      · exact (ih (round + 1) _ (by omega) (by omega) hL (by omega)).1
      · split
        · have hs := joining_spec I.par cfg hc
            ⟨conc.nc, conc.cadj, conc.cEq, O.soc round, O.srt round, O.srtDeg round⟩ (hO.srt round) (hO.srtDeg round) hadj
            (O.garbage round) (fun c => decide (1 < (conc.c2f.getD c []).length))
          exact (ih (round + 1) _ (by omega) (by omega) (level_concVM hL hF' hs) (by omega)).1
        · exact (ih (round + 1) _ (by omega) (by omega) hL (by omega)).1

theorem allRounds_spec (I : Input) (cfg : Cfg K) (O : Oracle K) (hI : InputOK I) (hc : CfgOK cfg) (hO : OracleOK O) :
    Level I.n I.adj (Eligible I) (allRounds I cfg O) ∧
    (cfg.orphanRound = false → SizeLe (2 ^ cfg.numRounds) (allRounds I cfg O)) ∧
    (cfg.orphanRound = false → I.par.trulyParallel = true → LeqOK I.par.leq →
      HasTop I.par.leq I.eqc I.n (allRounds I cfg O)) := by
  obtain ⟨hL, hS, hT⟩ := round0_level I cfg O hI hc hO
  unfold allRounds
  dsimp only
  by_cases hm : 1 < cfg.numRounds ∨ cfg.orphanRound = true
  · rw [if_pos hm]
    have hL1 := level_finishUp hL I.par.leq I.adj (some I.eqc)
    have hF1 := finished_finishUp hI.adj hL I.par.leq (some I.eqc)
    have hr := hc.rounds
    obtain ⟨a, b, c⟩ := laterRounds_spec I cfg O hc hO _ rfl
      (cfg.numRounds + (if cfg.orphanRound = true then 1 else 0) - 1) 1 _ (by omega) le_rfl hL1 (fun _ => hF1)
    refine ⟨a, ?_, ?_⟩
    · intro ho
      refine b ho ?_
      intro c hc
      rw [c2f_finishUp _ _ _ _ hL.table.1]
      simpa using hS c hc
    · intro ho hpar hl
      refine c ho hpar hl ?_
      rw [if_neg]
      · exact (hT hpar hl).2
      · rcases hm with h | h
        · omega
        · rw [ho] at h; cases h
  · rw [if_neg hm]
    push Not at hm
    have hr := hc.rounds
    have ho : cfg.orphanRound = false := by simpa using hm.2
    have h1 : cfg.numRounds = 1 := by omega
    rw [ho, h1]
    simp only [Bool.false_eq_true, if_false, Nat.add_zero, Nat.sub_self, laterRounds]
    exact ⟨hL, fun _ => by simpa using hS, fun _ hpar hl => (hT hpar hl).1⟩

/-! ### from the vertex map to the aggregates -/

theorem ctr_spec (leq : ℕ → ℕ → Bool) (eqc : ℕ → ℕ) :
    ∀ (l : List ℕ) (c0 : ℕ), (l.foldl (fun (c : ℕ) (v : ℕ) =>
      if eqc v ≠ 0 ∧ eqc c ≠ eqc v ∧ leq (eqc c) (eqc v) = true then v else c) c0) ∈ c0 :: l := by
  intro l
  induction l with
  | nil => intro c0; simp
  | cons v l ih =>
    intro c0
    rw [List.foldl_cons]
    have := ih (if eqc v ≠ 0 ∧ eqc c0 ≠ eqc v ∧ leq (eqc c0) (eqc v) = true then v else c0)
    rcases List.mem_cons.mp this with h | h
    · rw [h]
      split <;> simp
    · exact List.mem_cons_of_mem _ (List.mem_cons_of_mem _ h)

theorem ctr_top (leq : ℕ → ℕ → Bool) (hl : LeqOK leq) (eqc : ℕ → ℕ) (t : ℕ) :
    ∀ (l : List ℕ) (c0 : ℕ), leq (eqc c0) (eqc t) = true → (∀ v ∈ l, leq (eqc v) (eqc t) = true) →
      (eqc c0 = eqc t ∨ t ∈ l) →
      eqc (l.foldl (fun (c : ℕ) (v : ℕ) =>
        if eqc v ≠ 0 ∧ eqc c ≠ eqc v ∧ leq (eqc c) (eqc v) = true then v else c) c0) = eqc t := by
  intro l
  induction l with
  | nil => intro c0 _ _ h; simpa using h
  | cons v l ih =>
    intro c0 h1 h2 h3
    rw [List.foldl_cons]
    have h2' : ∀ w ∈ l, leq (eqc w) (eqc t) = true := fun w hw => h2 w (List.mem_cons_of_mem _ hw)
    have hv := h2 v List.mem_cons_self
    by_cases hcond : eqc v ≠ 0 ∧ eqc c0 ≠ eqc v ∧ leq (eqc c0) (eqc v) = true
    · rw [if_pos hcond]
      refine ih v hv h2' ?_
      rcases h3 with h | h
      · exfalso
        have h5 := hcond.2.2
        rw [h] at h5
        exact hcond.2.1 (by rw [h]; exact hl.antisymm _ _ h5 hv)
      · rcases List.mem_cons.mp h with rfl | h
        · exact Or.inl rfl
        · exact Or.inr h
    · rw [if_neg hcond]
      refine ih c0 h1 h2' ?_
      rcases h3 with h | h
      · exact Or.inl h
      · rcases List.mem_cons.mp h with h | h
        · rw [← h] at hcond
          left
          by_contra hne
          apply hcond
          refine ⟨?_, hne, h1⟩
          intro h0
          rw [h0] at h1 hne
          exact hne (hl.antisymm _ _ h1 (hl.zero _))
        · exact Or.inr h

theorem setAgg_spec (leq : ℕ → ℕ → Bool) (eqc : ℕ → ℕ) (l : List ℕ) (hne : l ≠ []) :
    ∃ c ∈ l, setAgg leq eqc l = some ⟨c, l⟩ ∧
      (LeqOK leq → ∀ t ∈ l, (∀ v ∈ l, leq (eqc v) (eqc t) = true) → eqc c = eqc t) := by
  obtain ⟨v0, vs, rfl⟩ := List.exists_cons_of_ne_nil hne
  refine ⟨_, ?_, rfl, ?_⟩
  · have := ctr_spec leq eqc (v0 :: vs) v0
    rcases List.mem_cons.mp this with h | h
    · rw [h]; exact List.mem_cons_self
    · exact h
  · intro hl t ht hall
    exact ctr_top leq hl eqc t (v0 :: vs) v0 (hall v0 List.mem_cons_self) hall (Or.inr ht)

theorem mapM_setAgg (leq : ℕ → ℕ → Bool) (eqc : ℕ → ℕ) (L : List (List ℕ)) (hne : ∀ l ∈ L, l ≠ []) :
    ∃ aggs, L.mapM (setAgg leq eqc) = some aggs ∧ aggs.map Agg.mems = L ∧
      ∀ g ∈ aggs, g.ctr ∈ g.mems ∧
        (LeqOK leq → ∀ t ∈ g.mems, (∀ v ∈ g.mems, leq (eqc v) (eqc t) = true) → eqc g.ctr = eqc t) := by
  induction L with
  | nil => exact ⟨[], rfl, rfl, by simp⟩
  | cons l L ih =>
    obtain ⟨aggs, e1, e2, e3⟩ := ih fun l' hl' => hne l' (List.mem_cons_of_mem _ hl')
    obtain ⟨c, hc, e, htop⟩ := setAgg_spec leq eqc l (hne l List.mem_cons_self)
    refine ⟨⟨c, l⟩ :: aggs, by simp [List.mapM_cons, e, e1], by simp [e2], ?_⟩
    intro g hg
    rcases List.mem_cons.mp hg with rfl | hg
    · exact ⟨hc, htop⟩
    · exact e3 g hg

theorem vToAgg_spec (aggs : List Agg) (hd : (aggs.map Agg.mems).Pairwise List.Disjoint) (v a : ℕ) :
    vToAgg aggs v = some a ↔ ∃ g, aggs[a]? = some g ∧ v ∈ g.mems := by
  have key : ∀ (l : List Agg) (i : ℕ) (cur : Option ℕ), (l.map Agg.mems).Pairwise List.Disjoint →
      ((l.zipIdx i).foldl (fun cur a => if a.1.mems.contains v then some a.2 else cur) cur = some a ↔
        (∃ j g, l[j]? = some g ∧ v ∈ g.mems ∧ a = i + j) ∨ ((∀ g ∈ l, v ∉ g.mems) ∧ cur = some a)) := by
    intro l
    induction l with
    | nil => intro i cur _; simp
    | cons x l ih =>
      intro i cur hd
      rw [List.map_cons, List.pairwise_cons] at hd
      rw [List.zipIdx_cons, List.foldl_cons, ih (i + 1) _ hd.2]
      by_cases hx : v ∈ x.mems
      · have hnot : ∀ g ∈ l, v ∉ g.mems := by
          intro g hg hv
          exact (List.disjoint_left.mp (hd.1 g.mems (List.mem_map_of_mem hg))) hx hv
        have hc : x.mems.contains v = true := by simpa using hx
        simp only [hc, if_true, Option.some.injEq]
        constructor
        · rintro (⟨j, g, hj, hv, rfl⟩ | ⟨-, rfl⟩)
          · exact absurd hv (hnot g (List.mem_of_getElem? hj))
          · exact Or.inl ⟨0, x, rfl, hx, rfl⟩
        · rintro (⟨j, g, hj, hv, rfl⟩ | ⟨h, -⟩)
          · cases j with
            | zero => exact Or.inr ⟨hnot, rfl⟩
            | succ j =>
              exact absurd hv (hnot g (List.mem_of_getElem? (by simpa using hj)))
          · exact absurd hx (h x List.mem_cons_self)
      · have hc : x.mems.contains v = false := by simpa using hx
        simp only [hc, Bool.false_eq_true, if_false]
        constructor
        · rintro (⟨j, g, hj, hv, rfl⟩ | ⟨h, e⟩)
          · exact Or.inl ⟨j + 1, g, by simpa using hj, hv, by omega⟩
          · refine Or.inr ⟨?_, e⟩
            intro g hg
            rcases List.mem_cons.mp hg with rfl | hg
            · exact hx
            · exact h g hg
        · rintro (⟨j, g, hj, hv, rfl⟩ | ⟨h, e⟩)
          · cases j with
            | zero =>
              simp only [List.getElem?_cons_zero, Option.some.injEq] at hj
              subst hj; exact absurd hv hx
            | succ j => exact Or.inl ⟨j, g, by simpa using hj, hv, by omega⟩
          · exact Or.inr ⟨fun g hg => h g (List.mem_cons_of_mem _ hg), e⟩
  unfold vToAgg
  rw [key aggs 0 none hd]
  constructor
  · rintro (⟨j, g, hj, hv, rfl⟩ | ⟨-, h⟩)
    · exact ⟨g, by simpa using hj, hv⟩
    · cases h
  · rintro ⟨g, hg, hv⟩
    exact Or.inl ⟨a, g, hg, hv, by simp⟩

/-! ### C53: the aggregates -/

/-- everything that is proved about the list of aggregates -/
theorem aggregates_core (I : Input) (cfg : Cfg K) (O : Oracle K) (hI : InputOK I) (hc : CfgOK cfg) (hO : OracleOK O) :
    ∃ aggs np, formAgglomerates I cfg O = some aggs ∧ aggs.length = np + I.fixed.length ∧
      (aggs.map Agg.mems).Pairwise List.Disjoint ∧ (aggs.map Agg.mems).drop np = I.fixed ∧
      (∀ a g, a < np → aggs[a]? = some g → g.mems.Pairwise (· < ·) ∧
        (∀ v, v ∈ g.mems ↔ Cls I.n (allRounds I cfg O).vmap a v)) ∧
      (allRounds I cfg O).nc = np ∧
      (∀ g ∈ aggs, g.mems ≠ [] ∧ g.ctr ∈ g.mems ∧ (LeqOK I.par.leq → ∀ t ∈ g.mems,
        (∀ v ∈ g.mems, I.par.leq (I.eqc v) (I.eqc t) = true) → I.eqc g.ctr = I.eqc t)) := by
  obtain ⟨hL, -, -⟩ := allRounds_spec I cfg O hI hc hO
  have hT := hL.table
  have hrow : ∀ c < (allRounds I cfg O).nc, ∀ l, ((allRounds I cfg O).c2f.map O.srtFin)[c]? = some l →
      l.Pairwise (· < ·) ∧ ∀ v, v ∈ l ↔ Cls I.n (allRounds I cfg O).vmap c v := by
    intro c hc l hl
    rw [List.getElem?_map, Option.map_eq_some_iff] at hl
    obtain ⟨row, hrow, rfl⟩ := hl
    have e : (allRounds I cfg O).c2f.getD c [] = row := by simp [List.getD_eq_getElem?_getD, hrow]
    obtain ⟨h1, h2⟩ := hT.2 c hc
    rw [e] at h1 h2
    obtain ⟨p1, p2⟩ := hO.srtFin row
    refine ⟨?_, fun v => p1.mem_iff.trans (h2 v)⟩
    have hn : (O.srtFin row).Nodup := p1.nodup_iff.mpr h1
    exact (p2.and hn).imp fun h => lt_of_le_of_ne h.1 h.2
  have hne : ∀ l ∈ (allRounds I cfg O).c2f.map O.srtFin ++ I.fixed, l ≠ [] := by
    intro l hl
    rcases List.mem_append.mp hl with hl | hl
    · obtain ⟨c, hc⟩ := List.mem_iff_getElem?.mp hl
      have hcl : c < (allRounds I cfg O).nc := by
        have := (List.getElem?_eq_some_iff.mp hc).1
        simpa [hT.1] using this
      obtain ⟨v, hv⟩ := hL.used c hcl
      intro h
      have := ((hrow c hcl l hc).2 v).mpr hv
      rw [h] at this
      simp at this
    · exact hI.fixNe l hl
  obtain ⟨aggs, e1, e2, e3⟩ := mapM_setAgg I.par.leq I.eqc _ hne
  have hdisj : (aggs.map Agg.mems).Pairwise List.Disjoint := by
    rw [e2, List.pairwise_append]
    refine ⟨?_, hI.fixDisj, ?_⟩
    · rw [List.pairwise_iff_getElem]
      intro i j hi hj hij
      rw [List.disjoint_left]
      intro v hv hv'
      have hi' : i < (allRounds I cfg O).nc := by simpa [hT.1] using hi
      have hj' : j < (allRounds I cfg O).nc := by simpa [hT.1] using hj
      have h1 := ((hrow i hi' _ (List.getElem?_eq_getElem hi)).2 v).mp hv
      have h2 := ((hrow j hj' _ (List.getElem?_eq_getElem hj)).2 v).mp hv'
      have := h1.2.symm.trans h2.2
      injection this with this
      omega
    · intro l hl f hf
      rw [List.disjoint_left]
      intro v hv hvf
      obtain ⟨c, hc⟩ := List.mem_iff_getElem?.mp hl
      have hcl : c < (allRounds I cfg O).nc := by
        have := (List.getElem?_eq_some_iff.mp hc).1
        simpa [hT.1] using this
      have h1 := ((hrow c hcl l hc).2 v).mp hv
      have hel : Eligible I v := by
        by_contra hel
        have := hL.other v h1.1 hel
        rw [h1.2] at this; cases this
      exact hel.2.2.1 f hf hvf
  refine ⟨aggs, (allRounds I cfg O).nc, e1, ?_, hdisj, ?_, ?_, rfl, ?_⟩
  · have := congrArg List.length e2
    simpa [hT.1] using this
  · rw [e2]
    exact List.drop_left' (by simp [hT.1])
  · intro a g ha hg
    have : (aggs.map Agg.mems)[a]? = some g.mems := by simp [List.getElem?_map, hg]
    rw [e2, List.getElem?_append_left (by simpa [hT.1] using ha)] at this
    exact hrow a ha _ this
  · intro g hg
    have : g.mems ∈ aggs.map Agg.mems := List.mem_map_of_mem hg
    rw [e2] at this
    exact ⟨hne _ this, e3 g hg⟩

/-- C53: the algorithm always returns aggregates; every vertex this rank has to coarsen is in exactly one of them; the only
other vertices in aggregates are those of the fixed aggregates; aggregates are nonempty, contain their center and list no
vertex twice; `v_to_agg` is the inverse of the list of aggregates -/
theorem aggregates_partition (I : Input) (cfg : Cfg K) (O : Oracle K) (hI : InputOK I) (hc : CfgOK cfg)
    (hO : OracleOK O) :
    ∃ aggs, formAgglomerates I cfg O = some aggs ∧
      (∀ v < I.n, Eligible I v → ∃ (a : ℕ) (g : Agg), aggs[a]? = some g ∧ v ∈ g.mems) ∧
      (∀ (v a b : ℕ) (g g' : Agg), aggs[a]? = some g → aggs[b]? = some g' → v ∈ g.mems → v ∈ g'.mems → a = b) ∧
      (∀ g ∈ aggs, ∀ v ∈ g.mems, v < I.n ∧ (Eligible I v ∨ ∃ f ∈ I.fixed, v ∈ f)) ∧
      (∀ f ∈ I.fixed, ∃ g ∈ aggs, g.mems = f) ∧
      (∀ g ∈ aggs, g.mems ≠ [] ∧ g.ctr ∈ g.mems ∧ g.mems.Nodup) ∧
      (∀ v a, vToAgg aggs v = some a ↔ ∃ g, aggs[a]? = some g ∧ v ∈ g.mems) := by
  obtain ⟨hL, -, -⟩ := allRounds_spec I cfg O hI hc hO
  obtain ⟨aggs, np, e1, e2, e3, e4, e5, e6, e7⟩ := aggregates_core I cfg O hI hc hO
  have hfix : ∀ a g, np ≤ a → aggs[a]? = some g → g.mems ∈ I.fixed := by
    intro a g ha hg
    rw [← e4]
    have : (aggs.map Agg.mems)[a]? = some g.mems := by simp [List.getElem?_map, hg]
    refine List.mem_of_getElem? (i := a - np) ?_
    rw [List.getElem?_drop]
    rw [show np + (a - np) = a by omega]
    exact this
  refine ⟨aggs, e1, ?_, ?_, ?_, ?_, ?_, vToAgg_spec aggs e3⟩
  · intro v hv hel
    obtain ⟨c, hc, e⟩ := hL.total v hv hel
    rw [e6] at hc
    have hlt : c < aggs.length := by omega
    exact ⟨c, aggs[c], List.getElem?_eq_getElem hlt, ((e5 c _ hc (List.getElem?_eq_getElem hlt)).2 v).mpr ⟨hv, e⟩⟩
  · intro v a b g g' ha hb hv hv'
    have h1 := (vToAgg_spec aggs e3 v a).mpr ⟨g, ha, hv⟩
    have h2 := (vToAgg_spec aggs e3 v b).mpr ⟨g', hb, hv'⟩
    rw [h1] at h2
    injection h2
  · intro g hg v hv
    obtain ⟨a, ha⟩ := List.mem_iff_getElem?.mp hg
    by_cases hnp : a < np
    · have h1 := ((e5 a g hnp ha).2 v).mp hv
      refine ⟨h1.1, Or.inl ?_⟩
      by_contra hel
      have := hL.other v h1.1 hel
      rw [h1.2] at this; cases this
    · have h1 := hfix a g (by omega) ha
      exact ⟨hI.fixRange _ h1 v hv, Or.inr ⟨_, h1, hv⟩⟩
  · intro f hf
    rw [← e4] at hf
    obtain ⟨g, hg, e⟩ := List.mem_map.mp (List.mem_of_mem_drop hf)
    exact ⟨g, hg, e⟩
  · intro g hg
    obtain ⟨h1, h2, -⟩ := e7 g hg
    refine ⟨h1, h2, ?_⟩
    obtain ⟨a, ha⟩ := List.mem_iff_getElem?.mp hg
    by_cases hnp : a < np
    · exact (e5 a g hnp ha).1.imp fun h => Nat.ne_of_lt h
    · exact hI.fixNodup _ (hfix a g (by omega) ha)

/-- C55: every aggregate found by the algorithm (not a fixed one) is connected in the mesh; members are listed in ascending
order; without orphan round it has at most `2 ^ numRounds` members -/
theorem aggregates_connected (I : Input) (cfg : Cfg K) (O : Oracle K) (hI : InputOK I) (hc : CfgOK cfg) (hO : OracleOK O)
    (aggs : List Agg) (h : formAgglomerates I cfg O = some aggs) (a : ℕ) (g : Agg) (ha : aggs[a]? = some g)
    (hf : a + I.fixed.length < aggs.length) :
    ConnectedIn I.adj (· ∈ g.mems) ∧ g.mems.Pairwise (· < ·) ∧
      (cfg.orphanRound = false → g.mems.length ≤ 2 ^ cfg.numRounds) := by
  obtain ⟨hL, hS, -⟩ := allRounds_spec I cfg O hI hc hO
  obtain ⟨aggs', np, e1, e2, e3, e4, e5, e6, e7⟩ := aggregates_core I cfg O hI hc hO
  rw [h] at e1; injection e1 with e1; subst e1
  have hnp : a < np := by omega
  obtain ⟨h1, h2⟩ := e5 a g hnp ha
  have heq : (· ∈ g.mems) = Cls I.n (allRounds I cfg O).vmap a := by
    funext v; exact propext (h2 v)
  refine ⟨by rw [heq]; exact hL.conn a (by omega), h1, ?_⟩
  intro ho
  obtain ⟨t1, t2⟩ := hL.table.2 a (by omega)
  have hn : g.mems.Nodup := h1.imp fun h => Nat.ne_of_lt h
  have hp : g.mems.Perm ((allRounds I cfg O).c2f.getD a []) := by
    rw [List.perm_ext_iff_of_nodup hn t1]
    intro v
    exact (h2 v).trans (t2 v).symm
  rw [hp.length_eq]
  exact hS ho a (by omega)

/-- C56: without orphan round, in a parallel run, the center of an aggregate is in an EQC above the EQCs of all members:
every rank that knows a member also knows the center -/
theorem aggregates_eqc (I : Input) (cfg : Cfg K) (O : Oracle K) (hI : InputOK I) (hc : CfgOK cfg) (hO : OracleOK O)
    (hl : LeqOK I.par.leq) (hpar : I.par.trulyParallel = true) (ho : cfg.orphanRound = false)
    (aggs : List Agg) (h : formAgglomerates I cfg O = some aggs) (a : ℕ) (g : Agg) (ha : aggs[a]? = some g)
    (hf : a + I.fixed.length < aggs.length) (v : ℕ) (hv : v ∈ g.mems) :
    I.par.leq (I.eqc v) (I.eqc g.ctr) = true := by
  obtain ⟨hL, -, hT⟩ := allRounds_spec I cfg O hI hc hO
  obtain ⟨aggs', np, e1, e2, e3, e4, e5, e6, e7⟩ := aggregates_core I cfg O hI hc hO
  rw [h] at e1; injection e1 with e1; subst e1
  have hnp : a < np := by omega
  obtain ⟨h1, h2⟩ := e5 a g hnp ha
  obtain ⟨t, ht, hall⟩ := hT ho hpar hl a (by omega)
  obtain ⟨-, -, h3⟩ := e7 g (List.mem_of_getElem? ha)
  have := h3 hl t ((h2 t).mpr ht) fun w hw => hall w ((h2 w).mp hw)
  rw [this]
  exact hall v ((h2 v).mp hv)

end

end NgsAMG.SPW
