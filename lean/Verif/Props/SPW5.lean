import Verif.Props.SPW4
import Mathlib.Tactic.IntervalCases

/-!
# Properties of the pairwise aggregation, part 5: concrete runs (non-vacuity) and violated properties
-/

namespace NgsAMG.SPW

/-- a sort routine for weights -/
def exSrt (w : ℕ → ℚ) (l : List ℕ) : List ℕ := l.insertionSort (fun a b => w b ≤ w a)

theorem exSrt_ok : IsSortDesc exSrt := by
  intro w l
  have : Std.Total (fun a b : ℕ => w b ≤ w a) := ⟨fun a b => le_total _ _⟩
  have : IsTrans ℕ (fun a b : ℕ => w b ≤ w a) := ⟨fun a b c h1 h2 => le_trans h2 h1⟩
  exact ⟨List.perm_insertionSort _ _, List.pairwise_insertionSort _ _⟩

/-- the final sort -/
def exSrtFin (l : List ℕ) : List ℕ := l.insertionSort (· ≤ ·)

theorem exSrtFin_ok (l : List ℕ) : (exSrtFin l).Perm l ∧ (exSrtFin l).Pairwise (· ≤ ·) :=
  ⟨List.perm_insertionSort _ _, List.pairwise_insertionSort _ _⟩

/-! ### a path of five vertices, two rounds -/

def pathAdj : ℕ → List ℕ
  | 0 => [1] | 1 => [0, 2] | 2 => [1, 3] | 3 => [2, 4] | 4 => [3] | _ => []

/-- all connections are equally strong; all checks are passed -/
def exSOC : SOC ℚ := ⟨fun _ _ => 1 / 2, fun _ _ => 1 / 2, fun _ _ _ => true, fun _ _ _ => true⟩

def exOracle : Oracle ℚ := ⟨fun _ => exSOC, fun _ => exSrt, fun _ l => l, fun _ _ => none, exSrtFin⟩

theorem exOracle_ok : OracleOK exOracle := ⟨fun _ => exSrt_ok, fun _ l => List.Perm.refl l, exSrtFin_ok⟩

/-- serial; vertex 4 is a Dirichlet vertex -/
def pathIn : Input :=
  ⟨5, pathAdj, fun _ => 0, ⟨false, fun a b => a == b || a == 0, fun _ => true, none⟩, fun v => v != 4, [], fun _ => false, none⟩

def exCfg : Cfg ℚ := ⟨2, false, false, true, 1 / 4, 1 / 4, 1 / 4⟩

theorem exCfg_ok : CfgOK exCfg := ⟨by norm_num [exCfg], by simp [exCfg], by simp [exCfg]⟩

theorem pathIn_ok : InputOK pathIn := by
  refine ⟨?_, by simp [pathIn], by simp [pathIn], by simp [pathIn], by simp [pathIn]⟩
  intro v hv
  have hv' : v < 5 := hv
  interval_cases v <;> decide

/-- non-vacuity of C53, C55: the four free vertices of the path become one aggregate in two rounds -/
example : formAgglomerates pathIn exCfg exOracle = some [⟨0, [0, 1, 2, 3]⟩] := by decide +kernel

example : Eligible pathIn 0 ∧ ¬ Eligible pathIn 4 := by
  constructor <;> simp [Eligible, pathIn, pathAdj]

/-! ### the same path shared by ranks: EQC 0 ≤ 1 ≤ 2, 3 with 2, 3 not comparable -/

def starLeq (a b : ℕ) : Bool := a == b || a == 0 || (a == 1 && b != 0)

theorem starLeq_ok : LeqOK starLeq := by
  refine ⟨?_, ?_, ?_, ?_⟩ <;> intro a
  · simp [starLeq]
  · intro b c; simp [starLeq]; omega
  · intro b; simp [starLeq]; omega
  · simp [starLeq]

def parIn : Input :=
  ⟨4, pathAdj4, fun v => [0, 1, 2, 3].getD v 0, ⟨true, starLeq, fun _ => true, none⟩, fun _ => true, [], fun _ => false, none⟩
where pathAdj4 : ℕ → List ℕ
  | 0 => [1] | 1 => [0, 2] | 2 => [1, 3] | 3 => [2] | _ => []

theorem parIn_ok : InputOK parIn := by
  refine ⟨?_, by simp [parIn], by simp [parIn], by simp [parIn], by simp [parIn]⟩
  intro v hv
  have hv' : v < 4 := hv
  interval_cases v <;> decide

/-- non-vacuity of C56: the vertices 2 and 3 are neighbours in EQCs that are not comparable, so they are not paired; the first
aggregate spans EQCs 0, 1, 2 -/
example : formAgglomerates parIn exCfg exOracle = some [⟨2, [0, 1, 2]⟩, ⟨3, [3]⟩] ∧ parIn.par.trulyParallel = true ∧
    exCfg.orphanRound = false := by
  refine ⟨?_, rfl, rfl⟩
  decide +kernel

/-! ### C56 is violated with the orphan round -/

/-- vertices 0, 1 in EQC 1, vertex 2 in EQC 2, vertex 3 in EQC 3 (both above 1, not comparable), three Dirichlet vertices in
EQC 3 -/
def orphAdj : ℕ → List ℕ
  | 0 => [1, 2, 3] | 1 => [0] | 2 => [0, 4, 5, 6] | 3 => [0, 4, 5, 6] | 4 => [2, 3] | 5 => [2, 3] | 6 => [2, 3] | _ => []

def orphIn : Input :=
  ⟨7, orphAdj, fun v => [1, 1, 2, 3, 3, 3, 3].getD v 0, ⟨true, starLeq, fun _ => true, none⟩, fun v => decide (v < 4), [],
    fun _ => false, none⟩

/-- the edge 0-1 is strong, all others half as strong -/
def orphSOC : SOC ℚ :=
  ⟨fun v j => if (v = 0 ∧ j = 0) ∨ (v = 1 ∧ j = 0) then 1 else 1 / 2, fun _ _ => 1 / 2, fun _ _ _ => true, fun _ _ _ => true⟩

def orphOracle : Oracle ℚ := ⟨fun _ => orphSOC, fun _ => exSrt, fun _ l => l, fun _ _ => none, exSrtFin⟩

def orphCfg : Cfg ℚ := ⟨1, true, false, true, 1 / 4, 1 / 4, 1 / 4⟩

theorem orphIn_ok : InputOK orphIn := by
  refine ⟨?_, by simp [orphIn], by simp [orphIn], by simp [orphIn], by simp [orphIn]⟩
  intro v hv
  have hv' : v < 7 := hv
  interval_cases v <;> decide

/-- C56 fails if the orphan round is switched on: two orphans in EQCs that are not comparable join the same aggregate (each is
compared with the aggregate's EQC before the round only); the rank sharing vertex 3 does not know the aggregate's center -/
theorem orphan_round_breaks_eqc :
    ∃ (I : Input) (cfg : Cfg ℚ) (O : Oracle ℚ), InputOK I ∧ CfgOK cfg ∧ OracleOK O ∧ LeqOK I.par.leq ∧
      I.par.trulyParallel = true ∧ cfg.orphanRound = true ∧
      ∃ aggs, formAgglomerates I cfg O = some aggs ∧
        ∃ g ∈ aggs, (∃ v ∈ g.mems, I.par.leq (I.eqc v) (I.eqc g.ctr) = false) ∧
          ¬ ∃ t ∈ g.mems, ∀ v ∈ g.mems, I.par.leq (I.eqc v) (I.eqc t) = true := by
  refine ⟨orphIn, orphCfg, orphOracle, orphIn_ok, ⟨by norm_num [orphCfg], by simp [orphCfg], by simp [orphCfg]⟩,
    ⟨fun _ => exSrt_ok, fun _ l => List.Perm.refl l, exSrtFin_ok⟩, starLeq_ok, rfl, rfl, [⟨2, [0, 1, 2, 3]⟩], ?_, ?_⟩
  · decide +kernel
  · refine ⟨⟨2, [0, 1, 2, 3]⟩, List.mem_singleton.mpr rfl, ⟨3, by simp, by decide⟩, by decide⟩

/-! ### locked edges -/

/-- two vertices whose only edge is locked -/
def lockIn : Input :=
  ⟨2, fun v => match v with | 0 => [1] | 1 => [0] | _ => [], fun _ => 0,
    ⟨false, fun a b => a == b || a == 0, fun _ => true, none⟩, fun _ => true, [], fun _ => false, some fun _ => false⟩

theorem lockIn_ok : InputOK lockIn := by
  refine ⟨?_, by simp [lockIn], by simp [lockIn], by simp [lockIn], by simp [lockIn]⟩
  intro v hv
  have hv' : v < 2 := hv
  interval_cases v <;> decide

/-- the edges given to `SetAllowedEdges` have no effect on the aggregates … -/
theorem locked_edges_no_effect {K : Type} [Field K] [LinearOrder K] (I : Input) (al : Option (ℕ × ℕ → Bool)) (cfg : Cfg K)
    (O : Oracle K) : formAgglomerates { I with allowedEdges := al } cfg O = formAgglomerates I cfg O := by
  have hr : ∀ todo total round m, laterRounds { I with allowedEdges := al } cfg O total todo round m =
      laterRounds I cfg O total todo round m := by
    intro todo total
    induction todo with
    | zero => intros; rfl
    | succ n ih =>
      intro round m
      simp only [laterRounds, ih]
  simp only [formAgglomerates, allRounds, hr]
  rfl

/-- … so vertices are put into one aggregate although every edge between them is locked: an aggregate of the pairwise algorithm
is not connected by allowed edges in general -/
theorem locked_edges_ignored :
    ∃ (I : Input) (al : ℕ × ℕ → Bool) (cfg : Cfg ℚ) (O : Oracle ℚ), I.allowedEdges = some al ∧ InputOK I ∧ CfgOK cfg ∧
      OracleOK O ∧ (∀ e, al e = false) ∧
      formAgglomerates I cfg O = some [⟨0, [0, 1]⟩] := by
  refine ⟨lockIn, fun _ => false, exCfg, exOracle, rfl, lockIn_ok, exCfg_ok, exOracle_ok, fun _ => rfl, ?_⟩
  decide +kernel

end NgsAMG.SPW
