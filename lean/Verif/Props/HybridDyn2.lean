import Verif.Props.HybridDyn

/-! C84, second part. -/

namespace NgsAMG.HybDyn
open NgsAMG.DCC NgsAMG.Hybrid NgsAMG.HybSm NgsAMG.DynBlock NgsAMG.GS NgsAMG.Spec NgsAMG.BlkGS Matrix

/-- the lists of classes visited in the three stages -/
def groups (S : HDyn) (fr : Option (ℕ → Bool)) (i : ℕ) : List (List ℕ) :=
  classesIn S.sm fr (S.stage (if i = 0 then .loc1 else if i = 1 then .ex else .loc2))

theorem stages_of {M : CSR (Blk 1)} (hM : M.WF) (hs : Symm M) {md : Option (ℕ → ℝ)} {f : ℕ → Bool} {omega : ℝ} {S : ℕ → HDyn} {p : ℕ}
    (hobj : DynBlock.ObjOK (toScal M) md (some f) omega (S p).sm) (hids : ∀ st, ∀ k ∈ (S p).stage st, k < (S p).sm.A.blocks.length) :
    StagesOK M (dynKernels S p) fun i => (groups (S p) (some f) i).map (dynB (toScal M) md omega) := by
  have hA := toScal_wf hM
  have hstage : ∀ st : Stage, groups (S p) (some f) st.idx = classesIn (S p).sm (some f) ((S p).stage st) := by
    intro st; cases st <;> rfl
  have hrhs : ∀ (st : Stage) (bw : Bool) (x b : ℕ → ℝ),
      blockSweep (toScal M).width (dense (toScal M)) ((if bw then (classesIn (S p).sm (some f) ((S p).stage st)).reverse else classesIn (S p).sm (some f) ((S p).stage st)).map
        (dynBlock (toScal M) md omega)) (up1 x) (up1 b) =
      (stageList (fun i => (groups (S p) (some f) i).map (dynB (toScal M) md omega)) false st bw).foldl (stepRHS M (up1 b)) (up1 x) := by
    intro st bw x b
    rw [foldl_spec M hM]
    have e1 : M.entry = dense (toScal M) := by rw [← lift_entry, lift_toScal]
    rw [e1]
    show blockSweep M.width _ _ _ _ = _
    refine congrArg (fun L => blockSweep M.width (dense (toScal M)) L (up1 x) (up1 b)) ?_
    rw [← hstage]
    cases bw
    · show List.map (dynBlock (toScal M) md omega) (groups (S p) (some f) st.idx) = List.map BBlock.toSpec ((groups (S p) (some f) st.idx).map (dynB (toScal M) md omega))
      rw [List.map_map]
      rfl
    · show List.map (dynBlock (toScal M) md omega) (groups (S p) (some f) st.idx).reverse = List.map BBlock.toSpec ((groups (S p) (some f) st.idx).map (dynB (toScal M) md omega)).reverse
      rw [← List.map_reverse, List.map_map]
      rfl
  constructor
  · intro st bw xz x b
    obtain ⟨x', h1, h2⟩ := itRHS_spec hA hobj ((S p).stage st) (hids st) bw (down x) (down b)
    show ((itBlocks (S p).sm ((S p).stage st) bw (updRHS (S p).sm (down b)) (down x)).map lift1).getD x = _
    rw [h1]
    show up1 x' = _
    rw [h2, hrhs, up1_down, up1_down]
  · intro st bw xz x r
    obtain ⟨x', h1, h2⟩ := itRes_spec hA (toScal_symm hs) hobj ((S p).stage st) (hids st) (fun h => by cases h) bw (down x) (fun i => down r i + matVec (toScal M) (down x) i)
    have e0 : (fun i => down r i + matVec (toScal M) (down x) i - matVec (toScal M) (down x) i) = down r := by funext i; ring
    rw [e0] at h1
    have hmul : ∀ y : ℕ → ℝ, multRow M (up1 y) = up1 (matVec (toScal M) y) := by
      intro y
      rw [← multRow_up1 hA, lift_toScal]
    have e1 : r + multRow M x = up1 fun i => down r i + matVec (toScal M) (down x) i := by
      conv_lhs => rw [← up1_down x, ← up1_down r, hmul]
      rfl
    show ((itBlocks (S p).sm ((S p).stage st) bw (updRes (S p).sm) (down x, down r)).map fun s => (lift1 s.1, lift1 s.2)).getD (x, r) = _
    rw [h1, e1]
    have h3 : up1 x' = (stageList (fun i => (groups (S p) (some f) i).map (dynB (toScal M) md omega)) false st bw).foldl
        (stepRHS M (up1 fun i => down r i + matVec (toScal M) (down x) i)) x := by
      rw [h2, hrhs, up1_down]
    rw [← h3, hmul]
    rfl

/-- what the constructor makes on one process -/
theorem hdyn_ok {inv : SInv} (hinv : Inverts inv) (P : PD) (p : ℕ) {A : CSR ℝ} (hA : A.WF) (hd : HasDiag A) (rb cb : Blocking) (hc : DynBlock.Consistent A rb cb)
    (order : List ℕ) (ho : SortedBy A rb order) (md : Option (ℕ → ℝ)) (free : Option (ℕ → Bool)) (hdet : DetOK A md (maf P p free)) (omega : ℝ) :
    ∃ D Fs, finalize A rb cb order = some D ∧ RowClasses A (fun i => P.isMaster p i && inSubset free i) Fs ∧ DynOK A D ∧ ∀ dp0, ∃ S, mkHDyn inv P p D md free omega dp0 = some S ∧
      DynBlock.ObjOK A md (maf P p free) omega S.sm ∧ (∀ st, ∀ k ∈ S.stage st, k < S.sm.A.blocks.length) ∧
      groups S (maf P p free) 0 ++ groups S (maf P p free) 2 = Fs.filter (fun F => !shared P p F) ∧ groups S (maf P p free) 1 = Fs.filter (shared P p) := by
  obtain ⟨D, hD, hok⟩ := finalize_ok A hA rb cb hc order ho
  refine ⟨D, classesOf D (maf P p free), hD, hok.classes (maf P p free), hok, fun dp0 => ?_⟩
  obtain ⟨S, hS, hSD, hobj⟩ := mkDSm_ok hinv hA hd hok md (maf P p free) hdet omega dp0
  refine ⟨⟨S, (sortBlocks P p free D 0 D.blocks).1.length / 2, (sortBlocks P p free D 0 D.blocks).1, (sortBlocks P p free D 0 D.blocks).2⟩, ?_, hobj, ?_, ?_, ?_⟩
  · rw [mkHDyn]
    rw [show (some fun i => P.isMaster p i && inSubset free i) = maf P p free from rfl, hS]
    rfl
  all_goals
    obtain ⟨h1, h2, h3⟩ := sortBlocks_spec P p free D (freeNr S (maf P p free)) D.blocks 0 (by
      intro j b hb
      rw [zero_add, freeNr, hSD, hb]
      rfl)
  · intro st k hk
    show k < S.A.blocks.length
    rw [hSD]
    rw [zero_add] at h3
    cases st
    · exact h3 k (.inl (List.mem_of_mem_take hk))
    · exact h3 k (.inr hk)
    · exact h3 k (.inl (List.mem_of_mem_drop hk))
  · show classesIn _ _ _ ++ classesIn _ _ _ = _
    rw [classesIn, classesIn, ← List.filter_append, ← List.map_append]
    show (((List.take _ _ ++ List.drop _ _).map _).filter _) = _
    rw [List.take_append_drop, h1]
    rfl
  · exact h2

end NgsAMG.HybDyn
