import Verif.Model.HybridBS
import Verif.Props.HybridGS
import Verif.Props.BlockGS4
import Verif.Props.LocBlock4

/-! C82: `HybridBS`. First part: the blocks of the stages, and what the stages do. -/

namespace NgsAMG.HybSm
open NgsAMG.DCC NgsAMG.Hybrid NgsAMG.GS NgsAMG.Spec NgsAMG.BlkGS Matrix

variable {k : ℕ}

/-! ### specification of the stages' blocks -/

/-- the unknowns of a block whose master the process is -/
def mastersOf (P : PD) (p : ℕ) (b : List ℕ) : List ℕ := b.filter fun d => P.owner (P.glob p d) = p

/-- the blocks without unknowns of other processes; blocks without an unknown are dropped -/
def kept (P : PD) (p : ℕ) (blocks : List (List ℕ)) : List (List ℕ) := (blocks.map (mastersOf P p)).filter (· ≠ [])

/-- no unknown of the block is shared with another process -/
def IsLocal (P : PD) (p : ℕ) (b : List ℕ) : Prop := ∀ d ∈ b, ∀ q < P.np, P.shares q (P.glob p d) = true → q = p

instance (P : PD) (p : ℕ) (b : List ℕ) : Decidable (IsLocal P p b) := inferInstanceAs (Decidable (∀ d ∈ b, ∀ q < P.np, P.shares q (P.glob p d) = true → q = p))

/-- the blocks of the stages: local blocks (their first and second half), and blocks with shared unknowns. One process alone has no stages. -/
def stageGroup (P : PD) (p : ℕ) (symmLoc : Bool) (blocks : List (List ℕ)) (i : ℕ) : List (List ℕ) :=
  if P.np ≤ 1 then (if i = 0 then blocks else [])
  else
    let loc := (kept P p blocks).filter fun b => IsLocal P p b
    let ex := (kept P p blocks).filter fun b => ¬ IsLocal P p b
    if i = 1 then ex
    else if symmLoc then (if i = 0 then loc else [])
    else if i = 0 then loc.take (loc.length / 2) else if i = 2 then loc.drop (loc.length / 2) else []

/-! ### the filter -/

/-- the flag `isloc` -/
def locFlag (P : PD) (p : ℕ) (b : List ℕ) : Bool := b.all fun d => (P.dps p d).isEmpty

theorem iterateBlocks_eq (P : PD) (p : ℕ) (bs : List (List ℕ)) :
    iterateBlocks P p bs = ((bs.map fun b => b.filter fun d => P.isMaster p d).filter (· ≠ [])).map fun fb => (fb, locFlag P p fb) := by
  induction bs with
  | nil => rfl
  | cons b bs ih =>
    rw [iterateBlocks]
    simp only [List.map_cons, ih]
    by_cases h : (b.filter fun d => P.isMaster p d) = []
    · rw [h, List.filter_cons_of_neg (by simp)]; rfl
    · rw [if_pos (List.length_pos_iff.2 h), List.filter_cons_of_pos (by simpa using h)]; rfl

theorem fillTables_eq (symmLoc : Bool) (nl1 : ℕ) (cs : List (List ℕ × Bool)) (c1 : ℕ) :
    fillTables symmLoc nl1 cs c1 =
      if symmLoc then ((cs.filter fun c => c.2).map Prod.fst, (cs.filter fun c => !c.2).map Prod.fst, [])
      else (((cs.filter fun c => c.2).map Prod.fst).take (nl1 - c1), (cs.filter fun c => !c.2).map Prod.fst, ((cs.filter fun c => c.2).map Prod.fst).drop (nl1 - c1)) := by
  induction cs generalizing c1 with
  | nil => cases symmLoc <;> simp [fillTables]
  | cons c cs ih =>
    obtain ⟨fb, l⟩ := c
    cases l with
    | false =>
      simp only [fillTables, ih]
      cases symmLoc <;> simp
    | true =>
      cases symmLoc with
      | true => simp [fillTables, ih]
      | false =>
        by_cases h : c1 < nl1
        · have e : nl1 - c1 = (nl1 - (c1 + 1)) + 1 := by omega
          simp only [fillTables, h, decide_true, Bool.or_true, if_true, ih, Bool.false_eq_true, if_false]
          rw [e]
          simp
        · have e : nl1 - c1 = 0 := by omega
          simp only [fillTables, h, decide_false, Bool.or_false, Bool.false_eq_true, if_false, ih, e]
          simp

theorem master_filter {P : PD} {p : ℕ} (hp : p < P.np) {b : List ℕ} (hb : ∀ d ∈ b, d < P.ndof p) :
    (b.filter fun d => P.isMaster p d) = mastersOf P p b := by
  apply List.filter_congr
  intro d hd
  rw [Bool.eq_iff_iff, isMaster_iff hp (hb d hd)]
  simp

theorem locFlag_iff {P : PD} {p : ℕ} {b : List ℕ} : locFlag P p b = true ↔ IsLocal P p b := by
  rw [locFlag, List.all_eq_true]
  refine forall_congr' fun d => forall_congr' fun _ => ?_
  rw [List.isEmpty_iff]
  constructor
  · intro h q hq hs
    by_contra hne
    have : q ∈ P.dps p d := mem_dps.2 ⟨hq, hne, hs⟩
    rw [h] at this
    simp at this
  · intro h
    rw [List.eq_nil_iff_forall_not_mem]
    intro q hq
    have := mem_dps.1 hq
    exact this.2.1 (h q this.1 this.2.2)

theorem callbacks {P : PD} {p : ℕ} (hp : p < P.np) {blocks : List (List ℕ)} (hb : ∀ b ∈ blocks, ∀ d ∈ b, d < P.ndof p) :
    iterateBlocks P p blocks = (kept P p blocks).map fun fb => (fb, locFlag P p fb) := by
  rw [iterateBlocks_eq, kept]
  congr 2
  exact List.map_congr_left fun b h => master_filter hp (hb b h)

/-- **C82**: the filter puts the blocks into the stages -/
theorem filterBlocks_eq {P : PD} {p : ℕ} (hp : p < P.np) (hn : 1 < P.np) (symmLoc : Bool) {blocks : List (List ℕ)} (hb : ∀ b ∈ blocks, ∀ d ∈ b, d < P.ndof p) :
    filterBlocks P p symmLoc blocks = (List.range (if symmLoc then 2 else 3)).map (stageGroup P p symmLoc blocks) := by
  have h1 : ((iterateBlocks P p blocks).filter fun c => c.2).map Prod.fst = (kept P p blocks).filter fun b => IsLocal P p b := by
    rw [callbacks hp hb, List.filter_map, List.map_map]
    refine (List.map_congr_left fun b _ => rfl).trans ((List.map_id _).trans (List.filter_congr fun b _ => ?_))
    rw [Bool.eq_iff_iff, decide_eq_true_iff]; exact locFlag_iff
  have h2 : ((iterateBlocks P p blocks).filter fun c => !c.2).map Prod.fst = (kept P p blocks).filter fun b => ¬ IsLocal P p b := by
    rw [callbacks hp hb, List.filter_map, List.map_map]
    refine (List.map_congr_left fun b _ => rfl).trans ((List.map_id _).trans (List.filter_congr fun b _ => ?_))
    rw [Bool.eq_iff_iff, decide_eq_true_iff, ← locFlag_iff]; simp
  have h3 : ((iterateBlocks P p blocks).filter fun c => c.2).length = ((kept P p blocks).filter fun b => IsLocal P p b).length := by rw [← h1, List.length_map]
  have hn' : ¬ P.np ≤ 1 := by omega
  simp only [filterBlocks, fillTables_eq, h1, h2, h3]
  cases symmLoc
  · simp [stageGroup, hn', List.range_succ]
  · simp [stageGroup, hn', List.range_succ]

/-- the groups that the constructor uses, unless there are two processes and process zero is not idle -/
theorem fblocks_eq {P : PD} {p : ℕ} (hp : p < P.np) {idle : Bool} (h2 : P.np = 2 → idle = true) (symmLoc : Bool) {blocks : List (List ℕ)}
    (hb : ∀ b ∈ blocks, ∀ d ∈ b, d < P.ndof p) :
    ∃ m, (m = 3 ∨ symmLoc = true ∧ m = 2) ∧ fblocks P p idle symmLoc blocks = (List.range m).map (stageGroup P p symmLoc blocks) := by
  rw [fblocks, useFilter]
  by_cases hn : 1 < P.np
  · refine ⟨if symmLoc then 2 else 3, by cases symmLoc <;> simp, ?_⟩
    have : decide (P.np > if idle then 1 else 2) = true := by
      rw [decide_eq_true_iff]
      cases idle
      · have : P.np ≠ 2 := fun h => by simpa using h2 h
        simp; omega
      · simpa using hn
    rw [if_pos this, filterBlocks_eq hp hn symmLoc hb]
  · refine ⟨3, Or.inl rfl, ?_⟩
    have : decide (P.np > if idle then 1 else 2) = false := by
      rw [decide_eq_false_iff_not]
      cases idle <;> simp <;> omega
    have hn' : P.np ≤ 1 := by omega
    rw [this]
    simp [stageGroup, hn', List.range_succ]

theorem mem_kept {P : PD} {p : ℕ} {blocks : List (List ℕ)} {b : List ℕ} (h : b ∈ kept P p blocks) : ∃ c ∈ blocks, b = mastersOf P p c ∧ b ≠ [] := by
  rw [kept, List.mem_filter, List.mem_map] at h
  obtain ⟨⟨c, hc, rfl⟩, h⟩ := h
  exact ⟨c, hc, rfl, by simpa using h⟩

theorem mem_stageGroup {P : PD} {p : ℕ} (hn : 1 < P.np) {symmLoc : Bool} {blocks : List (List ℕ)} {i : ℕ} {b : List ℕ} (h : b ∈ stageGroup P p symmLoc blocks i) :
    b ∈ kept P p blocks ∧ (i ≠ 1 → IsLocal P p b) := by
  have hn' : ¬ P.np ≤ 1 := by omega
  rw [stageGroup, if_neg hn'] at h
  by_cases h1 : i = 1
  · simp only [h1, if_true, List.mem_filter] at h
    exact ⟨h.1, fun h => absurd h1 h⟩
  · simp only [h1, if_false] at h
    have key : b ∈ (kept P p blocks).filter fun b => IsLocal P p b := by
      cases symmLoc
      · simp only [Bool.false_eq_true, if_false] at h
        split at h
        · exact List.mem_of_mem_take h
        · split at h
          · exact List.mem_of_mem_drop h
          · simp at h
      · simp only [if_true] at h
        split at h
        · exact h
        · simp at h
    rw [List.mem_filter, decide_eq_true_iff] at key
    exact ⟨key.1, fun _ => key.2⟩

theorem stageGroup_nodup {P : PD} {p : ℕ} {symmLoc : Bool} {blocks : List (List ℕ)} (hb : ∀ b ∈ blocks, b.Nodup) {i : ℕ} :
    ∀ b ∈ stageGroup P p symmLoc blocks i, b.Nodup := by
  intro b h
  by_cases hn : 1 < P.np
  · obtain ⟨c, hc, rfl, _⟩ := mem_kept (mem_stageGroup hn h).1
    exact (hb c hc).filter _
  · rw [stageGroup, if_pos (by omega)] at h
    split at h
    · exact hb b h
    · simp at h

/-- the local stages' blocks have unshared unknowns only, those of the exchange stage only unknowns whose master the process is -/
theorem stageGroup_dofs {P : PD} {p : ℕ} (hp : p < P.np) {symmLoc : Bool} {blocks : List (List ℕ)} (hb : ∀ b ∈ blocks, ∀ d ∈ b, d < P.ndof p) {i : ℕ}
    {b : List ℕ} (h : b ∈ stageGroup P p symmLoc blocks i) {d : ℕ} (hd : d ∈ b) : mast P p d ∧ (i ≠ 1 → unshared P p d) := by
  by_cases hn : 1 < P.np
  · obtain ⟨h1, h2⟩ := mem_stageGroup hn h
    obtain ⟨c, hc, rfl, _⟩ := mem_kept h1
    have hd' := List.mem_filter.1 hd
    rw [decide_eq_true_iff] at hd'
    exact ⟨⟨hb c hc d hd'.1, hd'.2⟩, fun hi => ⟨hb c hc d hd'.1, fun q hq hs => h2 hi d hd q hq hs⟩⟩
  · rw [stageGroup, if_pos (by omega)] at h
    split at h
    · have hu : unshared P p d := ⟨hb b h d hd, fun q hq _ => by omega⟩
      exact ⟨unshared_mast hp hu, fun _ => hu⟩
    · simp at h

/-- **C82**: an unknown whose master the process is, and which is in some block, is in a block of some stage -/
theorem stageGroup_covers {P : PD} {p : ℕ} {symmLoc : Bool} {blocks : List (List ℕ)} {d : ℕ} (hd : P.owner (P.glob p d) = p)
    (h : ∃ b ∈ blocks, d ∈ b) : ∃ i < 3, ∃ b ∈ stageGroup P p symmLoc blocks i, d ∈ b := by
  obtain ⟨b, hb, hdb⟩ := h
  by_cases hn : P.np ≤ 1
  · exact ⟨0, by omega, b, by simpa [stageGroup, hn] using hb, hdb⟩
  · have hm : d ∈ mastersOf P p b := List.mem_filter.2 ⟨hdb, by simpa using hd⟩
    have hk : mastersOf P p b ∈ kept P p blocks := by
      rw [kept, List.mem_filter]
      exact ⟨List.mem_map_of_mem hb, by simpa using List.ne_nil_of_mem hm⟩
    by_cases hl : IsLocal P p (mastersOf P p b)
    · have hloc : mastersOf P p b ∈ (kept P p blocks).filter fun b => IsLocal P p b := List.mem_filter.2 ⟨hk, by simpa using hl⟩
      cases symmLoc
      · rw [← List.take_append_drop (((kept P p blocks).filter fun b => IsLocal P p b).length / 2) ((kept P p blocks).filter fun b => IsLocal P p b),
          List.mem_append] at hloc
        rcases hloc with h | h
        · exact ⟨0, by omega, _, by simpa [stageGroup, hn] using h, hm⟩
        · exact ⟨2, by omega, _, by simpa [stageGroup, hn] using h, hm⟩
      · exact ⟨0, by omega, _, by simpa [stageGroup, hn] using hloc, hm⟩
    · exact ⟨1, by omega, _, by simpa [stageGroup, hn] using ⟨hk, hl⟩, hm⟩

/-! ### the stages -/

/-- the blocks that a stage visits, in this order -/
def stageList {β : Type} (ord : ℕ → List β) (symmLoc : Bool) (st : Stage) (bw : Bool) : List β :=
  if symmLoc then
    match st with
    | .loc1 => ord 0
    | .ex => ord 1 ++ (ord 1).reverse
    | .loc2 => (ord 0).reverse
  else if bw then (ord st.idx).reverse else ord st.idx

/-- the blocks of a group as the code stores them -/
def codeBlocks (inv : Inverter k) (M : CSR (Blk k)) (md : Option (ℕ → Blk k)) (g : List (List ℕ)) : List (BBlock k) :=
  g.map fun b => ⟨b.insertionSort (· ≤ ·), inv _ (diagOf M md (b.insertionSort (· ≤ ·)))⟩

/-- orders of the groups' blocks: the given order; for the sweeps with colors some other order -/
def OrdOK (inv : Inverter k) (M : CSR (Blk k)) (md : Option (ℕ → Blk k)) (groups : List (List (List ℕ))) (bs2 parallel : Bool) (ord : ℕ → List (BBlock k)) : Prop :=
  ∀ i g, groups[i]? = some g → (ord i).Perm (codeBlocks inv M md g) ∧ (bs2 = true ∨ parallel = false → ord i = codeBlocks inv M md g)

theorem one_pass {σ : Type} {S : LSm k} {Gs : List (List (LBlock k))} (hG : S.Grouped Gs) {g : ℕ} (hg : g < Gs.length) (rev symm : Bool) (f : σ → LBlock k → σ) (s : σ) :
    timesM (fun s => (pass S [g] rev f s).bind fun s => if symm then pass S [g] (!rev) f s else some s) 1 s =
      some ((stepBlocks (Gs.getD g []) rev symm).foldl f s) := by
  have := steps_eq hG g 1 (by omega) rev symm f 1 s
  simpa [blocksOf] using this

theorem setFrom_toB (inv : Inverter k) (M : CSR (Blk k)) (md : Option (ℕ → Blk k)) (g : List (List ℕ)) :
    (g.map (setFrom inv M md)).map LBlock.toB = codeBlocks inv M md g := by
  rw [List.map_map, codeBlocks]; rfl

/-- the steps with the residual follow those with the right hand side -/
theorem foldl_RES' {M : CSR (Blk k)} (hM : M.WF) (hs : Symm M) (L : List (BBlock k)) (hin : ∀ B ∈ L, ∀ d ∈ B.dofs, d < M.height) (x r : BVec k) :
    L.foldl (stepRES M) (x, r) = (L.foldl (stepRHS M (r + multRow M x)) x, r + multRow M x - multRow M (L.foldl (stepRHS M (r + multRow M x)) x)) := by
  have := foldl_RES M hM hs L hin (r + multRow M x) x
  rwa [add_sub_cancel_right] at this

/-- what a stage of the object does -/
structure StageEq (S : HBS k) (M : CSR (Blk k)) (symmLoc : Bool) (ord : ℕ → List (BBlock k)) (st : Stage) (bw : Bool) : Prop where
  rhs : ∀ x b, S.rhs symmLoc st bw x b = some ((stageList ord symmLoc st bw).foldl (stepRHS M b) x)
  res : ∀ x r, S.res symmLoc st bw x r = some ((stageList ord symmLoc st bw).foldl (stepRHS M (r + multRow M x)) x,
    r + multRow M x - multRow M ((stageList ord symmLoc st bw).foldl (stepRHS M (r + multRow M x)) x))

theorem mkHBS_two {M : CSR (Blk k)} (hM : M.WF) (hs : Symm M) (inv : Inverter k) (color : List (List ℕ) → ℕ × List ℕ) (groups : List (List (List ℕ)))
    (hb : ∀ g ∈ groups, ∀ b ∈ g, b.Nodup ∧ ∀ d ∈ b, d < M.height) (parallel symmLoc : Bool) (md : Option (ℕ → Blk k))
    (hl : groups.length = 3 ∨ symmLoc = true ∧ groups.length = 2) :
    ∃ S, mkHBS inv color M groups true parallel md = some S ∧ ∀ st bw, StageEq S M symmLoc (fun i => codeBlocks inv M md (groups.getD i [])) st bw := by
  obtain ⟨S, hS, _, hG, _⟩ := mkLSm_grouped inv M groups md
  refine ⟨.two S, by rw [mkHBS, if_pos rfl, hS]; rfl, fun st bw => ?_⟩
  set Gs := groups.map fun G => G.map (setFrom inv M md) with hGs
  have hlen : Gs.length = groups.length := List.length_map _
  have hget : ∀ g, Gs.getD g [] = (groups.getD g []).map (setFrom inv M md) := by
    intro g
    rw [List.getD_eq_getElem?_getD, List.getD_eq_getElem?_getD, hGs, List.getElem?_map]
    cases groups[g]? <;> rfl
  have hgm : ∀ g, ∀ b ∈ groups.getD g [], b.Nodup ∧ ∀ d ∈ b, d < M.height := by
    intro g b hbg
    rw [List.getD_eq_getElem?_getD] at hbg
    cases h : groups[g]? with
    | none => rw [h] at hbg; simp at hbg
    | some G => rw [h] at hbg; exact hb G (List.mem_of_getElem? h) b hbg
  have hrep : ∀ g, ∀ B ∈ Gs.getD g [], B.Repr M := by
    intro g B hB
    rw [hget, List.mem_map] at hB
    obtain ⟨b, hbm, rfl⟩ := hB
    exact setFrom_repr inv M hM md b (hgm g b hbm).1
  have hin : ∀ g, ∀ B ∈ codeBlocks inv M md (groups.getD g []), ∀ d ∈ B.dofs, d < M.height := by
    intro g B hB d hd
    rw [codeBlocks, List.mem_map] at hB
    obtain ⟨b, hbm, rfl⟩ := hB
    exact (hgm g b hbm).2 d ((List.mem_insertionSort (r := (· ≤ ·))).1 hd)
  have hstep : ∀ g rev symm, ∀ B ∈ stepBlocks (Gs.getD g []) rev symm, B.Repr M := by
    intro g rev symm B hB
    apply hrep g B
    cases rev <;> cases symm <;> simpa [stepBlocks] using hB
  have hmap : ∀ g rev symm, (stepBlocks (Gs.getD g []) rev symm).map LBlock.toB =
      (if rev then (codeBlocks inv M md (groups.getD g [])).reverse else codeBlocks inv M md (groups.getD g [])) ++
        if symm then (if rev then codeBlocks inv M md (groups.getD g []) else (codeBlocks inv M md (groups.getD g [])).reverse) else [] := by
    intro g rev symm
    have e : (Gs.getD g []).map LBlock.toB = codeBlocks inv M md (groups.getD g []) := by rw [hget, setFrom_toB]
    rw [← e]
    cases rev <;> cases symm <;> simp [stepBlocks]
  have simple : ∀ g < groups.length, ∀ rev symm x b, smoothSimple S [g] 1 rev symm x b =
      some (((if rev then (codeBlocks inv M md (groups.getD g [])).reverse else codeBlocks inv M md (groups.getD g [])) ++
        if symm then (if rev then codeBlocks inv M md (groups.getD g []) else (codeBlocks inv M md (groups.getD g [])).reverse) else []).foldl (stepRHS M b) x) := by
    intro g hg rev symm x b
    rw [smoothSimple, one_pass hG (by omega), foldl_upd _ (hstep g rev symm), hmap]
  have simpleR : ∀ g < groups.length, ∀ rev symm x r, smoothRESSimple S [g] 1 rev symm (x, r) =
      some (((if rev then (codeBlocks inv M md (groups.getD g [])).reverse else codeBlocks inv M md (groups.getD g [])) ++
        if symm then (if rev then codeBlocks inv M md (groups.getD g []) else (codeBlocks inv M md (groups.getD g [])).reverse) else []).foldl (stepRES M) (x, r)) := by
    intro g hg rev symm x r
    rw [smoothRESSimple, one_pass hG (by omega), foldl_updRES hs _ (hstep g rev symm), hmap]
  have hinL : ∀ st bw, ∀ B ∈ stageList (fun i => codeBlocks inv M md (groups.getD i [])) symmLoc st bw, ∀ d ∈ B.dofs, d < M.height := by
    intro st bw B hB
    unfold stageList at hB
    cases symmLoc
    · cases bw
      · exact hin _ B hB
      · exact hin _ B (List.mem_reverse.1 hB)
    · cases st
      · exact hin _ B hB
      · exact hin 1 B (by simpa using hB)
      · exact hin _ B (List.mem_reverse.1 hB)
  have h0 : 0 < groups.length := by omega
  have h1 : 1 < groups.length := by omega
  constructor
  · intro x b
    cases symmLoc with
    | true =>
      cases st with
      | loc1 => exact (simple 0 h0 false false x b).trans (by simp [stageList])
      | loc2 => exact (simple 0 h0 true false x b).trans (by simp [stageList])
      | ex =>
        show (smoothSimple S [1] 1 false false x b).bind (fun x => smoothSimple S [1] 1 true false x b) = _
        rw [simple 1 h1, Option.bind_some, simple 1 h1]
        simp [stageList]
    | false =>
      have hi : st.idx < groups.length := by cases st <;> simp [Stage.idx] <;> simp at hl <;> omega
      refine (simple st.idx hi bw false x b).trans ?_
      cases bw <;> simp [stageList]
  · intro x r
    rw [← foldl_RES' hM hs _ (hinL st bw)]
    cases symmLoc with
    | true =>
      cases st with
      | loc1 => exact (simpleR 0 h0 false false x r).trans (by simp [stageList])
      | loc2 => exact (simpleR 0 h0 true false x r).trans (by simp [stageList])
      | ex => exact (simpleR 1 h1 false true x r).trans (by simp [stageList])
    | false =>
      have hi : st.idx < groups.length := by cases st <;> simp [Stage.idx] <;> simp at hl <;> omega
      refine (simpleR st.idx hi bw false x r).trans ?_
      cases bw <;> simp [stageList]

/-- one `BSmoother`: the order of its blocks, forward and backward -/
theorem mkBSm_ord {M : CSR (Blk k)} (inv : Inverter k) (color : List (List ℕ) → ℕ × List ℕ) (hcol : ColoringOK color) (g : List (List ℕ))
    (hb : ∀ b ∈ g, b.Nodup) (parallel : Bool) (md : Option (ℕ → Blk k)) :
    ∃ S L, mkBSm inv color M g parallel md = some S ∧ L.Perm (codeBlocks inv M md g) ∧ (parallel = false → L = codeBlocks inv M md g) ∧ S.mat = M ∧
      order S false = L ∧ (order S true).Perm L ∧ ∀ b x, (order S true).foldl (stepRHS M b) x = L.reverse.foldl (stepRHS M b) x := by
  cases parallel with
  | false =>
    obtain ⟨S, hS, hc⟩ := mk_seq inv color M g md
    obtain ⟨hm, hbl⟩ := mk_blocks hS
    have e : S.blocks = codeBlocks inv M md g := by rw [hbl, List.map_map]; rfl
    have o1 : order S false = S.blocks := by unfold order; rw [hc]; rfl
    have o2 : order S true = S.blocks.reverse := by unfold order; rw [hc]; rfl
    refine ⟨S, S.blocks, hS, by rw [e], fun _ => e, hm, o1, ?_, fun b x => by rw [o2]⟩
    rw [o2]; exact List.reverse_perm _
  | true =>
    obtain ⟨S, cs, hS, hc, hcd⟩ := mk_par inv color hcol M g hb md
    obtain ⟨hm, hbl⟩ := mk_blocks hS
    have e : S.blocks = codeBlocks inv M md g := by rw [hbl, List.map_map]; rfl
    refine ⟨S, order S false, hS, by rw [← e]; exact order_perm hc hcd false, by simp, hm, rfl, ?_, fun b x => ?_⟩
    · exact (order_perm hc hcd true).trans (order_perm hc hcd false).symm
    · rw [← hm]; exact back_order hc hcd b x

theorem mkHBS_one {M : CSR (Blk k)} (hM : M.WF) (hs : Symm M) (inv : Inverter k) (color : List (List ℕ) → ℕ × List ℕ) (hcol : ColoringOK color)
    (groups : List (List (List ℕ)))
    (hb : ∀ g ∈ groups, ∀ b ∈ g, b.Nodup ∧ ∀ d ∈ b, d < M.height) (parallel symmLoc : Bool) (md : Option (ℕ → Blk k))
    (hl : groups.length = 3 ∨ symmLoc = true ∧ groups.length = 2) :
    ∃ S ord, mkHBS inv color M groups false parallel md = some S ∧ OrdOK inv M md groups false parallel ord ∧ ∀ st bw, StageEq S M symmLoc ord st bw := by
  have key : ∀ g, ∃ (S : BSm k) (L : List (BBlock k)), (∀ b ∈ g, b.Nodup) → mkBSm inv color M g parallel md = some S ∧ L.Perm (codeBlocks inv M md g) ∧
      (parallel = false → L = codeBlocks inv M md g) ∧ S.mat = M ∧
      order S false = L ∧ (order S true).Perm L ∧ ∀ b x, (order S true).foldl (stepRHS M b) x = L.reverse.foldl (stepRHS M b) x := by
    intro g
    by_cases h : ∀ b ∈ g, b.Nodup
    · obtain ⟨S, L, hSL⟩ := mkBSm_ord (M := M) inv color hcol g h parallel md
      exact ⟨S, L, fun _ => hSL⟩
    · exact ⟨⟨M, [], none⟩, [], fun h' => absurd h' h⟩
  choose Sg Lg hSL using key
  have hnd : ∀ g ∈ groups, ∀ b ∈ g, b.Nodup := fun g hg b hbg => (hb g hg b hbg).1
  have hmap : (groups.mapM fun g => mkBSm inv color M g parallel md) = some (groups.map Sg) :=
    RedTab.mapM_some_of groups _ Sg fun g hg => (hSL g (hnd g hg)).1
  refine ⟨.one (groups.map Sg), fun i => Lg (groups.getD i []), ?_, ?_, fun st bw => ?_⟩
  · rw [mkHBS, if_neg (by simp), hmap]; rfl
  · intro i g hg
    have : groups.getD i [] = g := by rw [List.getD_eq_getElem?_getD, hg]; rfl
    beta_reduce
    rw [this]
    have := hSL g (hnd g (List.mem_of_getElem? hg))
    exact ⟨this.2.1, fun h => this.2.2.1 (by simpa using h)⟩
  have hinL : ∀ g ∈ groups, ∀ B ∈ Lg g, ∀ d ∈ B.dofs, d < M.height := by
    intro g hg B hB d hd
    have := (hSL g (hnd g hg)).2.1.mem_iff.1 hB
    rw [codeBlocks, List.mem_map] at this
    obtain ⟨b, hbm, rfl⟩ := this
    exact (hb g hg b hbm).2 d ((List.mem_insertionSort (r := (· ≤ ·))).1 hd)
  have hrhs : ∀ g ∈ groups, ∀ (rev : Bool) x b, BlkGS.smoothImpl (Sg g) 1 rev x b = (if rev then (Lg g).reverse else Lg g).foldl (stepRHS M b) x := by
    intro g hg rev x b
    obtain ⟨_, _, _, hm, ho, _, hbk⟩ := hSL g (hnd g hg)
    show (order (Sg g) rev).foldl (stepRHS (Sg g).mat b) x = _
    rw [hm]
    cases rev
    · rw [ho]; rfl
    · exact hbk b x
  have hres : ∀ g ∈ groups, ∀ (rev : Bool) x r, smoothRES (Sg g) 1 rev x r = (if rev then (Lg g).reverse else Lg g).foldl (stepRES M) (x, r) := by
    intro g hg rev x r
    obtain ⟨_, _, _, hm, ho, hpm, hbk⟩ := hSL g (hnd g hg)
    show (order (Sg g) rev).foldl (stepRES (Sg g).mat) (x, r) = _
    rw [hm]
    cases rev
    · rw [ho]; rfl
    · rw [foldl_RES' hM hs _ fun B hB => hinL g hg B (hpm.mem_iff.1 hB), hbk, if_pos rfl,
        foldl_RES' hM hs _ fun B hB => hinL g hg B (List.mem_reverse.1 hB)]
  have hget : ∀ i < groups.length, groups.getD i [] ∈ groups ∧ (groups.map Sg)[i]? = some (Sg (groups.getD i [])) := by
    intro i hi
    have : groups.getD i [] = groups[i] := by rw [List.getD_eq_getElem?_getD, List.getElem?_eq_getElem hi]; rfl
    rw [this, List.getElem?_map, List.getElem?_eq_getElem hi]
    exact ⟨List.getElem_mem hi, rfl⟩
  have h0 : 0 < groups.length := by omega
  have h1 : 1 < groups.length := by omega
  have hlist : ∀ st bw, ∀ B ∈ stageList (fun i => Lg (groups.getD i [])) symmLoc st bw, ∀ d ∈ B.dofs, d < M.height := by
    intro st bw B hB
    unfold stageList at hB
    cases symmLoc
    · have hi : st.idx < groups.length := by cases st <;> simp [Stage.idx] <;> simp at hl <;> omega
      cases bw
      · exact hinL _ (hget _ hi).1 B hB
      · exact hinL _ (hget _ hi).1 B (List.mem_reverse.1 hB)
    · cases st
      · exact hinL _ (hget 0 h0).1 B hB
      · exact hinL _ (hget 1 h1).1 B (by simpa using hB)
      · exact hinL _ (hget 0 h0).1 B (List.mem_reverse.1 hB)
  constructor
  · intro x b
    cases symmLoc with
    | true =>
      cases st with
      | loc1 =>
        show ((groups.map Sg)[0]?).map (fun B => BlkGS.smoothImpl B 1 false x b) = _
        rw [(hget 0 h0).2, Option.map_some, hrhs _ (hget 0 h0).1]; rfl
      | loc2 =>
        show ((groups.map Sg)[0]?).map (fun B => BlkGS.smoothImpl B 1 true x b) = _
        rw [(hget 0 h0).2, Option.map_some, hrhs _ (hget 0 h0).1]; rfl
      | ex =>
        show ((groups.map Sg)[1]?).map (fun B => BlkGS.smoothImpl B 1 true (BlkGS.smoothImpl B 1 false x b) b) = _
        rw [(hget 1 h1).2, Option.map_some, hrhs _ (hget 1 h1).1, hrhs _ (hget 1 h1).1]
        simp [stageList]
    | false =>
      have hi : st.idx < groups.length := by cases st <;> simp [Stage.idx] <;> simp at hl <;> omega
      show ((groups.map Sg)[st.idx]?).map (fun B => if bw then BlkGS.smoothImpl B 1 true x b else BlkGS.smoothImpl B 1 false x b) = _
      rw [(hget _ hi).2, Option.map_some, hrhs _ (hget _ hi).1, hrhs _ (hget _ hi).1]
      cases bw <;> rfl
  · intro x r
    rw [← foldl_RES' hM hs _ (hlist st bw)]
    cases symmLoc with
    | true =>
      cases st with
      | loc1 =>
        show ((groups.map Sg)[0]?).map (fun B => smoothRES B 1 false x r) = _
        rw [(hget 0 h0).2, Option.map_some, hres _ (hget 0 h0).1]; rfl
      | loc2 =>
        show ((groups.map Sg)[0]?).map (fun B => smoothRES B 1 true x r) = _
        rw [(hget 0 h0).2, Option.map_some, hres _ (hget 0 h0).1]; rfl
      | ex =>
        show ((groups.map Sg)[1]?).map (fun B => smoothRES B 1 true (smoothRES B 1 false x r).1 (smoothRES B 1 false x r).2) = _
        rw [(hget 1 h1).2, Option.map_some, hres _ (hget 1 h1).1, hres _ (hget 1 h1).1]
        simp [stageList]
    | false =>
      have hi : st.idx < groups.length := by cases st <;> simp [Stage.idx] <;> simp at hl <;> omega
      show ((groups.map Sg)[st.idx]?).map (fun B => if bw then smoothRES B 1 true x r else smoothRES B 1 false x r) = _
      rw [(hget _ hi).2, Option.map_some, hres _ (hget _ hi).1, hres _ (hget _ hi).1]
      cases bw <;> rfl

/-- **C82**: the constructor succeeds, and the stages sweep over the groups -/
theorem mkHBS_ok {M : CSR (Blk k)} (hM : M.WF) (hs : Symm M) (inv : Inverter k) (color : List (List ℕ) → ℕ × List ℕ) (hcol : ColoringOK color)
    (groups : List (List (List ℕ)))
    (hb : ∀ g ∈ groups, ∀ b ∈ g, b.Nodup ∧ ∀ d ∈ b, d < M.height) (bs2 parallel symmLoc : Bool) (md : Option (ℕ → Blk k))
    (hl : groups.length = 3 ∨ symmLoc = true ∧ groups.length = 2) :
    ∃ S ord, mkHBS inv color M groups bs2 parallel md = some S ∧ OrdOK inv M md groups bs2 parallel ord ∧ ∀ st bw, StageEq S M symmLoc ord st bw := by
  cases bs2 with
  | false => exact mkHBS_one hM hs inv color hcol groups hb parallel symmLoc md hl
  | true =>
    obtain ⟨S, h1, h2⟩ := mkHBS_two hM hs inv color groups hb parallel symmLoc md hl
    refine ⟨S, _, h1, fun i g hg => ?_, h2⟩
    have : groups.getD i [] = g := by rw [List.getD_eq_getElem?_getD, hg]; rfl
    beta_reduce
    rw [this]
    exact ⟨List.Perm.refl _, fun _ => rfl⟩

end NgsAMG.HybSm
