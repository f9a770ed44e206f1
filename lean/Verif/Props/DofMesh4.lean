import Verif.Props.DofMesh3

/-!
# C95: the hierarchy from the chosen degrees of freedom (`BuildEQCH`); violations; examples
-/

namespace NgsAMG.DofM
open NgsAMG.Spec NgsAMG.EQC NgsAMG.BTM NgsAMG.DCC NgsAMG.HybSm NgsAMG.Exch NgsAMG.RedTab

/-! ### which degrees of freedom the hierarchy is made from -/

theorem lt_maxBits {bits : List Bool} {nd d : ℕ} (h : bits[d]? = some true) (hd : d < nd) : d < maxBits bits nd := by
  have hm : d ∈ setBits bits := mem_setBits.mpr h
  have hs : (setBits bits).Pairwise (· < ·) := (List.pairwise_lt_range).filter _
  obtain ⟨a, ha⟩ : ∃ a, (setBits bits).getLast? = some a := by
    cases hl : (setBits bits).getLast? with
    | none => rw [List.getLast?_eq_none_iff] at hl; rw [hl] at hm; cases hm
    | some a => exact ⟨a, rfl⟩
  obtain ⟨l, hl⟩ := List.getLast?_eq_some_iff.mp ha
  have hda : d ≤ a := by
    rw [hl] at hm hs
    rcases List.mem_append.mp hm with h1 | h1
    · exact ((List.pairwise_append.mp hs).2.2 d h1 a (by simp)).le
    · simp at h1; omega
  unfold maxBits
  rw [ha]
  simp only [Option.map_some, Option.getD_some]
  omega

/-- **C95** (hierarchy, chosen bits): if copies are chosen together, `BuildEQCH` makes the hierarchy from the same classes everywhere, and all chosen degrees of freedom are used. -/
theorem eqch_select {Q : PD} {bits : ℕ → List Bool}
    (hb : ∀ p < Q.np, ∀ q < Q.np, ∀ d < Q.ndof p, ∀ e < Q.ndof q, Q.glob p d = Q.glob q e → ((bits p)[d]? = some true ↔ (bits q)[e]? = some true)) :
    SelOK Q (fun p => maxBits (bits p) (Q.ndof p)) (fun p d => (bits p)[d]? == some true) ∧
      ∀ p, ∀ d < Q.ndof p, d ∈ setBits (bits p) → d < maxBits (bits p) (Q.ndof p) ∧ ((bits p)[d]? == some true) = true := by
  refine ⟨⟨fun p _ => by unfold maxBits; omega, ?_⟩, ?_⟩
  · intro p hp q hq d hd e he hg
    simp only [beq_iff_eq]
    constructor
    · rintro ⟨-, h⟩
      have := (hb p hp q hq d hd e he hg).mp h
      exact ⟨lt_maxBits this he, this⟩
    · rintro ⟨-, h⟩
      have := (hb p hp q hq d hd e he hg).mpr h
      exact ⟨lt_maxBits this hd, this⟩
  · intro p d hd hm
    rw [mem_setBits] at hm
    exact ⟨lt_maxBits hm hd, by simp [hm]⟩

/-- **C95, partial** (hierarchy, ranges): the same for ranges, if a degree of freedom in front of the end of the last range has all its copies in front of the end of the last range of their process.
Missing: other ranges, see `eqch_range_hangs`. -/
theorem eqch_range_partial {Q : PD} {ranges : ℕ → List (ℕ × ℕ)}
    (hb : ∀ p < Q.np, ∀ q < Q.np, ∀ d < Q.ndof p, ∀ e < Q.ndof q, Q.glob p d = Q.glob q e → (d < ((ranges p).getLastD (0, 0)).2 ↔ e < ((ranges q).getLastD (0, 0)).2)) :
    SelOK Q (fun p => maxRange (ranges p) (Q.ndof p)) (fun _ _ => true) := by
  refine ⟨fun p _ => by unfold maxRange; omega, ?_⟩
  intro p hp q hq d hd e he hg
  have := hb p hp q hq d hd e he hg
  unfold maxRange
  simp only [and_true]
  omega

/-- two processes; the second degrees of freedom of both are copies of each other -/
def hangPD : PD := ⟨2, fun p => if p = 0 then 3 else if p = 1 then 2 else 0, fun p d => if p = 0 then [10, 5, 11].getD d 0 else [12, 5].getD d 0⟩

/-- the ranges: on process 0 the third, on process 1 the first degree of freedom, both are on one process only -/
def hangRanges (p : ℕ) : List (ℕ × ℕ) := if p = 0 then [(2, 3)] else [(0, 1)]

theorem hang_classes : classesOfDofs hangPD (fun p => maxRange (hangRanges p) (hangPD.ndof p)) (fun _ _ => true) 0 = [[], [1]] ∧
    classesOfDofs hangPD (fun p => maxRange (hangRanges p) (hangPD.ndof p)) (fun _ _ => true) 1 = [[]] := by decide

theorem hangPD_WF : hangPD.WF := by
  have key : ∀ p < hangPD.np, ∀ q < hangPD.np, ∀ d < hangPD.ndof p, ∀ e < hangPD.ndof q, hangPD.glob p d = hangPD.glob q e → d = e := by decide
  refine ⟨by decide, ?_⟩
  intro p hp q hq d hd d' hd' e he e' he' h h' hlt
  have h1 := key p hp q hq d hd e he
  have h2 := key p hp q hq d' hd' e' he'
  have h3 := h1 (by assumption)
  have h4 := h2 (by assumption)
  omega

set_option synthInstance.maxHeartbeats 400000 in
set_option synthInstance.maxSize 1000 in
/-- **C95 fails** for ranges: copies are chosen together (no chosen degree of freedom has a copy), but on process 0 a degree of freedom that is not chosen lies in front of the chosen one, so its class is
used on process 0 and not on process 1: process 0 waits for a message from process 1 forever. No interleaving ends. -/
theorem eqch_range_hangs : hangPD.WF ∧ (∀ p < 2, ∀ q < 2, ∀ d < hangPD.ndof p, ∀ e < hangPD.ndof q, hangPD.glob p d = hangPD.glob q e → (d ∈ dofsOf (hangRanges p) ↔ e ∈ dofsOf (hangRanges q))) ∧
    ∀ fuel n s, Reach 2 (setupProg 2 fuel fun p => classesOfDofs hangPD (fun p => maxRange (hangRanges p) (hangPD.ndof p)) (fun _ _ => true) p)
        (initState fuel fun p => classesOfDofs hangPD (fun p => maxRange (hangRanges p) (hangPD.ndof p)) (fun _ _ => true) p) n s →
      ¬ Final 2 (setupProg 2 fuel fun p => classesOfDofs hangPD (fun p => maxRange (hangRanges p) (hangPD.ndof p)) (fun _ _ => true) p) s := by
  refine ⟨hangPD_WF, by decide, ?_⟩
  intro fuel n s hr
  have key : s.idx 0 = 0 ∧ s.chan 0 1 0 = none := by
    induction hr with
    | init => exact ⟨rfl, rfl⟩
    | step hr hst ih =>
      obtain ⟨i1, i2⟩ := ih
      cases hst with
      | start p ph hp hph hm =>
        refine ⟨i1, ?_⟩
        dsimp only
        rw [if_neg]
        · exact i2
        · rintro ⟨h1, h2, h3⟩
          subst h2
          rw [← h1] at hph
          simp only [setupProg, List.getElem?_cons_zero, Option.some.injEq] at hph
          subst hph
          simp only [newEqcPhase, hang_classes.2] at h3
          revert h3
          decide
      | finish p ph hp hph hm hrecv =>
        by_cases hp0 : p = 0
        · subst hp0
          exfalso
          rw [i1] at hph hrecv
          simp only [setupProg, List.getElem?_cons_zero, Option.some.injEq] at hph
          subst hph
          have := hrecv 1 (by simp only [newEqcPhase, hang_classes.1]; decide)
          rw [i2] at this
          cases this
        · refine ⟨by dsimp only; rw [Function.update_of_ne (Ne.symm hp0)]; exact i1, ?_⟩
          dsimp only
          rw [if_neg]
          · exact i2
          · rintro ⟨-, h2, -⟩
            exact hp0 h2.symm
  intro hf
  have := hf 0 (by decide)
  rw [key.1] at this
  simp [setupProg] at this

/-! ### violations -/

/-- **C95 fails** without diagonal entries: two vertices that are coupled; the edge is given twice, and the mesh has it twice (one process). -/
theorem edges_twice : edgePairs [[1], [0]] ⟨[some 0, some 1], [some 0, some 1]⟩ 1 2 (vertArr ⟨[some 0, some 1], [some 0, some 1]⟩) [0, 1] = some [(0, 1), (0, 1)] ∧
    (setEdgesDummy [(0, 1), (0, 1)]).nodes = [some (0, 1), some (0, 1)] := by
  constructor
  · decide +kernel
  · rfl

/-- **C95 fails** for a matrix that stores the lower triangle only (`SparseMatrixSymmetric`): the mesh has no edges. -/
theorem edges_none (nv : ℕ) (g : List (List ℕ)) (m : Maps) (dpv : ℕ) (vt : ℕ → Option (Option ℕ)) (sort : List ℕ) (hs : sort.length = nv)
    (hf : ∀ v < nv, ∃ d, firstDof m dpv v = some d ∧ d < g.length ∧ (g.getD d []).Pairwise (· < ·) ∧ d ∈ g.getD d [] ∧ ∀ c ∈ g.getD d [], c ≤ d) :
    edgePairs g m dpv nv vt sort = some [] := by
  have hv : (List.range nv).mapM (vertEdges g m dpv vt sort) = some ((List.range nv).map fun _ => []) := by
    refine RedTab.mapM_some_of _ _ _ fun v hv => ?_
    rw [List.mem_range] at hv
    obtain ⟨d, h1, h2, h3, h4, h5⟩ := hf v hv
    have hge : g.getD d [] = g[d] := by rw [List.getD_eq_getElem?_getD, List.getElem?_eq_getElem h2, Option.getD_some]
    rw [hge] at h3 h4 h5
    obtain ⟨cols, b1, b2, b3⟩ := behind_spec h3 h4
    have hc : cols = [] := List.eq_nil_iff_forall_not_mem.mpr fun c hc => by
      obtain ⟨q1, q2⟩ := (b3 c).mp hc
      have := h5 c q1
      omega
    subst hc
    unfold vertEdges
    rw [h1, Option.bind_some, List.getElem?_eq_getElem h2, Option.bind_some, b1, Option.bind_some, List.getElem?_eq_getElem (by omega), Option.bind_some]
    rfl
  unfold edgePairs
  rw [hv]
  simp

/-- a case of it: two coupled vertices -/
example : edgePairs [[0], [0, 1]] ⟨[some 0, some 1], [some 0, some 1]⟩ 1 2 (vertArr ⟨[some 0, some 1], [some 0, some 1]⟩) [0, 1] = some [] := by decide +kernel

/-! ### concrete cases -/

/-- two vertices with blocks of two and one degrees of freedom, the degrees of freedom 1..6 of 8; new numbers `[1, 0]` -/
example : updateTab ⟨[none, some 0, some 0, some 1, some 1, some 0, some 1, none], [some 1, some 2, some 5, some 3, some 4, some 6]⟩ 3 2 [1, 0] =
    some ⟨[none, some 1, some 1, some 0, some 0, some 1, some 0, none], [some 3, some 4, some 6, some 1, some 2, some 5]⟩ := by decide

/-- the numbering of it -/
theorem exLocal : Local 8 2 [2, 1] [1, 2, 3, 4, 5, 6] (fun v => 2 * v + 1) ⟨[none, some 0, some 0, some 1, some 1, some 0, some 1, none], [some 1, some 2, some 5, some 3, some 4, some 6]⟩
    [[0, 1], [0, 1, 2, 3], [2], [1, 3, 7], [4], [5], [6], [7]] where
  pos := by decide
  count := by decide
  asc := by decide
  lt := by decide
  maps := by
    refine ⟨by decide, by decide, ?_, by decide⟩
    intro k d v c hk hs
    have hkl := (List.getElem?_eq_some_iff.mp hk).1
    have : k = 0 ∨ k = 1 ∨ k = 2 ∨ k = 3 ∨ k = 4 ∨ k = 5 := by simp at hkl; omega
    rcases this with rfl | rfl | rfl | rfl | rfl | rfl <;> (simp at hk; simp [slot] at hs; obtain ⟨rfl, rfl⟩ := hs; subst hk; decide)
  isFirst := by
    intro v hv
    have : v = 0 ∨ v = 1 := by omega
    rcases this with rfl | rfl
    · exact ⟨0, by decide, by decide⟩
    · exact ⟨2, by decide, by decide⟩
  len := by decide
  rows := by decide
  diag := by decide
  symm := by decide

example : ∃ L, edgePairs [[0, 1], [0, 1, 2, 3], [2], [1, 3, 7], [4], [5], [6], [7]] ⟨[none, some 0, some 0, some 1, some 1, some 0, some 1, none], [some 1, some 2, some 5, some 3, some 4, some 6]⟩
    ([2, 1] : List ℕ).sum 2 (vertTab ⟨[none, some 0, some 0, some 1, some 1, some 0, some 1, none], [some 1, some 2, some 5, some 3, some 4, some 6]⟩ ([2, 1] : List ℕ).sum) [1, 0] = some L ∧
    (0, 1) ∈ L := by
  obtain ⟨L, h1, -, h3⟩ := edges_correct exLocal (sort := [1, 0]) (by decide) (Or.inl rfl)
  exact ⟨L, h1, (h3 (0, 1)).mpr ⟨by decide, 1, by decide, 0, by decide, by decide, by decide⟩⟩

/-- three processes, `exPD`: one degree of freedom per vertex, all vertices of a process coupled -/
theorem exLocals : ∀ p < exPD.np, Local (exPD.ndof p) (exPD.ndof p) [1] (List.range 3) id ⟨[some 0, some 1, some 2], [some 0, some 1, some 2]⟩ [[0, 1, 2], [0, 1, 2], [0, 1, 2]] := by
  intro p hp
  have hp3 : exPD.ndof p = 3 := by
    have : p = 0 ∨ p = 1 ∨ p = 2 := by change p < 3 at hp; omega
    rcases this with rfl | rfl | rfl <;> decide
  rw [hp3]
  refine ⟨by decide, by decide, by decide, by decide, ?_, ?_, by decide, by decide, by decide, by decide⟩
  · refine ⟨by decide, by decide, ?_, by decide⟩
    intro k d v c hk hs
    have hkl := (List.getElem?_eq_some_iff.mp hk).1
    have : k = 0 ∨ k = 1 ∨ k = 2 := by simp at hkl; omega
    rcases this with rfl | rfl | rfl <;> (simp at hk; simp [slot] at hs; obtain ⟨rfl, rfl⟩ := hs; subst hk; decide)
  · intro v hv
    exact ⟨v, by simp [hv], by simp [slot, hv, Nat.mod_one]⟩

/-- the hypotheses of `setUp_of_dofs`, `edges_total`, `alg_mesh_correct` are met, and there is a schedule that ends -/
example : ∃ (C : ℕ → Ctx) (M : ℕ → Verts) (edges : ℕ → List (ℕ × ℕ)) (items : ℕ → List Item) (n : ℕ) (s : _), SetUp (vertPD exPD exPD.ndof fun _ => id) (fun p => classesOfDofs exPD exPD.ndof (fun _ _ => true) p) C M ∧
    (∀ p < exPD.np, edgePairs [[0, 1, 2], [0, 1, 2], [0, 1, 2]] ⟨[some 0, some 1, some 2], [some 0, some 1, some 2]⟩ ([1] : List ℕ).sum (exPD.ndof p)
      (vertArr ⟨[some 0, some 1, some 2], [some 0, some 1, some 2]⟩) (M p).sort = some (edges p) ∧ (edges p).mapM (classify (C p)) = some (items p)) ∧
    DReach exPD.np (edgeProg exPD.np C items) (fun _ => {}) n s ∧ DFinal exPD.np (edgeProg exPD.np C items) s := by
  have hc : ∀ p < exPD.np, ∀ q < exPD.np, ∀ v < exPD.ndof p, ∀ e < exPD.ndof q, exPD.glob p (id v) = exPD.glob q e → ∃ w < exPD.ndof q, id w = e :=
    fun _ _ _ _ _ _ e he _ => ⟨e, he, rfl⟩
  obtain ⟨n, s, hr, hf⟩ := exists_final (setup_matched (fun p hp => (classes_eq exSel hp).1) (classes_consistent exSel)
    (show 2 ^ exPD.np + 1 ≤ 9 by decide)) (initState 9 fun p => classesOfDofs exPD exPD.ndof (fun _ _ => true) p)
  obtain ⟨C, M, hS, -⟩ := setUp_of_dofs exLocals hc exSel (fun p hp v hv => ⟨hv, rfl⟩) (show 2 ^ exPD.np + 1 ≤ 9 by decide) hr hf
  obtain ⟨edges, items, he⟩ := edges_total exLocals hS exPD_WF (vt := fun _ => vertArr ⟨[some 0, some 1, some 2], [some 0, some 1, some 2]⟩) (fun p _ => Or.inr ⟨rfl, rfl⟩)
  obtain ⟨n', s', h1, h2⟩ := dexists_final (matched (rows_of_tables (mesh_of_setup (vertPD_WF exPD_WF exLocals) hS).tabs)
    (fun p => tent (C p).T.length (items p)) (fun _ _ ins => (mergeBy smaller ins).getD []) (by intro p _; simp [tent]))
  exact ⟨C, M, edges, items, n', s', hS, he, h1, h2⟩

/-- `eqch_select`: the chosen bits of `exPD` are the same for copies -/
example : ∀ p < exPD.np, ∀ q < exPD.np, ∀ d < exPD.ndof p, ∀ e < exPD.ndof q, exPD.glob p d = exPD.glob q e →
    ((List.replicate (exPD.ndof p) true)[d]? = some true ↔ (List.replicate (exPD.ndof q) true)[e]? = some true) := by
  intro p _ q _ d hd e he _
  simp [List.getElem?_replicate, hd, he]

/-- `eqch_range_partial`: all degrees of freedom -/
example : ∀ p < exPD.np, ∀ q < exPD.np, ∀ d < exPD.ndof p, ∀ e < exPD.ndof q, exPD.glob p d = exPD.glob q e →
    (d < (([(0, exPD.ndof p)] : List (ℕ × ℕ)).getLastD (0, 0)).2 ↔ e < (([(0, exPD.ndof q)] : List (ℕ × ℕ)).getLastD (0, 0)).2) := by
  intro p _ q _ d hd e he _
  simp [hd, he]

end NgsAMG.DofM
