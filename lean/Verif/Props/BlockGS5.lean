import Verif.Props.BlockGS4

/-!
# C78: backward sweep of the parallel smoother; `MultAdd` in parallel
-/

namespace NgsAMG.BlkGS
open Matrix Par NgsAMG.GS NgsAMG.Spec

variable {k : ℕ}

/-- **C78 (adjoint).** Every possible result of the backward sweep is the adjoint of every possible result of the forward sweep, although the blocks of a color
are not visited in reversed order. -/
theorem parBack_adjoint {S : BSm k} {cs : List (List ℕ)} (hA : S.mat.WF) (hs : Symm S.mat) (hc : S.colors = some cs) (hcol : Colored S cs)
    (hin : ∀ B ∈ S.blocks, ∀ d ∈ B.dofs, d < S.mat.height) (hsym : ∀ B ∈ S.blocks, B.dinvᵀ = B.dinv) {steps : ℕ} {b c x y : BVec k}
    (hx : ParSmooth S cs steps false b 0 x) (hy : ParSmooth S cs steps true c 0 y) : ip S.mat.width x c = ip S.mat.width b y := by
  rw [parSmooth_correct hc hcol hx, parSmooth_correct hc hcol hy]
  have hback : ∀ (n : ℕ) (u : BVec k), (List.replicate n (order S true)).flatten.foldl (stepRHS S.mat c) u =
      (List.replicate n (order S false).reverse).flatten.foldl (stepRHS S.mat c) u := by
    intro n
    induction n with
    | zero => exact fun _ => rfl
    | succ n ih =>
      intro u
      rw [List.replicate_succ, List.replicate_succ, List.flatten_cons, List.flatten_cons, List.foldl_append, List.foldl_append, ih, back_order hc hcol]
  unfold smoothImpl
  rw [times_fold, times_fold, hback, foldl_sweep, foldl_sweep]
  have hrev : (List.replicate steps (order S false).reverse).flatten = ((List.replicate steps (order S false)).flatten).reverse := by
    rw [List.reverse_flatten, List.map_replicate, List.reverse_replicate]
  rw [hrev]
  have hmem : ∀ B ∈ (List.replicate steps (order S false)).flatten, B ∈ S.blocks := by
    intro B hB
    obtain ⟨l, hl, hB⟩ := List.mem_flatten.mp hB
    rw [List.eq_of_mem_replicate hl] at hB
    exact (order_perm hc hcol false).mem_iff.mp hB
  exact sweep_adj S.mat hA hs _ (fun B hB => hin B (hmem B hB)) (fun B hB => hsym B (hmem B hB)) b c

/-- **C78 (energy).** For a symmetric positive definite matrix, exact inverses and blocks that cover all unknowns, every possible result of a sweep has an error of smaller energy. -/
theorem parSmooth_energy {S : BSm k} {cs : List (List ℕ)} (hA : S.mat.WF) (hs : Symm S.mat) (hp : SPD S.mat.width S.mat.entry) (hc : S.colors = some cs) (hcol : Colored S cs)
    (hin : ∀ B ∈ S.blocks, B.dofs.Nodup ∧ ∀ d ∈ B.dofs, d < S.mat.height) (hd : ∀ B ∈ S.blocks, B.dinv = (diagBlock S.mat.entry B.dofs)⁻¹)
    (hcov : ∀ i < S.mat.height, ∃ B ∈ S.blocks, i ∈ B.dofs) {rev : Bool} {x xs x' : BVec k} (hne : ∃ i < S.mat.width, xs i ≠ x i)
    (h : ParSmooth S cs 1 rev (mulBlock S.mat.width S.mat.entry xs) x x') :
    energy S.mat.width S.mat.entry (xs - x') < energy S.mat.width S.mat.entry (xs - x) := by
  have hm := order_perm hc hcol rev
  rw [parSmooth_correct hc hcol h]
  refine smooth_energy_lt S hA hs hp rev (fun B hB => hin B (hm.mem_iff.mp hB)) (fun B hB => hd B (hm.mem_iff.mp hB)) (fun i hi => ?_) x xs hne
  obtain ⟨B, hB, h⟩ := hcov i hi
  exact ⟨B, hm.mem_iff.mpr hB, h⟩

/-- what `MultAdd` is to compute: `x += s Σ_B D_B b_B` -/
noncomputable def jacobiSpec (blocks : List (BBlock k)) (s : ℝ) (b x : BVec k) : BVec k :=
  fun j c => x j c + s * (blocks.map fun B => ∑ p : Fin B.dofs.length, if B.dofs[p] = j then ∑ q, B.dinv (p, c) q * b B.dofs[q.1] q.2 else 0).sum

theorem multAdd_spec (S : BSm k) (s : ℝ) (b x : BVec k) : multAdd S s b x = jacobiSpec S.blocks s b x := by
  unfold multAdd jacobiSpec
  generalize S.blocks = L
  induction L generalizing x with
  | nil => funext j c; simp
  | cons B L ih =>
    rw [List.foldl_cons, ih]
    funext j c
    rw [addAt_apply, List.map_cons, List.sum_cons, mul_add, ← add_assoc]
    congr 2
    rw [Finset.mul_sum]
    refine Finset.sum_congr rfl fun p _ => ?_
    by_cases h : B.dofs[p] = j
    · rw [if_pos h, if_pos h]; rfl
    · rw [if_neg h, if_neg h, mul_zero]

theorem progMult_within (s : ℝ) (b : BVec k) (B : BBlock k) : ∀ o ∈ progMult s b B, o.Within (fun i => i ∈ B.dofs) := by
  intro o ho
  unfold progMult at ho
  rcases List.mem_append.mp ho with ho | ho
  · obtain ⟨j, -, rfl⟩ := List.mem_map.mp ho
    exact True.intro
  · obtain ⟨j, -, ho⟩ := List.mem_flatMap.mp ho
    exact addOps_within (F := fun i => i ∈ B.dofs) (cell := B.dofs[j]) _ (List.getElem_mem _) o ho

/-- **C78 (`MultAdd`).** If the blocks do not overlap, every possible result of `MultAdd` is the sum of the corrections of the blocks. -/
theorem parMultAdd_partial {S : BSm k} (hd : ∀ (i j : ℕ) (B B' : BBlock k), i ≠ j → S.blocks[i]? = some B → S.blocks[j]? = some B' → ∀ c ∈ B.dofs, c ∉ B'.dofs) {s : ℝ} {b x x' : BVec k}
    (h : ParMultAdd S s b x x') : x' = jacobiSpec S.blocks s b x := by
  have := phases_result (S := S) (progMult s b) (fun B i => i ∈ B.dofs) (progMult_within s b) (fun x => x)
    (fun x B => addAt B.dofs (s • (B.dinv *ᵥ fun p => b B.dofs[p.1] p.2)) x) (fun B x l => run_progMult s b B x l)
    (fun ids h => by rw [List.mem_singleton.mp h]; exact List.nodup_range)
    (fun ids _ i _ j _ hij B B' hB hB' c hc => hd i j B B' hij hB hB' c hc) h x rfl
  rw [this, ← multAdd_spec]
  unfold multAdd
  congr 1
  rw [List.flatten_singleton]
  have : ∀ (l : List (BBlock k)), ((List.range l.length).filterMap fun i => l[i]?) = l := by
    intro l
    induction l with
    | nil => rfl
    | cons a l ih => simp [List.range_succ_eq_map, List.filterMap_map, Function.comp_def, ih]
  exact this _

/-- the execution in which the tasks make their steps in the given order -/
def sched {C V L : Type*} [DecidableEq C] : List ℕ → St C V L → St C V L
  | [], s => s
  | i :: is, s => match s.rest i with
    | [] => sched is s
    | o :: p => sched is ⟨(o.exec (s.mem, s.loc i)).1, Function.update s.loc i (o.exec (s.mem, s.loc i)).2, Function.update s.rest i p⟩

theorem sched_run {C V L : Type*} [DecidableEq C] (is : List ℕ) (s : St C V L) : Relation.ReflTransGen Step s (sched is s) := by
  induction is generalizing s with
  | nil => exact .refl
  | cons i is ih =>
    unfold sched
    split
    · exact ih s
    · rename_i o p h
      exact .head (Step.mk s i o p h) (ih _)

/-- the inverses of the example applied to `1` -/
theorem exS_one (d : List ℕ) (h : d = [0, 1] ∨ d = [1, 2]) : ((diagBlock exM.entry d)⁻¹ *ᵥ fun _ => 1) = fun _ => 1 := by
  have hpd : (diagBlock exM.entry d).PosDef := by
    refine posDef_block exM exM_wf exM_symm exM_spd ?_ ?_
    · rcases h with rfl | rfl <;> simp
    · rcases h with rfl | rfl <;> simp [exM]
  have h1 : diagBlock exM.entry d *ᵥ (fun _ => 1) = fun _ => 1 := by
    funext p
    obtain ⟨p, c⟩ := p
    rw [mulVec, dotProduct, Fintype.sum_prod_type]
    have : c = 0 := Subsingleton.elim _ _
    subst this
    simp only [diagBlock, exM_entry]
    rcases h with rfl | rfl
    · have hp : p = 0 ∨ p = 1 := by
        rcases p with ⟨p, hp⟩
        have hp : p < 2 := hp
        have : p = 0 ∨ p = 1 := by omega
        rcases this with rfl | rfl
        · exact Or.inl rfl
        · exact Or.inr rfl
      rcases hp with rfl | rfl <;> (simp [Fin.sum_univ_succ, sc]; norm_num)
    · have hp : p = 0 ∨ p = 1 := by
        rcases p with ⟨p, hp⟩
        have hp : p < 2 := hp
        have : p = 0 ∨ p = 1 := by omega
        rcases this with rfl | rfl
        · exact Or.inl rfl
        · exact Or.inr rfl
      rcases hp with rfl | rfl <;> (simp [Fin.sum_univ_succ, sc]; norm_num)
  conv_lhs => rw [← h1]
  rw [mulVec_mulVec, Matrix.nonsing_inv_mul _ ((Matrix.isUnit_iff_isUnit_det _).1 hpd.isUnit), one_mulVec]

/-- an execution of `MultAdd` for the two blocks `{0,1}`, `{1,2}` of the example: the second block reads `x_1` before the first one has written it -/
noncomputable def exRace : St ℕ (Fin 1 → ℝ) (Buf 1) :=
  sched [0, 0, 0, 0, 0, 1, 1, 1, 1, 0, 1, 1] ⟨0, fun _ => ⟨0, 0⟩, fun i => if i ∈ List.range exS.blocks.length then blockProg exS (progMult 1 fun _ _ => 1) i else []⟩

theorem exRace_done : exRace.Done := by
  intro i
  by_cases h0 : i = 0
  · subst h0; rfl
  by_cases h1 : i = 1
  · subst h1; rfl
  have h2 : i ∉ List.range exS.blocks.length := by
    simp [exS]; omega
  have key : ∀ (is : List ℕ) (s : St ℕ (Fin 1 → ℝ) (Buf 1)), s.rest i = [] → (sched is s).rest i = [] := by
    intro is
    induction is with
    | nil => exact fun s h => h
    | cons j is ih =>
      intro s h
      unfold sched
      split
      · exact ih s h
      · rename_i o p hp
        apply ih
        show Function.update s.rest j p i = []
        by_cases hij : i = j
        · subst hij; rw [h] at hp; cases hp
        · rw [Function.update_of_ne hij]; exact h
  apply key
  exact if_neg h2

theorem exRace_mem : exRace.mem 1 0 = 1 := by
  have h : exRace.mem 1 = (0 : Fin 1 → ℝ) + (1 : ℝ) • fun c => ((diagBlock exM.entry [0, 1])⁻¹ *ᵥ fun p =>
      (Function.update (Function.update (0 : ℕ → Fin 1 → ℝ) 0 fun _ => 1) 1 fun _ => 1) p.1 p.2) (⟨1, by simp⟩, c) := rfl
  have e : (fun p : Fin [0, 1].length × Fin 1 => (Function.update (Function.update (0 : ℕ → Fin 1 → ℝ) 0 fun _ => 1) 1 fun _ => 1) p.1 p.2) = fun _ => 1 := by
    funext p
    obtain ⟨⟨p, hp⟩, c⟩ := p
    have hp : p < 2 := hp
    have : p = 0 ∨ p = 1 := by omega
    rcases this with rfl | rfl
    · rfl
    · rfl
  rw [h, e, exS_one _ (Or.inl rfl)]
  simp

/-- **C78 (`MultAdd`, violated).** For overlapping blocks `MultAdd` has executions in which an update is lost: the result is not the sum of the corrections. -/
theorem multAdd_race : ∃ x', ParMultAdd exS 1 (fun _ _ => 1) 0 x' ∧ x' 1 0 = 1 ∧ jacobiSpec exS.blocks 1 (fun _ _ => 1) 0 1 0 = 2 := by
  refine ⟨exRace.mem, .cons _ _ _ _ (fun _ => ⟨0, 0⟩) exRace (sched_run _ _) exRace_done (.nil _), exRace_mem, ?_⟩
  unfold jacobiSpec
  have h0 := exS_one [0, 1] (Or.inl rfl)
  have h1 := exS_one [1, 2] (Or.inr rfl)
  have e0 := congrFun h0 (⟨1, by simp⟩, 0)
  have e1 := congrFun h1 (⟨0, by simp⟩, 0)
  simp only [mulVec, dotProduct] at e0 e1
  simp only [exS, List.map_cons, List.map_nil, List.sum_cons, List.sum_nil]
  have t0 : (∑ p : Fin [0, 1].length, if [0, 1][p] = 1 then ∑ q, (diagBlock exM.entry [0, 1])⁻¹ (p, 0) q * 1 else 0) = 1 := by
    rw [Finset.sum_eq_single (⟨1, by simp⟩ : Fin [0, 1].length)]
    · exact (if_pos (by simp)).trans e0
    · rintro ⟨p, hp⟩ - hne
      have hp' : p < 2 := hp
      have : p = 0 := by
        have : p ≠ 1 := fun h => hne (Fin.ext h)
        omega
      subst this
      exact if_neg (by simp)
    · simp
  have t1 : (∑ p : Fin [1, 2].length, if [1, 2][p] = 1 then ∑ q, (diagBlock exM.entry [1, 2])⁻¹ (p, 0) q * 1 else 0) = 1 := by
    rw [Finset.sum_eq_single (⟨0, by simp⟩ : Fin [1, 2].length)]
    · exact (if_pos (by simp)).trans e1
    · rintro ⟨p, hp⟩ - hne
      have hp' : p < 2 := hp
      have : p = 1 := by
        have : p ≠ 0 := fun h => hne (Fin.ext h)
        omega
      subst this
      exact if_neg (by simp)
    · simp
  rw [t0, t1]
  norm_num

/-- the example with two blocks `{0}`, `{2}` of one color and a third one, `{1}`, of another color, as a coloring gives it -/
noncomputable def exP : BSm 1 := ⟨exM, [⟨[0], (diagBlock exM.entry [0])⁻¹⟩, ⟨[1], (diagBlock exM.entry [1])⁻¹⟩, ⟨[2], (diagBlock exM.entry [2])⁻¹⟩, ⟨[], 1⟩], some [[0, 3], [1], [2]]⟩

/-- the hypotheses of C78 hold for it: the neighbourhoods of the blocks `{0}` and `{2}` meet in `1`, so they have different colors -/
example : Colored exP [[0, 3], [1], [2]] := by
  constructor
  · show [0, 3, 1, 2].Perm [0, 1, 2, 3]
    decide
  · intro ids hids i hi j hj hij B B' hB hB' c hc hc'
    simp only [List.mem_cons, List.not_mem_nil, or_false] at hids
    rcases hids with rfl | rfl | rfl
    · simp only [List.mem_cons, List.not_mem_nil, or_false] at hi hj
      have : B.dofs = [] ∨ B'.dofs = [] := by
        rcases hi with rfl | rfl
        · rcases hj with rfl | rfl
          · exact absurd rfl hij
          · right; cases hB'; rfl
        · left; cases hB; rfl
      rcases this with h | h
      · rw [h] at hc; simp [Ext] at hc
      · rw [h] at hc'; simp [Ext] at hc'
    · rw [List.mem_singleton] at hi hj; exact hij (hi.trans hj.symm)
    · rw [List.mem_singleton] at hi hj; exact hij (hi.trans hj.symm)

/-- a function that colors as `ComputeColoring` is assumed to: every set has its own color -/
example : ColoringOK fun E => (E.length, List.range E.length) := by
  intro E
  refine ⟨by simp, fun c hc => ?_, fun i j hi hj hij h => ?_⟩
  · exact le_of_lt (List.mem_range.mp hc)
  · simp [List.getD_eq_getElem?_getD, hi, hj] at h
    exact absurd h hij

end NgsAMG.BlkGS
