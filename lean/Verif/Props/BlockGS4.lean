import Verif.Props.BlockGS3

/-!
# C78: the shared memory parallel block Gauss-Seidel smoother has one result, that of the sweep over the colors
-/

namespace NgsAMG.BlkGS
open Matrix Par NgsAMG.GS NgsAMG.Spec

variable {k : ℕ}

/-- the unknowns of a block and those that are coupled to them -/
def Ext (A : CSR (Blk k)) (dofs : List ℕ) (i : ℕ) : Prop := i ∈ dofs ∨ ∃ d ∈ dofs, ∃ e ∈ A.row d, e.1 = i

theorem addCols_spec (cs : List ℕ) : ∀ dn : List ℕ, dn.Pairwise (· < ·) → ∃ r, addCols dn cs = some r ∧ r.Pairwise (· < ·) ∧ ∀ v, v ∈ r ↔ v ∈ dn ∨ v ∈ cs := by
  induction cs with
  | nil => exact fun dn h => ⟨dn, rfl, h, by simp⟩
  | cons c cs ih =>
    intro dn h
    obtain ⟨r, hr, h1, h2⟩ := SortedArray.find_correct c dn h
    by_cases hc : c ∈ dn
    · obtain ⟨i, hi, -⟩ := h1 hc
      obtain ⟨r', hr', hs, hm⟩ := ih dn h
      refine ⟨r', ?_, hs, fun v => ?_⟩
      · unfold addCols
        rw [hr, Option.bind_some, if_neg (by rw [hi]; simp), Option.bind_some, hr']
      · rw [hm, List.mem_cons]
        constructor
        · rintro (h | h)
          · exact Or.inl h
          · exact Or.inr (Or.inr h)
        · rintro (h | rfl | h)
          · exact Or.inl h
          · exact Or.inl hc
          · exact Or.inr h
    · obtain ⟨dn', hdn', hs', hp⟩ := SortedArray.insertSorted_correct c dn (h.imp le_of_lt)
      have hlt : dn'.Pairwise (· < ·) := by
        have hnd : dn'.Nodup := hp.nodup_iff.mpr (List.nodup_cons.mpr ⟨hc, h.imp ne_of_lt⟩)
        exact (List.pairwise_and_iff.mpr ⟨hs', hnd⟩).imp fun h => lt_of_le_of_ne h.1 h.2
      obtain ⟨r', hr', hs, hm⟩ := ih dn' hlt
      refine ⟨r', ?_, hs, fun v => ?_⟩
      · unfold addCols
        rw [hr, Option.bind_some, if_pos (h2 hc), hdn', Option.bind_some, hr']
      · rw [hm, hp.mem_iff, List.mem_cons, List.mem_cons]
        tauto

/-- the rows of `ext_blocks` are as documented: the block and one layer around it -/
theorem extBlock_spec (A : CSR (Blk k)) {dofs : List ℕ} (h : dofs.Pairwise (· < ·)) : ∃ r, extBlock A dofs = some r ∧ r.Pairwise (· < ·) ∧ ∀ v, v ∈ r ↔ Ext A dofs v := by
  obtain ⟨r, hr, hs, hm⟩ := addCols_spec (dofs.flatMap fun d => (A.row d).map Prod.fst) dofs h
  refine ⟨r, hr, hs, fun v => ?_⟩
  rw [hm]
  unfold Ext
  simp only [List.mem_flatMap, List.mem_map]

/-- what the sweep needs: blocks that are visited at the same time have disjoint neighbourhoods, every block is visited once -/
structure Colored (S : BSm k) (cs : List (List ℕ)) : Prop where
  once : cs.flatten.Perm (List.range S.blocks.length)
  disj : ∀ ids ∈ cs, ∀ i ∈ ids, ∀ j ∈ ids, i ≠ j → ∀ B B', S.blocks[i]? = some B → S.blocks[j]? = some B' → ∀ c, Ext S.mat B.dofs c → ¬ Ext S.mat B'.dofs c

/-- what is assumed about `ComputeColoring` (NGSolve): one color per set, not larger than the returned number, and sets of the same color are disjoint -/
def ColoringOK (color : List (List ℕ) → ℕ × List ℕ) : Prop :=
  ∀ E, (color E).2.length = E.length ∧ (∀ c ∈ (color E).2, c ≤ (color E).1) ∧
    ∀ i j : ℕ, i < E.length → j < E.length → i ≠ j → (color E).2.getD i 0 = (color E).2.getD j 0 → ∀ v ∈ E.getD i [], v ∉ E.getD j []

theorem colorTable_perm (mc : ℕ) (bc : List ℕ) (h : ∀ c ∈ bc, c ≤ mc) : (colorTable mc bc).flatten.Perm (List.range bc.length) := by
  have hnd : (colorTable mc bc).flatten.Nodup := by
    unfold colorTable
    rw [List.nodup_flatten]
    constructor
    · intro l hl
      obtain ⟨c, -, rfl⟩ := List.mem_map.mp hl
      exact List.nodup_range.filter _
    · rw [List.pairwise_map]
      refine List.nodup_range.imp ?_
      intro a b hab
      rw [List.disjoint_left]
      intro i hi hj
      have h1 := (List.mem_filter.mp hi).2
      have h2 := (List.mem_filter.mp hj).2
      rw [decide_eq_true_iff] at h1 h2
      exact hab (h1.symm.trans h2)
  refine List.perm_of_nodup_nodup_toFinset_eq hnd List.nodup_range ?_
  ext i
  simp only [List.mem_toFinset, List.mem_flatten, List.mem_range]
  constructor
  · rintro ⟨l, hl, hi⟩
    obtain ⟨c, -, rfl⟩ := List.mem_map.mp hl
    exact List.mem_range.mp (List.mem_filter.mp hi).1
  · intro hi
    refine ⟨_, List.mem_map.mpr ⟨bc.getD i 0, List.mem_range.mpr ?_, rfl⟩, List.mem_filter.mpr ⟨List.mem_range.mpr hi, by simp⟩⟩
    have : bc.getD i 0 ∈ bc := by
      rw [List.getD_eq_getElem?_getD, List.getElem?_eq_getElem hi]; exact List.getElem_mem hi
    have := h _ this
    omega

/-- **C78 (constructor).** With `parallel` the constructor succeeds for blocks without repetitions, and the colors are as the sweep needs them. -/
theorem mk_par (inv : ∀ n : ℕ, Matrix (Fin n × Fin k) (Fin n × Fin k) ℝ → Matrix (Fin n × Fin k) (Fin n × Fin k) ℝ) (color : List (List ℕ) → ℕ × List ℕ)
    (hcol : ColoringOK color) (A : CSR (Blk k)) (blocks : List (List ℕ)) (hb : ∀ b ∈ blocks, b.Nodup) (md : Option (ℕ → Blk k)) :
    ∃ S cs, mkBSm inv color A blocks true md = some S ∧ S.colors = some cs ∧ Colored S cs := by
  have hsort : ∀ b ∈ blocks, (b.insertionSort (· ≤ ·)).Pairwise (· < ·) := by
    intro b hbm
    have hnd : (b.insertionSort (· ≤ ·)).Nodup := (List.perm_insertionSort _ b).nodup_iff.mpr (hb b hbm)
    exact (List.pairwise_and_iff.mpr ⟨List.pairwise_insertionSort (· ≤ ·) b, hnd⟩).imp fun h => lt_of_le_of_ne h.1 h.2
  have hex : ∀ bs : List (List ℕ), (∀ b ∈ bs, b.Pairwise (· < ·)) → ∃ ext : List (List ℕ), bs.mapM (extBlock A) = some ext ∧
      List.Forall₂ (fun b e => ∀ v, v ∈ e ↔ Ext A b v) bs ext := by
    intro bs
    induction bs with
    | nil => exact fun _ => ⟨[], rfl, .nil⟩
    | cons b bs ih =>
      intro h
      obtain ⟨r, hr, -, hm⟩ := extBlock_spec A (h b (by simp))
      obtain ⟨ext, he, hf⟩ := ih fun b' h' => h b' (by simp [h'])
      refine ⟨r :: ext, ?_, .cons hm hf⟩
      rw [List.mapM_cons, hr, he]
      rfl
  obtain ⟨ext, he, hf⟩ := hex (blocks.map fun b => b.insertionSort (· ≤ ·)) (by
    intro b hbm
    obtain ⟨b', hb', rfl⟩ := List.mem_map.mp hbm
    exact hsort b' hb')
  obtain ⟨h1, h2, h3⟩ := hcol ext
  have hlen : ext.length = blocks.length := by rw [← hf.length_eq, List.length_map]
  refine ⟨⟨A, (blocks.map fun b => b.insertionSort (· ≤ ·)).map fun dofs => ⟨dofs, inv _ (diagOf A md dofs)⟩, some (colorTable (color ext).1 (color ext).2)⟩,
    colorTable (color ext).1 (color ext).2, ?_, rfl, ?_, ?_⟩
  · unfold mkBSm
    dsimp only
    rw [if_pos rfl, he]
    rfl
  · have := colorTable_perm _ _ h2
    rw [h1, hlen] at this
    simpa using this
  · intro ids hids i hi j hj hij B B' hB hB' c hc hc'
    obtain ⟨col, -, rfl⟩ := List.mem_map.mp hids
    obtain ⟨hi1, hi2⟩ := List.mem_filter.mp hi
    obtain ⟨hj1, hj2⟩ := List.mem_filter.mp hj
    rw [List.mem_range, h1] at hi1 hj1
    rw [decide_eq_true_iff] at hi2 hj2
    have get : ∀ i, i < ext.length → ∀ B : BBlock k, ((blocks.map fun b => b.insertionSort (· ≤ ·)).map fun dofs => (⟨dofs, inv _ (diagOf A md dofs)⟩ : BBlock k))[i]? = some B →
        ∀ v, v ∈ ext.getD i [] ↔ Ext A B.dofs v := by
      intro i hi B hB v
      rw [List.getElem?_map, Option.map_eq_some_iff] at hB
      obtain ⟨b, hb, rfl⟩ := hB
      rw [List.getElem?_eq_some_iff] at hb
      obtain ⟨hlt, rfl⟩ := hb
      rw [List.getD_eq_getElem?_getD, List.getElem?_eq_getElem hi]
      exact hf.get hlt hi v
    exact h3 i j hi1 hj1 hij (hi2.trans hj2.symm) c ((get i hi1 B hB c).mpr hc) ((get j hj1 B' hB' c).mpr hc')

theorem addOps_within {C : Type} [DecidableEq C] {F : C → Prop} {cell : C} (w : Buf k → Fin k → ℝ) (h : F cell) : ∀ o ∈ addOps cell w, o.Within F := by
  intro o ho
  unfold addOps at ho
  rcases List.mem_cons.mp ho with rfl | ho
  · exact h
  · rw [List.mem_singleton] at ho
    subst ho
    exact h

theorem progRHS_within (A : CSR (Blk k)) (b : BVec k) (B : BBlock k) : ∀ o ∈ progRHS A b B, o.Within (Ext A B.dofs) := by
  intro o ho
  unfold progRHS at ho
  rcases List.mem_append.mp ho with ho | ho
  · obtain ⟨j, -, ho⟩ := List.mem_flatMap.mp ho
    unfold readRHS at ho
    rcases List.mem_append.mp ho with ho | ho
    · rcases List.mem_cons.mp ho with rfl | ho
      · exact True.intro
      · obtain ⟨e, he, rfl⟩ := List.mem_map.mp ho
        exact Or.inr ⟨_, List.getElem_mem _, e, he, rfl⟩
    · rw [List.mem_singleton] at ho
      subst ho
      exact True.intro
  · obtain ⟨j, -, ho⟩ := List.mem_flatMap.mp ho
    exact addOps_within (F := Ext A B.dofs) (cell := B.dofs[j]) _ (Or.inl (List.getElem_mem _)) o ho

theorem progRES_within (A : CSR (Blk k)) (B : BBlock k) : ∀ o ∈ progRES A B, o.Within (Sum.elim (Ext A B.dofs) (Ext A B.dofs)) := by
  intro o ho
  unfold progRES at ho
  rcases List.mem_append.mp ho with ho | ho
  · rcases List.mem_append.mp ho with ho | ho
    · obtain ⟨j, -, rfl⟩ := List.mem_map.mp ho
      exact Or.inl (List.getElem_mem _)
    · obtain ⟨j, -, ho⟩ := List.mem_flatMap.mp ho
      obtain ⟨e, he, ho⟩ := List.mem_flatMap.mp ho
      exact addOps_within (F := Sum.elim (Ext A B.dofs) (Ext A B.dofs)) (cell := .inr e.1) _ (Or.inr ⟨_, List.getElem_mem _, e, he, rfl⟩) o ho
  · obtain ⟨j, -, ho⟩ := List.mem_flatMap.mp ho
    exact addOps_within (F := Sum.elim (Ext A B.dofs) (Ext A B.dofs)) (cell := .inl B.dofs[j]) _ (Or.inl (List.getElem_mem _)) o ho

/-- the tasks of one color are independent -/
theorem indep_phase {C : Type} [DecidableEq C] {S : BSm k} {ids : List ℕ} (f : BBlock k → List (Op C (Fin k → ℝ) (Buf k))) (F : BBlock k → C → Prop)
    (hw : ∀ B, ∀ o ∈ f B, o.Within (F B)) (hd : ∀ i ∈ ids, ∀ j ∈ ids, i ≠ j → ∀ B B', S.blocks[i]? = some B → S.blocks[j]? = some B' → ∀ c, F B c → ¬ F B' c) :
    Indep (fun i => if i ∈ ids then blockProg S f i else []) (fun i c => i ∈ ids ∧ ∃ B, S.blocks[i]? = some B ∧ F B c) := by
  constructor
  · intro i o ho
    split at ho
    · rename_i hi
      unfold blockProg at ho
      split at ho
      · rename_i B hB
        have := hw B o ho
        cases o with
        | rd c g => exact ⟨hi, B, hB, this⟩
        | wr c g => exact ⟨hi, B, hB, this⟩
        | lc g => exact True.intro
      · simp at ho
    · simp at ho
  · rintro i j hij c ⟨hi, B, hB, hc⟩ ⟨hj, B', hB', hc'⟩
    exact hd i hi j hj hij B B' hB hB' c hc hc'

/-- every possible result of the phases is that of the blocks one after the other -/
theorem phases_result {C : Type} [DecidableEq C] {S : BSm k} (f : BBlock k → List (Op C (Fin k → ℝ) (Buf k))) (F : BBlock k → C → Prop)
    (hw : ∀ B, ∀ o ∈ f B, o.Within (F B)) {σ : Type*} (emb : σ → C → Fin k → ℝ) (step : σ → BBlock k → σ)
    (hstep : ∀ B s l, (runOps (f B) (emb s, l)).1 = emb (step s B)) {todo : List (List ℕ)}
    (hn : ∀ ids ∈ todo, ids.Nodup)
    (hd : ∀ ids ∈ todo, ∀ i ∈ ids, ∀ j ∈ ids, i ≠ j → ∀ B B', S.blocks[i]? = some B → S.blocks[j]? = some B' → ∀ c, F B c → ¬ F B' c)
    {m m' : C → Fin k → ℝ} (h : Phases (blockProg S f) todo m m') (s : σ) (hm : m = emb s) :
    m' = emb ((todo.flatten.filterMap fun i => S.blocks[i]?).foldl step s) := by
  induction h generalizing s with
  | nil m => exact hm
  | cons ids todo m m' l0 t run done more ih =>
    subst hm
    have hI := indep_phase (S := S) (ids := ids) f F hw (hd ids (by simp))
    have h1 := interleave_seq hI run done (hn ids (by simp)) (fun i hi => if_neg hi)
    have h2 : ∀ (l : List ℕ) (s : σ), (∀ i ∈ l, i ∈ ids) → runSeq (fun i => if i ∈ ids then blockProg S f i else []) l0 l (emb s) = emb ((l.filterMap fun i => S.blocks[i]?).foldl step s) := by
      intro l
      induction l with
      | nil => exact fun _ _ => rfl
      | cons i l ihl =>
        intro s hl
        have hs : (runOps (if i ∈ ids then blockProg S f i else []) (emb s, l0 i)).1 = emb (([i].filterMap fun i => S.blocks[i]?).foldl step s) := by
          rw [if_pos (hl i (by simp))]
          unfold blockProg
          cases hB : S.blocks[i]? with
          | none => simp [hB, runOps]
          | some B => simp [hB, hstep]
        show runSeq _ l0 l (runOps (if i ∈ ids then blockProg S f i else []) (emb s, l0 i)).1 = _
        rw [hs, ihl _ fun j hj => hl j (by simp [hj]), ← List.foldl_append, ← List.filterMap_append]
        rfl
    rw [List.flatten_cons, List.filterMap_append, List.foldl_append]
    exact ih (fun ids' h => hn ids' (by simp [h])) (fun ids' h => hd ids' (by simp [h])) _ (h1.trans (h2 ids s fun _ h => h))

/-- and there is a result -/
theorem phases_exists {C : Type} [DecidableEq C] (prog : ℕ → List (Op C (Fin k → ℝ) (Buf k))) {todo : List (List ℕ)} (hn : ∀ ids ∈ todo, ids.Nodup) (m : C → Fin k → ℝ) :
    ∃ m', Phases prog todo m m' := by
  induction todo generalizing m with
  | nil => exact ⟨m, .nil m⟩
  | cons ids todo ih =>
    obtain ⟨t, ht, hd, -⟩ := exists_run (fun i => if i ∈ ids then prog i else []) (fun _ => ⟨0, 0⟩) m (hn ids (by simp)) fun i hi => if_neg hi
    obtain ⟨m', h⟩ := ih (fun ids' h => hn ids' (by simp [h])) t.mem
    exact ⟨m', .cons ids todo m m' _ t ht hd h⟩

theorem Colored.nodup {S : BSm k} {cs : List (List ℕ)} (h : Colored S cs) : ∀ ids ∈ cs, ids.Nodup :=
  (List.nodup_flatten.mp (h.once.nodup_iff.mpr List.nodup_range)).1

theorem mem_colorSeq {cs : List (List ℕ)} {rev : Bool} {steps : ℕ} {ids : List ℕ} (h : ids ∈ (List.replicate steps (colorSeq cs rev)).flatten) : ids ∈ cs := by
  obtain ⟨l, hl, hi⟩ := List.mem_flatten.mp h
  rw [List.eq_of_mem_replicate hl] at hi
  unfold colorSeq at hi
  split at hi
  · exact List.mem_reverse.mp hi
  · exact hi

theorem seq_order (S : BSm k) {cs : List (List ℕ)} (hc : S.colors = some cs) (steps : ℕ) (rev : Bool) :
    ((List.replicate steps (colorSeq cs rev)).flatten.flatten.filterMap fun i => S.blocks[i]?) = (List.replicate steps (order S rev)).flatten := by
  have h1 : order S rev = (colorSeq cs rev).flatten.filterMap fun i => S.blocks[i]? := by unfold order colorSeq; rw [hc]
  rw [h1]
  induction steps with
  | zero => rfl
  | succ n ih => rw [List.replicate_succ, List.replicate_succ, List.flatten_cons, List.flatten_cons, List.flatten_append, List.filterMap_append, ih]

/-- **C78.** However the tasks of a color are interleaved, the result is that of the sweep over the blocks in the order of the colors, which by C77 is block Gauss-Seidel. -/
theorem parSmooth_correct {S : BSm k} {cs : List (List ℕ)} (hc : S.colors = some cs) (hcol : Colored S cs) {steps : ℕ} {rev : Bool} {b x x' : BVec k}
    (h : ParSmooth S cs steps rev b x x') : x' = smoothImpl S steps rev x b := by
  have := phases_result (S := S) (progRHS S.mat b) (fun B => Ext S.mat B.dofs) (progRHS_within S.mat b) (fun x => x) (stepRHS S.mat b)
    (fun B s l => run_progRHS S.mat b B s l) (fun ids h => hcol.nodup ids (mem_colorSeq h))
    (fun ids h => hcol.disj ids (mem_colorSeq h)) h x rfl
  rw [this, seq_order S hc]
  unfold smoothImpl
  rw [times_fold]

/-- **C78 (residual version).** -/
theorem parSmoothRES_correct {S : BSm k} {cs : List (List ℕ)} (hc : S.colors = some cs) (hcol : Colored S cs) {steps : ℕ} {rev : Bool} {x r x' r' : BVec k}
    (h : ParSmoothRES S cs steps rev x r x' r') : (x', r') = smoothRES S steps rev x r := by
  have := phases_result (S := S) (progRES S.mat) (fun B => Sum.elim (Ext S.mat B.dofs) (Ext S.mat B.dofs)) (progRES_within S.mat)
    (fun s : BVec k × BVec k => Sum.elim s.1 s.2) (stepRES S.mat)
    (fun B s l => run_progRES S.mat B s.1 s.2 l) (fun ids h => hcol.nodup ids (mem_colorSeq h))
    (fun ids h i hi j hj hij B B' hB hB' c hc' => by
      cases c with
      | inl c => exact hcol.disj ids (mem_colorSeq h) i hi j hj hij B B' hB hB' c hc'
      | inr c => exact hcol.disj ids (mem_colorSeq h) i hi j hj hij B B' hB hB' c hc') h (x, r) rfl
  rw [seq_order S hc] at this
  unfold smoothRES
  rw [times_fold]
  have h1 : x' = (List.foldl (stepRES S.mat) (x, r) (List.replicate steps (order S rev)).flatten).1 := by
    funext i; exact congrFun this (.inl i)
  have h2 : r' = (List.foldl (stepRES S.mat) (x, r) (List.replicate steps (order S rev)).flatten).2 := by
    funext i; exact congrFun this (.inr i)
  rw [h1, h2]

/-- every sweep comes to its end -/
theorem parSmooth_exists {S : BSm k} {cs : List (List ℕ)} (hcol : Colored S cs) (steps : ℕ) (rev : Bool) (b x : BVec k) : ∃ x', ParSmooth S cs steps rev b x x' :=
  phases_exists _ (fun ids h => hcol.nodup ids (mem_colorSeq h)) x

theorem parSmoothRES_exists {S : BSm k} {cs : List (List ℕ)} (hcol : Colored S cs) (steps : ℕ) (rev : Bool) (x r : BVec k) :
    ∃ x' r', ParSmoothRES S cs steps rev x r x' r' := by
  obtain ⟨m', h⟩ := phases_exists (blockProg S (progRES S.mat)) (todo := (List.replicate steps (colorSeq cs rev)).flatten) (fun ids h => hcol.nodup ids (mem_colorSeq h)) (Sum.elim x r)
  exact ⟨fun i => m' (.inl i), fun i => m' (.inr i), by
    unfold ParSmoothRES
    rwa [show Sum.elim (fun i => m' (.inl i)) (fun i => m' (.inr i)) = m' from by funext c; cases c <;> rfl]⟩

/-- every block is visited once per sweep -/
theorem order_perm {S : BSm k} {cs : List (List ℕ)} (hc : S.colors = some cs) (hcol : Colored S cs) (rev : Bool) : (order S rev).Perm S.blocks := by
  have h1 : order S rev = (colorSeq cs rev).flatten.filterMap fun i => S.blocks[i]? := by unfold order colorSeq; rw [hc]
  have h2 : (colorSeq cs rev).flatten.Perm (List.range S.blocks.length) := by
    refine List.Perm.trans ?_ hcol.once
    unfold colorSeq
    split
    · exact (List.reverse_perm cs).flatten
    · exact List.Perm.refl _
  rw [h1]
  refine (h2.filterMap _).trans ?_
  have : ((List.range S.blocks.length).filterMap fun i => S.blocks[i]?) = S.blocks := by
    have : ∀ (l : List (BBlock k)), ((List.range l.length).filterMap fun i => l[i]?) = l := by
      intro l
      induction l with
      | nil => rfl
      | cons a l ih => simp [List.range_succ_eq_map, List.filterMap_map, Function.comp_def, ih]
    exact this _
  rw [this]

/-- the colors of the backward sweep in reversed order, the blocks within a color in any order: the same as the reversed order of all blocks -/
theorem back_order {S : BSm k} {cs : List (List ℕ)} (hc : S.colors = some cs) (hcol : Colored S cs) (b x : BVec k) :
    (order S true).foldl (stepRHS S.mat b) x = (order S false).reverse.foldl (stepRHS S.mat b) x := by
  have key : ∀ (todo : List (List ℕ)), (∀ ids ∈ todo, ids ∈ cs) → ∀ x : BVec k,
      (todo.flatten.filterMap fun i => S.blocks[i]?).foldl (stepRHS S.mat b) x = ((todo.map List.reverse).flatten.filterMap fun i => S.blocks[i]?).foldl (stepRHS S.mat b) x := by
    intro todo
    induction todo with
    | nil => exact fun _ _ => rfl
    | cons ids todo ih =>
      intro h x
      rw [List.map_cons, List.flatten_cons, List.flatten_cons, List.filterMap_append, List.filterMap_append, List.foldl_append, List.foldl_append,
        ih fun ids' h' => h ids' (by simp [h'])]
      congr 1
      have hids := h ids (by simp)
      have hI := indep_phase (S := S) (ids := ids) (progRHS S.mat b) (fun B => Ext S.mat B.dofs) (progRHS_within S.mat b) (hcol.disj ids hids)
      have hp := seq_perm hI (fun _ => ⟨0, 0⟩) (hcol.nodup ids hids) (List.reverse_perm ids).symm x
      have h2 : ∀ (l : List ℕ) (s : BVec k), (∀ i ∈ l, i ∈ ids) →
          runSeq (fun i => if i ∈ ids then blockProg S (progRHS S.mat b) i else []) (fun _ => ⟨0, 0⟩) l s = (l.filterMap fun i => S.blocks[i]?).foldl (stepRHS S.mat b) s := by
        intro l
        induction l with
        | nil => exact fun _ _ => rfl
        | cons i l ihl =>
          intro s hl
          show runSeq _ _ l (runOps (if i ∈ ids then blockProg S (progRHS S.mat b) i else []) (s, ⟨0, 0⟩)).1 = _
          rw [ihl _ fun j hj => hl j (by simp [hj]), if_pos (hl i (by simp))]
          unfold blockProg
          cases hB : S.blocks[i]? with
          | none => simp [hB, runOps]
          | some B => simp [hB, run_progRHS]
      rw [← h2 ids x fun _ h => h, ← h2 ids.reverse x fun i hi => List.mem_reverse.mp hi]
      exact hp
  have e1 : order S true = cs.reverse.flatten.filterMap fun i => S.blocks[i]? := by unfold order; rw [hc]; rfl
  have e2 : (order S false).reverse = (cs.reverse.map List.reverse).flatten.filterMap fun i => S.blocks[i]? := by
    unfold order
    rw [hc]
    simp only [Bool.false_eq_true, if_false]
    rw [← List.filterMap_reverse, List.reverse_flatten, List.map_reverse]
  rw [e1, e2]
  exact key _ (fun ids h => List.mem_reverse.mp h) x

end NgsAMG.BlkGS
