import Verif.Props.LocBlock
import Verif.Props.RedTab

/-!
# C80: the sweeps of `BSmoother2` for blocks that may overlap
-/

namespace NgsAMG.BlkGS
open Matrix NgsAMG.GS NgsAMG.Spec

variable {k : ℕ}

/-- the object holds the groups `Gs` of blocks -/
structure LSm.Grouped (S : LSm k) (Gs : List (List (LBlock k))) : Prop where
  blocks : S.blocks = Gs.flatten
  fi : S.fi = fiOf (Gs.map List.length)

/-- the blocks of the groups with the numbers `gs`, in this order -/
def blocksOf (Gs : List (List (LBlock k))) (gs : List ℕ) : List (LBlock k) := gs.flatMap fun g => Gs.getD g []

theorem scanl_get (l : List ℕ) (a g : ℕ) (hg : g ≤ l.length) : (l.scanl (· + ·) a)[g]? = some (a + (l.take g).sum) := by
  induction l generalizing a g with
  | nil => simp only [List.length_nil, Nat.le_zero] at hg; subst hg; simp
  | cons x l ih =>
    cases g with
    | zero => simp
    | succ g =>
      rw [List.scanl_cons, List.getElem?_cons_succ, ih _ _ (by simpa using hg), List.take_succ_cons, List.sum_cons]
      congr 1; omega

theorem fi_get (Gs : List (List (LBlock k))) (g : ℕ) (hg : g ≤ Gs.length) : (fiOf (Gs.map List.length))[g]? = some (Gs.take g).flatten.length := by
  rw [fiOf, scanl_get _ _ _ (by simpa using hg), zero_add, List.length_flatten, List.map_take]

theorem foldlM_ids {σ : Type} (L : List (LBlock k)) (f : σ → LBlock k → σ) (ids : List ℕ) (T : List (LBlock k)) (h : ids.map (fun i => L[i]?) = T.map some) (s : σ) :
    ids.foldlM (fun s i => (L[i]?).map (f s)) s = some (T.foldl f s) := by
  induction ids generalizing T s with
  | nil =>
    have : T = [] := by simpa using h.symm
    subst this; rfl
  | cons i ids ih =>
    cases T with
    | nil => simp at h
    | cons B T =>
      rw [List.map_cons, List.map_cons, List.cons.injEq] at h
      rw [List.foldlM_cons, h.1, List.foldl_cons]
      exact ih T h.2 (f s B)

theorem range_blocks (Gs : List (List (LBlock k))) (g : ℕ) (hg : g < Gs.length) :
    (List.range' (Gs.take g).flatten.length ((Gs.take (g + 1)).flatten.length - (Gs.take g).flatten.length)).map (fun i => Gs.flatten[i]?) = (Gs.getD g []).map some := by
  have h1 : Gs.flatten = (Gs.take g).flatten ++ (Gs[g] ++ (Gs.drop (g + 1)).flatten) := by
    conv_lhs => rw [← List.take_append_drop g Gs, List.drop_eq_getElem_cons hg, List.flatten_append, List.flatten_cons]
  have h2 : (Gs.take (g + 1)).flatten.length = (Gs.take g).flatten.length + Gs[g].length := by
    rw [← List.take_concat_get' Gs g hg, List.flatten_append, List.length_append]; simp
  rw [h2, Nat.add_sub_cancel_left, List.getD_eq_getElem?_getD, List.getElem?_eq_getElem hg, Option.getD_some]
  refine List.ext_getElem? fun i => ?_
  rw [List.getElem?_map, List.getElem?_map]
  by_cases hi : i < Gs[g].length
  · rw [List.getElem?_range' hi, List.getElem?_eq_getElem hi, Option.map_some, Option.map_some, h1, Nat.one_mul, List.getElem?_append_right (Nat.le_add_right _ _),
      Nat.add_sub_cancel_left, List.getElem?_append_left hi, List.getElem?_eq_getElem hi]
  · rw [List.getElem?_eq_none (by simpa using hi), List.getElem?_eq_none (by simpa using hi)]; rfl

/-- the number of the first and the first after the last block of a group -/
def idsOf (Gs : List (List (LBlock k))) (g : ℕ) : List ℕ :=
  List.range' (Gs.take g).flatten.length ((Gs.take (g + 1)).flatten.length - (Gs.take g).flatten.length)

theorem flatMap_ids (Gs : List (List (LBlock k))) (gs : List ℕ) (hg : ∀ g ∈ gs, g < Gs.length) :
    (gs.flatMap (idsOf Gs)).map (fun i => Gs.flatten[i]?) = (blocksOf Gs gs).map some := by
  induction gs with
  | nil => rfl
  | cons g gs ih =>
    rw [List.flatMap_cons, List.map_append, ih fun g hg' => hg g (List.mem_cons_of_mem _ hg'), idsOf, range_blocks Gs g (hg g List.mem_cons_self), blocksOf, blocksOf,
      List.flatMap_cons, List.map_append]

/-- forward: the blocks of the groups, in the given order -/
theorem pass_forward {σ : Type} {S : LSm k} {Gs : List (List (LBlock k))} (hG : S.Grouped Gs) (gs : List ℕ) (hg : ∀ g ∈ gs, g < Gs.length) (f : σ → LBlock k → σ) (s : σ) :
    pass S gs false f s = some ((blocksOf Gs gs).foldl f s) := by
  have h1 : iterGroups S.fi gs false = some (gs.flatMap (idsOf Gs)) := by
    rw [iterGroups, RedTab.mapM_some_of _ _ (fun i => idsOf Gs (gs.getD i 0))]
    · rw [Option.map_some, List.flatMap_def]
      congr 2
      refine List.ext_getElem? fun i => ?_
      rw [List.getElem?_map, List.getElem?_map]
      by_cases hi : i < gs.length
      · rw [List.getElem?_range hi, List.getElem?_eq_getElem hi, Option.map_some, Option.map_some, List.getD_eq_getElem?_getD, List.getElem?_eq_getElem hi, Option.getD_some]
      · rw [List.getElem?_eq_none (by simpa using hi), List.getElem?_eq_none (by simpa using hi)]; rfl
    · intro i hi
      rw [List.mem_range] at hi
      have hlt := hg gs[i] (List.getElem_mem hi)
      rw [if_neg (by decide), List.getElem?_eq_getElem hi, Option.bind_some, hG.fi, fi_get Gs _ hlt.le, Option.bind_some, fi_get Gs _ hlt, Option.map_some, if_neg (by decide),
        List.getD_eq_getElem?_getD, List.getElem?_eq_getElem hi, Option.getD_some, idsOf]
  rw [pass, h1, Option.bind_some, hG.blocks]
  exact foldlM_ids _ f _ _ (flatMap_ids Gs gs hg) s

/-- backward, for groups with consecutive numbers: the reversed order -/
theorem pass_backward {σ : Type} {S : LSm k} {Gs : List (List (LBlock k))} (hG : S.Grouped Gs) (g m : ℕ) (hg : g + m ≤ Gs.length) (f : σ → LBlock k → σ) (s : σ) :
    pass S (List.range' g m) true f s = some ((blocksOf Gs (List.range' g m)).reverse.foldl f s) := by
  have h1 : iterGroups S.fi (List.range' g m) true = some ((List.range' g m).flatMap (idsOf Gs)).reverse := by
    rw [iterGroups, RedTab.mapM_some_of _ _ (fun i => (idsOf Gs (g + m - 1 - i)).reverse)]
    · rw [Option.map_some, List.reverse_flatMap, List.reverse_range', List.flatMap_def, List.length_range']
      congr 2
      rw [List.map_map]
      refine List.map_congr_left fun i hi => ?_
      rfl
    · intro i hi
      rw [List.mem_range, List.length_range'] at hi
      have h2 : (List.range' g m)[m - 1]? = some (g + m - 1) := by rw [List.getElem?_range' (by omega)]; congr 1; omega
      rw [if_pos rfl, List.length_range', h2, Option.bind_some, if_pos (by omega), Option.bind_some, hG.fi, fi_get Gs _ (by omega), Option.bind_some, fi_get Gs _ (by omega),
        Option.map_some, if_pos rfl, idsOf]
  rw [pass, h1, Option.bind_some, hG.blocks]
  refine foldlM_ids _ f _ _ ?_ s
  rw [List.map_reverse, flatMap_ids Gs _ (by intro g' hg'; rw [List.mem_range'_1] at hg'; omega), List.map_reverse]

/-- the blocks of one step: all in order or in reversed order, for symmetric steps afterwards the other way -/
def stepBlocks (L : List (LBlock k)) (reverse symm : Bool) : List (LBlock k) :=
  (if reverse then L.reverse else L) ++ if symm then (if reverse then L else L.reverse) else []

theorem pass_eq {σ : Type} {S : LSm k} {Gs : List (List (LBlock k))} (hG : S.Grouped Gs) (g m : ℕ) (hg : g + m ≤ Gs.length) (rev : Bool) (f : σ → LBlock k → σ) (s : σ) :
    pass S (List.range' g m) rev f s = some ((if rev then (blocksOf Gs (List.range' g m)).reverse else blocksOf Gs (List.range' g m)).foldl f s) := by
  cases rev
  · exact pass_forward hG _ (by intro g' hg'; rw [List.mem_range'_1] at hg'; omega) f s
  · exact pass_backward hG g m hg f s

theorem timesM_some {σ : Type} (f : σ → Option σ) (h : σ → σ) (hf : ∀ s, f s = some (h s)) (n : ℕ) (s : σ) : timesM f n s = some (times h n s) := by
  induction n generalizing s with
  | zero => rfl
  | succ n ih => rw [timesM, hf, Option.bind_some, ih, times]

theorem steps_eq {σ : Type} {S : LSm k} {Gs : List (List (LBlock k))} (hG : S.Grouped Gs) (g m : ℕ) (hg : g + m ≤ Gs.length) (rev symm : Bool) (f : σ → LBlock k → σ)
    (n : ℕ) (s : σ) :
    timesM (fun s => (pass S (List.range' g m) rev f s).bind fun s => if symm then pass S (List.range' g m) (!rev) f s else some s) n s =
      some ((List.replicate n (stepBlocks (blocksOf Gs (List.range' g m)) rev symm)).flatten.foldl f s) := by
  rw [← times_fold]
  refine timesM_some _ _ (fun s => ?_) n s
  rw [pass_eq hG g m hg, Option.bind_some, stepBlocks, List.foldl_append]
  cases symm
  · rfl
  · rw [if_pos rfl, pass_eq hG g m hg]
    cases rev <;> rfl

theorem foldl_upd {A : CSR (Blk k)} (L : List (LBlock k)) (hr : ∀ B ∈ L, B.Repr A) (b x : BVec k) :
    L.foldl (fun x B => B.upd b x) x = (L.map LBlock.toB).foldl (stepRHS A b) x := by
  induction L generalizing x with
  | nil => rfl
  | cons B L ih => rw [List.foldl_cons, List.map_cons, List.foldl_cons, ih (fun B h => hr B (List.mem_cons_of_mem _ h)), (hr B List.mem_cons_self).upd_eq]

theorem foldl_updRES {A : CSR (Blk k)} (hs : Symm A) (L : List (LBlock k)) (hr : ∀ B ∈ L, B.Repr A) (s : BVec k × BVec k) :
    L.foldl (fun s B => B.updRES s) s = (L.map LBlock.toB).foldl (stepRES A) s := by
  induction L generalizing s with
  | nil => rfl
  | cons B L ih => rw [List.foldl_cons, List.map_cons, List.foldl_cons, ih (fun B h => hr B (List.mem_cons_of_mem _ h)), (hr B List.mem_cons_self).updRES_eq hs]

theorem mem_blocksOf {Gs : List (List (LBlock k))} {gs : List ℕ} {B : LBlock k} (h : B ∈ blocksOf Gs gs) : B ∈ Gs.flatten := by
  rw [blocksOf, List.mem_flatMap] at h
  obtain ⟨g, _, hB⟩ := h
  rw [List.getD_eq_getElem?_getD] at hB
  cases h1 : Gs[g]? with
  | none => rw [h1] at hB; simp at hB
  | some G => rw [h1] at hB; exact List.mem_flatten.2 ⟨G, List.mem_of_getElem? h1, hB⟩

theorem mem_steps {L : List (LBlock k)} {rev symm : Bool} {n : ℕ} {B : LBlock k} (h : B ∈ (List.replicate n (stepBlocks L rev symm)).flatten) : B ∈ L := by
  rw [List.mem_flatten] at h
  obtain ⟨l, hl, hB⟩ := h
  rw [(List.mem_replicate.1 hl).2, stepBlocks] at hB
  cases rev <;> cases symm <;> simpa using hB

/-- **C80**: the sweep over consecutive groups is block Gauss-Seidel, for the order that `reverse` and `symm` ask for -/
theorem smoothSimple_correct {A : CSR (Blk k)} (hA : A.WF) {S : LSm k} {Gs : List (List (LBlock k))} (hG : S.Grouped Gs) (hr : ∀ B ∈ S.blocks, B.Repr A)
    (g m : ℕ) (hg : g + m ≤ Gs.length) (steps : ℕ) (rev symm : Bool) (x b : BVec k) :
    smoothSimple S (List.range' g m) steps rev symm x b =
      some (blockSweep A.width A.entry ((List.replicate steps (stepBlocks (blocksOf Gs (List.range' g m)) rev symm)).flatten.map LBlock.toSpec) x b) := by
  rw [smoothSimple, steps_eq hG g m hg, foldl_upd (A := A) _ fun B hB => hr B (by rw [hG.blocks]; exact mem_blocksOf (mem_steps hB)), foldl_spec A hA, List.map_map]
  rfl

/-- **C80**: the variant with residual computes the same and keeps the residual up to date -/
theorem smoothRESSimple_correct {A : CSR (Blk k)} (hA : A.WF) (hs : Symm A) {S : LSm k} {Gs : List (List (LBlock k))} (hG : S.Grouped Gs)
    (hr : ∀ B ∈ S.blocks, B.Repr A ∧ ∀ d ∈ B.dofs, d < A.height) (g m : ℕ) (hg : g + m ≤ Gs.length) (steps : ℕ) (rev symm : Bool) (x b : BVec k) :
    let x' := blockSweep A.width A.entry ((List.replicate steps (stepBlocks (blocksOf Gs (List.range' g m)) rev symm)).flatten.map LBlock.toSpec) x b
    smoothRESSimple S (List.range' g m) steps rev symm (x, b - mulBlock A.width A.entry x) = some (x', b - mulBlock A.width A.entry x') := by
  intro x'
  have hm : ∀ B ∈ (List.replicate steps (stepBlocks (blocksOf Gs (List.range' g m)) rev symm)).flatten, B ∈ S.blocks := by
    intro B hB; rw [hG.blocks]; exact mem_blocksOf (mem_steps hB)
  rw [smoothRESSimple, steps_eq hG g m hg, foldl_updRES hs _ fun B hB => (hr B (hm B hB)).1, ← multRow_eq A hA, foldl_RES A hA hs]
  · rw [foldl_spec A hA, List.map_map, multRow_eq A hA]; rfl
  · intro B hB
    obtain ⟨B', hB', rfl⟩ := List.mem_map.1 hB
    exact (hr B' (hm B' hB')).2

end NgsAMG.BlkGS
