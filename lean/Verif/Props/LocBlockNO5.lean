import Verif.Props.LocBlockNO4

/-!
# C81: contract of `BSmoother2` for blocks without common unknowns, and where the code violates it
-/

namespace NgsAMG.BlkGS
open Matrix NgsAMG.GS NgsAMG.Spec

variable {k : ℕ}

theorem times_upd {A : CSR (Blk k)} (hA : A.WF) (L : List (LBlock k)) (hr : ∀ B ∈ L, B.Repr A) (n : ℕ) (x b : BVec k) :
    times (fun x => L.foldl (fun x B => B.upd b x) x) n x = blockSweep A.width A.entry ((List.replicate n L).flatten.map LBlock.toSpec) x b := by
  rw [times_fold, foldl_upd (A := A) _ ?_, foldl_spec A hA, List.map_map]
  · rfl
  · intro B hB
    obtain ⟨l, hl, hB⟩ := List.mem_flatten.1 hB
    exact hr B ((List.mem_replicate.1 hl).2 ▸ hB)

theorem blockSweep_shift (A : CSR (Blk k)) (hA : A.WF) (L : List (SBlock k)) (x b : BVec k) :
    blockSweep A.width A.entry L x b = x + blockSweep A.width A.entry L 0 (b - mulBlock A.width A.entry x) := by
  rw [blockSweep_sweep A hA, blockSweep_sweep A hA, ← multRow_eq A hA]
  exact Sweep.sweep_shift _ _ _

theorem smoothFB_eq {A : CSR (Blk k)} (hA : A.WF) {S : LSm k} {Gs : List (List (LBlock k))} (hG : S.Grouped Gs) (hr : ∀ B ∈ S.blocks, B.Repr A) (steps : ℕ) (rev : Bool) (x b : BVec k) :
    smoothFB S S.all steps false rev x b = some (blockSweep A.width A.entry (List.replicate steps (sweepOrder (S.blocks.map LBlock.toSpec) rev false)).flatten x b) := by
  have h1 : ∀ n (x : BVec k), stepsZig (fun zig x => pass S S.all rev (fun x B => if zig then (if rev then B.fwZig b x else B.bwZig b x) else B.upd b x) x) n false x =
      some (times (fun x => (if rev then S.blocks.reverse else S.blocks).foldl (fun x B => B.upd b x) x) n x) := by
    intro n
    induction n with
    | zero => intro x; rfl
    | succ n ih =>
      intro x
      rw [stepsZig, pass_all hG, Option.bind_some, ih, times]
      rfl
  rw [smoothFB, h1, times_upd hA]
  · rw [List.map_flatten, List.map_replicate]
    congr 4
    cases rev <;> simp [sweepOrder]
  · intro B hB
    exact hr B (by cases rev <;> simpa using hB)

theorem smoothSYMM_eq {A : CSR (Blk k)} (hA : A.WF) {S : LSm k} {Gs : List (List (LBlock k))} (hG : S.Grouped Gs) (h : NOBlocks A S.blocks) (steps : ℕ) (z : Bool) (b x r : BVec k)
    (hz : z = true → x = 0) :
    (smoothSYMM S S.all steps z b (x, r)).map Prod.fst =
      some (blockSweep A.width A.entry (List.replicate steps (sweepOrder (S.blocks.map LBlock.toSpec) false true)).flatten x b) := by
  have hsp : (List.replicate steps (S.blocks ++ S.blocks.reverse)).flatten.map LBlock.toSpec = (List.replicate steps (sweepOrder (S.blocks.map LBlock.toSpec) false true)).flatten := by
    rw [List.map_flatten, List.map_replicate]; simp [sweepOrder]
  rw [← hsp, ← times_upd hA _ fun B hB => h.repr B (by simpa using hB)]
  rw [smoothSYMM]
  cases steps with
  | zero => rfl
  | succ n =>
    rw [stepsZig_some _ (fun z s => S.blocks.reverse.foldl (fun s B => (B.bwZig s.2 s.1, s.2)) (S.blocks.foldl (fun s B => if z then B.fwZigSavebL b s else B.savebL b s) s))]
    · rw [Option.map_some]
      congr 1
      rw [times_fst _ (fun x => (S.blocks ++ S.blocks.reverse).foldl (fun x B => B.upd b x) x)]
      · rw [symm_step h b z (x, r) hz]; rfl
      · intro s
        exact symm_step h b false s (by simp)
    · intro z s
      rw [pass_all hG, Option.bind_some, pass_all hG]
      rfl

theorem smoothSYMMCR_eq {A : CSR (Blk k)} (hA : A.WF) (hs : Symm A) (hsym : ∀ i j, (A.entry i j)ᵀ = A.entry i j) {S : LSm k} {Gs : List (List (LBlock k))} (hG : S.Grouped Gs)
    (h : NOBlocks A S.blocks) (hc : Covers A.height S.blocks) (n : ℕ) (b w r : BVec k) (hw : ∀ i, A.height ≤ i → w i = 0) :
    let u := blockSweep A.width A.entry (List.replicate (n + 1) (sweepOrder (S.blocks.map LBlock.toSpec) false true)).flatten 0 b
    ∃ r', smoothSYMMCR S S.all (n + 1) true b (w, r) = some (u, r') ∧ ∀ i < A.height, r' i = (b - multRow A u) i := by
  intro u
  have hsp : (List.replicate (n + 1) (S.blocks ++ S.blocks.reverse)).flatten.map LBlock.toSpec =
      (List.replicate (n + 1) (sweepOrder (S.blocks.map LBlock.toSpec) false true)).flatten := by
    rw [List.map_flatten, List.map_replicate]; simp [sweepOrder]
  have hu : u = times (fun x => (S.blocks ++ S.blocks.reverse).foldl (fun x B => B.upd b x) x) (n + 1) 0 := by
    rw [times_upd hA _ fun B hB => h.repr B (by simpa using hB), hsp]
  rw [smoothSYMMCR, stepsZig_some _ (fun z s => S.blocks.reverse.foldl (fun s B => B.subUSaveL s) (S.blocks.foldl (fun s B => if z then B.fwZigSavebL b s else B.savebL b s) s))]
  · have e1 : S.blocks.foldl (fun s B => if true then B.fwZigSavebL b s else B.savebL b s) (w, r) = S.blocks.foldl (fun s B => B.savebL b s) (0, r) :=
      symmCR_first hA hs h hc b w r hw
    have h1 := times_fst (fun s => S.blocks.reverse.foldl (fun s B => B.subUSaveL s) (S.blocks.foldl (fun s B => B.savebL b s) s))
      (fun x => (S.blocks ++ S.blocks.reverse).foldl (fun x B => B.upd b x) x) (fun s => (symmCR_step hA hs hsym h hc b s).1) (n + 1) (0, r)
    have h2 := times_inv (fun s => S.blocks.reverse.foldl (fun s B => B.subUSaveL s) (S.blocks.foldl (fun s B => B.savebL b s) s))
      (fun s => ∀ i < A.height, s.2 i = (b - multRow A s.1) i) (fun s => (symmCR_step hA hs hsym h hc b s).2) n (0, r)
    rw [times_succ', h1] at h2
    refine ⟨_, congrArg some (Prod.ext ?_ rfl), ?_⟩
    · dsimp only
      rw [e1, hu, ← h1]
      rfl
    · rw [e1, hu]
      exact h2
  · intro z s
    rw [pass_all hG, Option.bind_some, pass_all hG]
    rfl

theorem smoothCR_eq {A : CSR (Blk k)} (hA : A.WF) (hs : Symm A) (hsym : ∀ i j, (A.entry i j)ᵀ = A.entry i j) {S : LSm k} {Gs : List (List (LBlock k))} (hG : S.Grouped Gs)
    (h : NOBlocks A S.blocks) (hc : Covers A.height S.blocks) (n : ℕ) (b w r : BVec k) (hw : ∀ i, A.height ≤ i → w i = 0) :
    let u := blockSweep A.width A.entry (List.replicate (n + 1) (sweepOrder (S.blocks.map LBlock.toSpec) false false)).flatten 0 b
    ∃ r', smoothCR S S.all (n + 1) true false b (w, r) = some (u, r') ∧ ∀ i < A.height, r' i = (b - multRow A u) i := by
  intro u
  have hsp : (List.replicate (n + 1) S.blocks).flatten.map LBlock.toSpec = (List.replicate (n + 1) (sweepOrder (S.blocks.map LBlock.toSpec) false false)).flatten := by
    rw [List.map_flatten, List.map_replicate]; simp [sweepOrder]
  have hu : u = times (fun x => S.blocks.foldl (fun x B => B.upd b x) x) (n + 1) 0 := by
    rw [times_upd hA _ h.repr, hsp]
  rw [smoothCR, stepsZig_some _ (fun z s => S.blocks.foldl (fun s B => if z then B.fwZigSaveU b s else B.saveRows B.low b s) s)]
  · have e1 : S.blocks.foldl (fun s B => if true then B.fwZigSaveU b s else B.saveRows B.low b s) (w, r) = S.blocks.foldl (fun s B => B.saveRows B.low b s) (0, r) :=
      cr_first hA hs h hc b w r hw
    have h1 := times_fst (fun s => S.blocks.foldl (fun s B => B.saveRows B.low b s) s) (fun x => S.blocks.foldl (fun x B => B.upd b x) x)
      (fun s => (cr_step hA hs hsym h hc b s).1) (n + 1) (0, r)
    have h2 := times_inv (fun s => S.blocks.foldl (fun s B => B.saveRows B.low b s) s)
      (fun s => ∀ i < A.height, s.2 i = (b - multRow A s.1) i) (fun s => (cr_step hA hs hsym h hc b s).2) n (0, r)
    rw [times_succ', h1] at h2
    refine ⟨_, congrArg some (Prod.ext ?_ rfl), ?_⟩
    · dsimp only
      rw [e1, hu, ← h1]
      rfl
    · rw [e1, hu]
      exact h2
  · intro z s
    rw [pass_all hG]
    cases z <;> rfl

/-- **C81** (partial, see the violations below). Blocks without common unknowns that cover everything, with inverses of the diagonal blocks: the methods perform block
Gauss-Seidel and give the residual that is asked for, except for one direction and a start vector said to be zero, and for backward with residual -/
theorem smoothNO_correct_partial (inv : Inverter k) (A : CSR (Blk k)) (hA : A.WF) (hs : Symm A) (groups : List (List (List ℕ))) (hn : groups.flatten.flatten.Nodup)
    (hcov : ∀ j, j ∈ groups.flatten.flatten ↔ j < A.height)
    (hinv : ∀ dofs ∈ groups.flatten, (specBlock inv A none dofs).2 * diagBlock A.entry (specBlock inv A none dofs).1 = 1)
    (steps : ℕ) (hst : 0 < steps) (rev symm : Bool) (hrev : symm = true → rev = false) (x b res upd0 work : BVec k) (hw : ∀ i, A.height ≤ i → upd0 i = 0) (ru ur xz : Bool)
    (ht : Truthful A.width A.entry x b res ru xz) (hzig : ru = false → xz = true → symm = true)
    (hcr : ru = true → ur = true → (symm = true ∨ rev = false) ∧ ∀ i j, (A.entry i j)ᵀ = A.entry i j) :
    ∃ S, mkLSm inv A groups true none = some S ∧
      let x' := blockSweep A.width A.entry (List.replicate steps (sweepOrder (groups.flatten.map (specBlock inv A none)) rev symm)).flatten x b
      ∃ res', smooth2 S steps rev symm x b res upd0 work ru ur xz = some (x', res') ∧
        (ur = true → ∀ j < A.height, res' j = (b - mulBlock A.width A.entry x') j) ∧ (ru = true → ur = false → res' = res) := by
  obtain ⟨S, Gs, hS, hno, hG, hNO, hsp⟩ := (mkLSm_no inv A hA groups).2 hn hinv
  refine ⟨S, hS, ?_⟩
  rw [← hsp]
  intro x'
  have hmem : ∀ B ∈ S.blocks, ∃ dofs ∈ groups.flatten, B.dofs = dofs.insertionSort (· ≤ ·) := by
    intro B hB
    have : B.toSpec ∈ S.blocks.map LBlock.toSpec := List.mem_map_of_mem hB
    rw [hsp] at this
    obtain ⟨dofs, hd, he⟩ := List.mem_map.1 this
    exact ⟨dofs, hd, (congrArg Sigma.fst he).symm⟩
  have hmem' : ∀ dofs ∈ groups.flatten, ∃ B ∈ S.blocks, B.dofs = dofs.insertionSort (· ≤ ·) := by
    intro dofs hd
    have : specBlock inv A none dofs ∈ groups.flatten.map (specBlock inv A none) := List.mem_map_of_mem hd
    rw [← hsp] at this
    obtain ⟨B, hB, he⟩ := List.mem_map.1 this
    exact ⟨B, hB, congrArg Sigma.fst he⟩
  have hc : Covers A.height S.blocks := by
    constructor
    · intro j hj
      obtain ⟨dofs, hd, hjd⟩ := List.mem_flatten.1 ((hcov j).2 hj)
      obtain ⟨B, hB, he⟩ := hmem' dofs hd
      exact ⟨B, hB, by rw [he]; exact List.mem_insertionSort (r := (· ≤ ·)) |>.2 hjd⟩
    · intro B hB d hd
      obtain ⟨dofs, hdm, he⟩ := hmem B hB
      rw [he] at hd
      exact (hcov d).1 (List.mem_flatten.2 ⟨dofs, hdm, List.mem_insertionSort (r := (· ≤ ·)) |>.1 hd⟩)
  have hmult : ∀ j < A.height, S.mult j = 1 := by
    intro j hj
    rw [LSm.mult]
    obtain ⟨B, hB, hjB⟩ := hc.1 j hj
    obtain ⟨pre, post, hsplit⟩ := List.append_of_mem hB
    have hpw := hNO.pw
    rw [hsplit] at hpw ⊢
    rw [List.pairwise_append, List.pairwise_cons] at hpw
    rw [List.countP_append, List.countP_cons, if_pos (by simpa using hjB)]
    have z1 : pre.countP (fun B => decide (j ∈ B.dofs)) = 0 := by
      rw [List.countP_eq_zero]
      intro C hC
      have := (hpw.2.2 C hC B List.mem_cons_self).1 j
      simpa using fun hh => this hh hjB
    have z2 : post.countP (fun B => decide (j ∈ B.dofs)) = 0 := by
      rw [List.countP_eq_zero]
      intro C hC
      simpa using (hpw.2.1.1 C hC).1 j hjB
    rw [z1, z2]
  have hres : ∀ y j, j < A.height → multAddSys S (-1) y b j = (b - mulBlock A.width A.entry y) j := by
    intro y j hj
    rw [multAddSys_apply hNO.repr, hmult j hj, Nat.cast_one, one_smul, neg_smul, one_smul, ← sub_eq_add_neg, Pi.sub_apply, ← multRow_eq A hA]
    rfl
  rw [smooth2, if_pos hno, smoothNO]
  cases ru with
  | true =>
    rw [if_pos rfl]
    have hr0 := ht.1 rfl
    have hx : ∀ M : List (SBlock k), blockSweep A.width A.entry M x b = x + blockSweep A.width A.entry M 0 res := fun M => by rw [blockSweep_shift A hA, hr0]
    cases ur with
    | true =>
      rw [if_pos rfl]
      obtain ⟨n, rfl⟩ : ∃ n, steps = n + 1 := ⟨steps - 1, by omega⟩
      obtain ⟨hdir, hsym⟩ := hcr rfl rfl
      have hfin : ∀ u r' : BVec k, (∀ i < A.height, r' i = (res - multRow A u) i) → ∀ i < A.height, r' i = (b - mulBlock A.width A.entry (x + u)) i := by
        intro u r' hr' i hi
        rw [hr' i hi, hr0, ← multRow_eq A hA, ← multRow_eq A hA, show multRow A (x + u) = multRow A x + multRow A u from A.lin.map_add x u]
        simp only [Pi.sub_apply, Pi.add_apply]; abel
      cases symm with
      | true =>
        have hrv := hrev rfl
        subst hrv
        obtain ⟨r', h1, h2⟩ := smoothSYMMCR_eq hA hs hsym hG hNO hc n res upd0 res hw
        refine ⟨r', ?_, fun _ => ?_, by simp⟩
        · rw [if_pos rfl, h1, Option.map_some, show x' = _ from hx _]
        · rw [show x' = _ from hx _]; exact hfin _ r' h2
      | false =>
        have hrv : rev = false := hdir.resolve_left (by simp)
        subst hrv
        obtain ⟨r', h1, h2⟩ := smoothCR_eq hA hs hsym hG hNO hc n res upd0 res hw
        refine ⟨r', ?_, fun _ => ?_, by simp⟩
        · rw [if_neg (by simp), h1, Option.map_some, show x' = _ from hx _]
        · rw [show x' = _ from hx _]; exact hfin _ r' h2
    | false =>
      rw [if_neg (by simp)]
      refine ⟨res, ?_, by simp, fun _ _ => rfl⟩
      cases symm with
      | true =>
        have hrv := hrev rfl
        subst hrv
        rw [if_pos rfl]
        have h1 := smoothSYMM_eq hA hG hNO steps true res 0 work fun _ => rfl
        obtain ⟨s, h2, h3⟩ := Option.map_eq_some_iff.1 h1
        rw [h2, Option.map_some, h3, show x' = _ from hx _]
      | false => rw [if_neg (by simp), smoothFB_eq hA hG hNO.repr, Option.map_some, show x' = _ from hx _]
  | false =>
    rw [if_neg (by simp)]
    cases symm with
    | true =>
      have hrv := hrev rfl
      subst hrv
      rw [if_pos rfl]
      have h1 := smoothSYMM_eq hA hG hNO steps xz b x res ht.2
      obtain ⟨s, h2, h3⟩ := Option.map_eq_some_iff.1 h1
      rw [h2, Option.map_some, h3]
      refine ⟨_, rfl, fun hu j hj => ?_, by simp⟩
      rw [if_pos hu]
      exact hres _ j hj
    | false =>
      have hxz : xz = false := by
        cases xz
        · rfl
        · simpa using hzig rfl rfl
      subst hxz
      rw [if_neg (by simp), smoothFB_eq hA hG hNO.repr, Option.map_some]
      refine ⟨_, rfl, fun hu j hj => ?_, by simp⟩
      rw [if_pos hu]
      exact hres _ j hj

end NgsAMG.BlkGS
