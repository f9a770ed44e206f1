import Verif.Props.GSBlocks3
import Verif.Model.LocBlock

/-!
C110, part 4: the empty table of `StokesMesh::LoopBlocks` and the block smoother made with it (model of C80): nothing is smoothed.
-/

namespace NgsAMG.GSB

open BlkGS in
/-- a block smoother `BSmoother2` without blocks (amg_pc.cpp:1190) leaves the vector as it is, for every matrix, right hand side
and number of steps, and the residual it reports is the right hand side, whatever the vector is -/
theorem no_blocks_no_smoothing {k : ℕ} (inv : Inverter k) (A : CSR (Blk k)) (md : Option (ℕ → Blk k)) :
    ∃ S, mkLSm inv A [[]] false md = some S ∧ ∀ (steps : ℕ) (reverse symm : Bool) (x b : BVec k),
      smoothSimple S S.all steps reverse symm x b = some x ∧
      ∀ res, smoothWO S S.all steps reverse symm x b res false true = some (x, b) := by
  refine ⟨⟨A.height, [], [0, 0], false⟩, rfl, fun steps reverse symm x b => ?_⟩
  have hall : (⟨A.height, [], [0, 0], false⟩ : LSm k).all = [0] := rfl
  have hp : ∀ (r : Bool) (f : BVec k → LBlock k → BVec k) (y : BVec k),
      pass (⟨A.height, [], [0, 0], false⟩ : LSm k) [0] r f y = some y := by
    intro r f y
    have : iterGroups [0, 0] [0] r = some [] := by cases r <;> rfl
    rw [pass]
    show (iterGroups [0, 0] [0] r).bind _ = _
    rw [this]; rfl
  have hs : smoothSimple (⟨A.height, [], [0, 0], false⟩ : LSm k) [0] steps reverse symm x b = some x := by
    rw [smoothSimple]
    induction steps with
    | zero => rfl
    | succ n ih =>
      rw [timesM]
      have h1 : ((pass (⟨A.height, [], [0, 0], false⟩ : LSm k) [0] reverse (fun x B => B.upd b x) x).bind fun x =>
          if symm then pass (⟨A.height, [], [0, 0], false⟩ : LSm k) [0] (!reverse) (fun x B => B.upd b x) x else some x) = some x := by
        rw [hp, Option.bind_some]
        cases symm
        · rfl
        · rw [if_pos rfl, hp]
      rw [h1, Option.bind_some]
      exact ih
  rw [hall]
  refine ⟨hs, fun res => ?_⟩
  rw [smoothWO, if_neg (by simp), hs]
  rfl

/-- **C110, violated.** If no fine edge of a loop is mapped to a coarse edge (for instance on the level above a coarsest level
with one vertex), then for all loops the table is empty, so no loop is in a block. -/
theorem inner_loops_lost (nce : ℕ) (emap : List (Option ℕ)) (loops : List (List ℤ)) (hc : ∀ c, some c ∈ emap → c < nce)
    (hv : ∀ l ∈ loops, ∀ s ∈ l, s ≠ 0 ∧ s.natAbs - 1 < emap.length) (hi : ∀ f < loops.length, LoopInner emap loops f) :
    loopBlocks nce emap loops = some [] := by
  obtain ⟨T, hT, -, -, h⟩ := loopBlocks_together nce emap loops hc hv
  rw [hT, h.2]
  intro f g c hf _
  obtain ⟨l, hl, hlc⟩ := hf
  obtain ⟨l', hl', hn⟩ := hi f (List.getElem?_eq_some_iff.1 hl).1
  rw [hl] at hl'
  rw [← Option.some.inj hl'] at hn
  exact absurd hlc (hn c)

/-- **C110, violated.** "Every loop is in a block" fails for a valid coarse map and loops (a square of four elements around a
vertex, with the loop around it, and all elements become one coarse vertex). -/
theorem cover_refuted : ¬ ∀ (nce : ℕ) (emap : List (Option ℕ)) (loops : List (List ℤ)), (∀ c, some c ∈ emap → c < nce) →
    (∀ l ∈ loops, ∀ s ∈ l, s ≠ 0 ∧ s.natAbs - 1 < emap.length) →
    ∃ T, loopBlocks nce emap loops = some T ∧ ∀ f < loops.length, ∃ i, InBlock T i f := by
  intro h
  obtain ⟨T, hT, hc⟩ := h 0 [none, none, none, none] [[1, 2, 3, 4]] (by simp) (by decide)
  have e : loopBlocks 0 [none, none, none, none] [[1, 2, 3, 4]] = some [] := by decide +kernel
  rw [e] at hT
  obtain ⟨i, r, hr, -⟩ := hc 0 (by decide)
  rw [← Option.some.inj hT] at hr
  simp at hr

/-- every loop is in a block, if there are two different loops with a common coarse edge -/
theorem cover_partial (nce : ℕ) (emap : List (Option ℕ)) (loops : List (List ℤ)) (hc : ∀ c, some c ∈ emap → c < nce)
    (hv : ∀ l ∈ loops, ∀ s ∈ l, s ≠ 0 ∧ s.natAbs - 1 < emap.length)
    (h2 : ∃ f g c, f ≠ g ∧ LoopHas emap loops c f ∧ LoopHas emap loops c g) :
    ∃ T, loopBlocks nce emap loops = some T ∧ ∀ f, (∃ i, InBlock T i f) ↔ f < loops.length := by
  obtain ⟨T, hT, -, h3, h4⟩ := loopBlocks_together nce emap loops hc hv
  refine ⟨T, hT, h3 fun e => ?_⟩
  obtain ⟨f, g, c, hfg, hf, hg⟩ := h2
  exact hfg (h4.1 e f g c hf hg)

/-- the hypothesis of `cover_partial` is met -/
example : ∃ f g c, f ≠ g ∧ LoopHas [some 0, some 0] [[1], [-2]] c f ∧ LoopHas [some 0, some 0] [[1], [-2]] c g :=
  ⟨0, 1, 0, by decide, ⟨[1], rfl, 1, by simp, rfl⟩, ⟨[-2], rfl, -2, by simp, rfl⟩⟩

end NgsAMG.GSB
