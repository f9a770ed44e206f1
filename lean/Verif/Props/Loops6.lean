import Verif.Props.Loops5

/-!
# Coarse loops: what goes in, what comes out, and what goes wrong (C98)
-/

namespace NgsAMG.Loop
open NgsAMG.Spec
variable {V F : Type} [LinearOrder V]
set_option linter.unusedSectionVars false

/-- the vertices of an entry of an edge-loop, in the direction in which it is run through: entry `e+1` is edge `e` in its own direction,
`-(e+1)` edge `e` the other way round -/
def entryVerts (edges : ℕ → ℕ × ℕ) (k : ℤ) : ℕ × ℕ := if 0 < k then edges (k.natAbs - 1) else (edges (k.natAbs - 1)).swap

/-- the coarse edges a process adds for a fine loop: those of its entries it is the master of, in their direction -/
theorem coarseTuples_eq (fedges : ℕ → ℕ × ℕ) (mine : ℕ → Bool) (vmap : ℕ → V) (loop : List ℤ) :
    coarseTuples fedges mine vmap loop =
      (((loop.filter fun k => mine (k.natAbs - 1)).map (entryVerts fedges)).map (Prod.map vmap vmap)).filter fun x => decide (x.1 ≠ x.2) := by
  induction loop with
  | nil => rfl
  | cons k t ih =>
    rw [coarseTuples, List.filterMap_cons] at *
    rw [List.filter_cons]
    by_cases hm : mine (k.natAbs - 1) = true
    · rw [if_pos hm, List.map_cons, List.map_cons, List.filter_cons]
      by_cases hv : vmap (fedges (k.natAbs - 1)).1 = vmap (fedges (k.natAbs - 1)).2
      · have h1 : coarseTuple fedges mine vmap k = none := by simp [coarseTuple, loopDecode, hm, hv]
        have h2 : (Prod.map vmap vmap (entryVerts fedges k)).1 = (Prod.map vmap vmap (entryVerts fedges k)).2 := by
          rw [entryVerts]; split_ifs
          · exact hv
          · exact hv.symm
        rw [h1, if_neg (by simpa using h2)]
        exact ih
      · have h1 : coarseTuple fedges mine vmap k = some (Prod.map vmap vmap (entryVerts fedges k)) := by
          rw [entryVerts]
          by_cases h0 : 0 < k
          · simp [coarseTuple, loopDecode, hm, hv, h0, Prod.map]
          · simp [coarseTuple, loopDecode, hm, hv, h0, Prod.map]
        have h2 : (Prod.map vmap vmap (entryVerts fedges k)).1 ≠ (Prod.map vmap vmap (entryVerts fedges k)).2 := by
          rw [entryVerts]; split_ifs
          · exact hv
          · exact fun h => hv h.symm
        rw [h1, if_pos (by simpa using h2)]
        simp only
        rw [ih]
    · have h1 : coarseTuple fedges mine vmap k = none := by simp [coarseTuple, loopDecode, hm]
      rw [h1, if_neg hm]
      exact ih

/-- **C98** (gathering). For every closed walk `w` of the whole mesh, any number of processes `ps` with their own numbering (`glob p`: the
vertices of process `p`) and their own parts of the loop in any order: if every step of the walk is an entry of exactly one process that is the master of it, then
what is gathered from the processes are the mapped steps of the walk. -/
theorem gathered {P : Type} (ps : List P) (vm : F → V) (w : List F) (glob : P → ℕ → F) (fedges : P → ℕ → ℕ × ℕ) (mine : P → ℕ → Bool) (loop : P → List ℤ)
    (h : (ps.flatMap fun p => (((loop p).filter fun k => mine p (k.natAbs - 1)).map (entryVerts (fedges p))).map (Prod.map (glob p) (glob p))).Perm (steps w)) :
    (ps.flatMap fun p => coarseTuples (fedges p) (mine p) (fun i => vm (glob p i)) (loop p)).Perm (pushSteps vm w) := by
  have e : (ps.flatMap fun p => coarseTuples (fedges p) (mine p) (fun i => vm (glob p i)) (loop p))
      = ((ps.flatMap fun p => (((loop p).filter fun k => mine p (k.natAbs - 1)).map (entryVerts (fedges p))).map (Prod.map (glob p) (glob p))).map (Prod.map vm vm)).filter
          fun x => decide (x.1 ≠ x.2) := by
    clear h
    induction ps with
    | nil => rfl
    | cons p ps ih =>
      rw [List.flatMap_cons, List.flatMap_cons, ih, List.map_append, List.filter_append, coarseTuples_eq]
      congr 2
      simp only [List.map_map]
      rfl
  rw [e, pushSteps]
  exact (h.map _).filter _

/-- **C98** (conversion to edges). If a process has all vertices of a loop and all of its edges (each between its two vertices, the one with the
smaller number first), the edge-loop runs through the same vertices in the same order. -/
theorem convert_correct (num : V → Option ℕ) (n : V → ℕ) (eid : ℕ → ℕ → Option ℕ) (cedges : ℕ → ℕ × ℕ) (l : List V)
    (hnum : ∀ v ∈ l, num v = some (n v)) (hdiff : ∀ x ∈ steps l, n x.1 ≠ n x.2)
    (hedge : ∀ x ∈ steps l, ∃ e, eid (n x.1) (n x.2) = some e ∧ cedges e = (min (n x.1) (n x.2), max (n x.1) (n x.2))) :
    (convertLoop num eid l).map (entryVerts cedges) = (steps l).map (Prod.map n n) := by
  induction l with
  | nil => rfl
  | cons a t ih =>
    cases t with
    | nil => rfl
    | cons b t =>
      have ih' := ih (fun v hv => hnum v (List.mem_cons_of_mem _ hv)) (fun x hx => hdiff x (by simp only [steps]; exact List.mem_cons_of_mem _ hx))
        (fun x hx => hedge x (by simp only [steps]; exact List.mem_cons_of_mem _ hx))
      obtain ⟨e, he, hce⟩ := hedge (a, b) (by simp [steps])
      have hab := hdiff (a, b) (by simp [steps])
      simp only [] at he hce hab
      rw [convertLoop, hnum a (by simp), hnum b (by simp)]
      simp only [he, steps, List.map_cons]
      rw [ih']
      congr 1
      rw [entryVerts, loopEncode]
      by_cases hlt : n a < n b
      · have hk : (0 : ℤ) < (e : ℤ) + 1 := by omega
        have hn : ((e : ℤ) + 1).natAbs - 1 = e := by omega
        rw [if_pos hlt, if_pos hk, hn, hce, min_eq_left hlt.le, max_eq_right hlt.le]
        rfl
      · have hk : ¬ (0 : ℤ) < -(e : ℤ) - 1 := by omega
        have hn : (-(e : ℤ) - 1).natAbs - 1 = e := by omega
        have hlt' : n b < n a := by omega
        rw [if_neg hlt, if_neg hk, hn, hce, min_eq_right hlt'.le, max_eq_left hlt'.le]
        rfl

/-! ### an example: a walk of nine vertices is mapped to two triangles that meet in a vertex -/

/-- a fine walk -/
def exWalk : List ℕ := [0, 1, 2, 3, 4, 5, 6, 7, 8, 0]

/-- the coarse vertices: fine vertices `2`, `3` and `6` are in the same one -/
def exVm (i : ℕ) : ℕ := [5, 1, 2, 2, 3, 4, 2, 7, 5].getD i 0

example : Closed exWalk := ⟨by decide, by decide⟩
example : pushSteps exVm exWalk = [(5, 1), (1, 2), (2, 3), (3, 4), (4, 2), (2, 7), (7, 5)] := by decide
example : coarseLoops [pushSteps exVm exWalk] = some [[1, 5, 7, 2, 1], [2, 3, 4, 2]] := by decide +kernel

/-- the theorem applies to it, with the edges in another order -/
example : ∃ R, coarseLoops [[(4, 2), (2, 3), (7, 5), (5, 1), (1, 2), (3, 4), (2, 7)]] = some R ∧ R.Nodup ∧
    (∀ l ∈ R, SimpleLoop l ∧ 4 ≤ l.length ∧ (∃ v, l.head? = some v ∧ ∀ x ∈ l, v ≤ x) ∧
      ∃ w ∈ [exWalk], (∀ x ∈ steps l, x ∈ pushSteps exVm w) ∨ (∀ x ∈ steps l, x.swap ∈ pushSteps exVm w)) ∧
    ∀ w ∈ [exWalk], Combination R (net (pushSteps exVm w)) :=
  coarseLoops_correct_partial exVm [exWalk] _ (List.Forall₂.cons ⟨⟨by decide, by decide⟩, by decide⟩ List.Forall₂.nil)

/-- two processes give parts of a square -/
example : (([false, true]).flatMap fun p => coarseTuples (fun e => if p then (e, e + 1) else (0, 3)) (fun e => p || decide (e = 0)) (fun i : ℕ => id (id i))
    (if p then [2, 3, 1] else [7, -1])).Perm (pushSteps id [0, 1, 2, 3, 0]) :=
  gathered [false, true] id [0, 1, 2, 3, 0] (fun _ i => i) _ _ _ (by decide)

example : (convertLoop (fun v : ℕ => some (10 - v)) (fun a b => some (a + b)) [1, 5, 7, 1]).map (entryVerts fun e => if e = 14 then (5, 9) else if e = 8 then (3, 5) else (3, 9))
    = [(9, 5), (5, 3), (3, 9)] := by decide

/-! ### what goes wrong -/

/-- **C98** (violated: writing out of bounds). Whenever a chunk is divided (at positions `first < last` of a repeated vertex), the second assignment to
the help array writes behind its end. -/
theorem split_overruns (c : List V) (first last : ℕ) (h2 : last < c.length) : ∃ i ∈ bndWritten c first last, bndSize c first last ≤ i := by
  refine ⟨bndSize c first last + (c.length - last) - 1, ?_, by omega⟩
  rw [bndWritten, List.mem_append, List.mem_range'_1]
  right
  rw [bndSize]
  omega

example : bndSize [1, 2, 3, 4, 2, 5, 1] 1 4 = 4 ∧ bndWritten [1, 2, 3, 4, 2, 5, 1] 1 4 = [0, 1, 2, 3, 4, 5, 6] := by decide

/-- **C98** (violated for open walks: a step that does not exist). The walk `1 → 9 → 3 → 4 → 9 → 5` is divided into the triangle and a loop
that goes from `5` back to `1`, although there is no such edge. -/
theorem open_invents : simpleLoops [(1, 9), (9, 3), (3, 4), (4, 9), (9, 5)] = some ([[9, 5, 1, 9], [9, 3, 4, 9]], [(1, 9), (9, 3), (3, 4), (4, 9), (9, 5)].map fun x => (false, x))
    ∧ (5, 1) ∉ [(1, 9), (9, 3), (3, 4), (4, 9), (9, 5)] ∧ (1, 5) ∉ [(1, 9), (9, 3), (3, 4), (4, 9), (9, 5)] := by
  refine ⟨by decide +kernel, by decide, by decide⟩

/-- **C98** (violated for open walks: an edge is lost). Of the walk `1 → 2 → 3 → 4 → 2` the edge `1 → 2` is in no loop; the sum of the loops is not
the sum of the edges. -/
theorem open_loses : coarseLoops [[(1, 2), (2, 3), (3, 4), (4, 2)]] = some [[2, 3, 4, 2]] ∧
    net [(1, 2), (2, 3), (3, 4), (4, 2)] 1 2 = 1 ∧ ¬ Combination [[2, 3, 4, 2]] (net [(1, 2), (2, 3), (3, 4), (4, 2)]) := by
  refine ⟨by decide +kernel, by decide, ?_⟩
  rintro ⟨c, hc⟩
  have := hc 1 2
  have h1 : net [(1, 2), (2, 3), (3, 4), (4, 2)] 1 2 = 1 := by decide
  have h2 : net (steps [2, 3, 4, 2]) 1 2 = 0 := by decide
  rw [h1, List.map_cons, List.map_nil, h2] at this
  simp at this

/-- **C98** (violated: the form of a loop depends on where it begins). The same triangle, begun at another vertex, gets the other direction. -/
theorem rotate_not_unique : SameLoop [1, 2, 3, 1] [2, 3, 1, 2] ∧ rotateVLoop [1, 2, 3, 1] = [1, 2, 3, 1] ∧ rotateVLoop [2, 3, 1, 2] = [1, 3, 2, 1] := by
  refine ⟨Or.inl ⟨1, by decide⟩, by decide, by decide⟩

/-- **C98** (violated: duplicates stay). Two fine loops with the same coarse edges, in another order: the coarse loop is there twice. -/
theorem duplicate_stays : coarseLoops [[(1, 2), (2, 3), (3, 1)], [(2, 3), (3, 1), (1, 2)]] = some [[1, 2, 3, 1], [1, 3, 2, 1]] ∧
    SameLoop [1, 2, 3, 1] [1, 3, 2, 1] := by
  refine ⟨by decide +kernel, Or.inr ⟨0, by decide⟩⟩

end NgsAMG.Loop
