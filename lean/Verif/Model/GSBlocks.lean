import Verif.Model.SortedArray
import Mathlib.Logic.Function.Basic
import Mathlib.Order.Nat

/-!
Model of the functions that build the blocks of the block smoothers: `StokesMesh::LoopBlocks`
(`/repo/src/stokes/common/stokes_mesh_impl.hpp`, blocks of loops for the smoother of the potential space),
`VertexAMGPC::GetGSBlocks` (`/repo/src/base/precond/amg_pc_vertex_impl.hpp`, blocks of vertices or of DOFs) and
`HDivStokesAMGPC::GetGSBlocks`, `GetFinestLevelGSBlocks` (`/repo/src/stokes/hdiv/hdiv_stokes_pc_impl.hpp`, blocks of DOFs).
`none` is undefined behaviour (an access outside of an array).  A `TableCreator` runs its loop body three times; the bodies
are deterministic and start from the same state, so one run is modelled, and the table is made from the list of its `Add`s.
-/

namespace NgsAMG.GSB

/-- `TableCreator::Add(row, x)` for all pairs in the given order, then `MoveTable`, for a creator without a given size
(stokes_mesh_impl.hpp:85, 134; hdiv_stokes_pc_impl.hpp:839, 857, 866, 921): as many rows as are needed -/
def mkTable (l : List (ℕ × ℕ)) : List (List ℕ) :=
  (List.range (l.foldl (fun m e => max m (e.1 + 1)) 0)).map fun r => (l.filter fun e => e.1 = r).map Prod.snd

/-- the same for a creator with a given size (amg_pc_vertex_impl.hpp:1190): a row outside of the table is undefined -/
def mkTableN (n : ℕ) (l : List (ℕ × ℕ)) : Option (List (List ℕ)) :=
  if l.all fun e => e.1 < n then some ((List.range n).map fun r => (l.filter fun e => e.1 = r).map Prod.snd) else none

/-! ### `LoopBlocks` -/

/-- one round of the loop over a loop, stokes_mesh_impl.hpp:103-114: the coarse edge of the fine edge `|s| - 1` is put into the
sorted array, if it is not yet there (`pos` is unsigned: the sentinel `-1` would be inserted at) -/
def collectStep (emap : List (Option ℕ)) (u : List ℕ) (s : ℤ) : Option (List ℕ) :=
  if s = 0 then none
  else match emap[s.natAbs - 1]? with
  | none => none
  | some none => some u
  | some (some c) =>
    match SortedArray.mergePos c u with
    | none => none
    | some .sentinel => none
    | some (.pos p) =>
      if 0 < p then
        match u[p - 1]? with
        | none => none
        | some v => if v = c then some u else SortedArray.arrayInsert u p c
      else SortedArray.arrayInsert u p c

/-- `ucfacets` of a loop, stokes_mesh_impl.hpp:102-114 -/
def collect (emap : List (Option ℕ)) (floop : List ℤ) : Option (List ℕ) := floop.foldlM (collectStep emap) []

/-- `cntblocks`, `ce2block` and what was added to `cblocks`, stokes_mesh_impl.hpp:85-86, 98 -/
structure St where
  cnt : ℕ
  ce2b : ℕ → Option ℕ
  adds : List (ℕ × ℕ)

/-- `if (ce2block[cenr] == -1) { ce2block[cenr] = cntblocks++; } cblocks.Add(ce2block[cenr], flnr);`,
stokes_mesh_impl.hpp:118-120 and 124-126 -/
def assign (f : ℕ) (S : St) (c : ℕ) : St :=
  match S.ce2b c with
  | none => ⟨S.cnt + 1, Function.update S.ce2b c (some S.cnt), S.adds ++ [(S.cnt, f)]⟩
  | some b => ⟨S.cnt, S.ce2b, S.adds ++ [(b, f)]⟩

/-- the loop over the coarse edges, stokes_mesh_impl.hpp:116-127; `ce2block[cenr]` exists, line 86: `ce2block` has one entry for each coarse edge -/
def assignAll (nce f : ℕ) (S : St) (u : List ℕ) : Option St :=
  if u.all fun c => c < nce then some (u.foldl (assign f) S) else none

/-- the loop is alone in a new block, `cblocks.Add(cntblocks++, flnr)`, stokes_mesh_impl.hpp:129-130 -/
def alone (f : ℕ) (S : St) : St := ⟨S.cnt + 1, S.ce2b, S.adds ++ [(S.cnt, f)]⟩

/-- the three cases for one loop, stokes_mesh_impl.hpp:116-130 -/
def loopStep (nce f : ℕ) (u : List ℕ) (S : St) : Option St :=
  match u with
  | [] => some (alone f S)
  | u => assignAll nce f S u

/-- the loop over all loops, stokes_mesh_impl.hpp:99-131, from loop `f` on -/
def loopsFrom (nce : ℕ) (emap : List (Option ℕ)) : ℕ → List (List ℤ) → St → Option St
  | _, [], S => some S
  | f, l :: ls, S => (collect emap l).bind fun u => (loopStep nce f u S).bind fun S => loopsFrom nce emap (f + 1) ls S

/-- `if (need_blocks) return blocks; else return Table<int>()`, stokes_mesh_impl.hpp:138-148 -/
def ifNeeded (blocks : List (List ℕ)) : List (List ℕ) := if blocks.any fun b => 1 < b.length then blocks else []

/-- `StokesMesh::LoopBlocks`, stokes_mesh_impl.hpp:70-149; `nce` is the number of coarse edges, `emap` the edge map (`-1` is
`none`), the loops hold signed edges (edge number plus one) -/
def loopBlocks (nce : ℕ) (emap : List (Option ℕ)) (loops : List (List ℤ)) : Option (List (List ℕ)) :=
  (loopsFrom nce emap 0 loops ⟨0, fun _ => none, []⟩).map fun S => ifNeeded (mkTable S.adds)

/-! ### `VertexAMGPC::GetGSBlocks` -/

/-- what `it_blocks` / `it_blocks_2` add, amg_pc_vertex_impl.hpp:1191-1214 and 1221-1228: for every vertex `k` with a coarse
vertex the DOFs of `k`, which are `k` itself on the coarse levels, the row `k` of `v2d_table` or `v2d_array[k]` on the finest
level (`dofs[k]`, a missing row is undefined); from vertex `k` on -/
def vertexAdds (dofs : List (List ℕ)) : ℕ → List (Option ℕ) → Option (List (ℕ × ℕ))
  | _, [] => some []
  | k, none :: vmap => vertexAdds dofs (k + 1) vmap
  | k, some cv :: vmap => (dofs[k]?).bind fun ds => (vertexAdds dofs (k + 1) vmap).map fun r => ds.map (fun d => (cv, d)) ++ r

/-- `VertexAMGPC::GetGSBlocks`, amg_pc_vertex_impl.hpp:1171-1269, with a coarse map that was saved: one block for each of the
`ncv` coarse vertices -/
def gsBlocks (ncv : ℕ) (vmap : List (Option ℕ)) (dofs : List (List ℕ)) : Option (List (List ℕ)) :=
  (vertexAdds dofs 0 vmap).bind (mkTableN ncv)

/-! ### `HDivStokesAMGPC::GetGSBlocks` -/

/-- `if (edgeDOFs.Size()) createBlocks.Add(cntBlocks++, edgeDOFs)`, hdiv_stokes_pc_impl.hpp:848-853, and the end of `addBlock`,
896-899: the number of the next block and what was added -/
def addNonempty (S : ℕ × List (ℕ × ℕ)) (ds : List ℕ) : ℕ × List (ℕ × ℕ) :=
  if ds.length ≠ 0 then (S.1 + 1, S.2 ++ ds.map fun d => (S.1, d)) else S

/-- `GetGSBlocks` on the coarse levels, hdiv_stokes_pc_impl.hpp:816-858: one block for every edge that has DOFs -/
def edgeBlocks (edgeDofs : List (List ℕ)) : List (List ℕ) := mkTable (edgeDofs.foldl addNonempty (0, [])).2

/-- the filter of `addBlock`, hdiv_stokes_pc_impl.hpp:881-894: DOF numbers that are not negative and free; a bit outside of
`freedofs` is undefined; no `freedofs` means that all are free -/
def validFree (free : Option (List Bool)) : List ℤ → Option (List ℕ)
  | [] => some []
  | d :: ds =>
    if 0 ≤ d then
      match free with
      | none => (validFree free ds).map (d.toNat :: ·)
      | some fr =>
        match fr[d.toNat]? with
        | none => none
        | some true => (validFree free ds).map (d.toNat :: ·)
        | some false => validFree free ds
    else validFree free ds

/-- `GetFinestLevelGSBlocks`, hdiv_stokes_pc_impl.hpp:861-922: one block for every facet and then for every element that has
free DOFs; the two arguments are what `GetDofNrs` returns for the facets and for the elements -/
def finestBlocks (free : Option (List Bool)) (facetDofs elDofs : List (List ℤ)) : Option (List (List ℕ)) :=
  ((facetDofs ++ elDofs).mapM (validFree free)).map fun ds => mkTable (ds.foldl addNonempty (0, [])).2

end NgsAMG.GSB
