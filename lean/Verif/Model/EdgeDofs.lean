import Verif.Model.Curl
import Mathlib.Logic.Function.Basic

/-!
Model of `StokesMesh::GetDofedEdgeUDofs` (`/repo/src/stokes/common/stokes_mesh_impl.hpp:220-309`): which processes share the degrees of
freedom of the edges. `none` is an access out of range. `ExchangePairWise` of NGSolve gives every process the row its neighbour has
for it (the one process case, 246-249, has no table). The stored result for a block size (223-232) is not modelled.
-/

namespace NgsAMG.EDofs
open NgsAMG.Curl

/-- the mesh of a process: equivalence classes from number 1 on with their distant processes and edges; ghost vertices and the vertices
of the edges -/
structure Proc where
  eqcs : List (List ℕ × List ℕ)
  gv : Option (ℕ → Bool)
  edges : List (ℕ × ℕ)

/-- the pairs of a distant process and an edge in the order in which the three nested loops visit them, stokes_mesh_impl.hpp:266-272 and
283-292 -/
def visits (P : Proc) : List (ℕ × ℕ) := P.eqcs.flatMap fun q => q.1.flatMap fun p => q.2.map fun e => (p, e)

/-- `e2dof[e]`, `none` (as entry) if the edge has no degree of freedom -/
def dofOf (P : Proc) (e : ℕ) : Option (Option ℕ) := (e2dof P.gv P.edges)[e]?

/-- `send_data`, stokes_mesh_impl.hpp:254-272 -/
def sendData (P : Proc) : Option (ℕ → List Bool) :=
  (visits P).foldlM (fun (s : ℕ → List Bool) pe => (dofOf P pe.2).map fun d => Function.update s pe.1 (s pe.1 ++ [d.isSome])) fun _ => []

/-- `if ((rd[..] == 1) && dofed_edges->Test(edge.id)) cdps.Add(e2dof[edge.id], p)`, stokes_mesh_impl.hpp:288-289 -/
def addDp (b : Bool) (d : Option ℕ) (p : ℕ) (adds : List (ℕ × ℕ)) : List (ℕ × ℕ) :=
  match b, d with
  | true, some d => adds ++ [(d, p)]
  | _, _ => adds

/-- one round of the loops at stokes_mesh_impl.hpp:284-290; the state is `perow` and what was added to `cdps` -/
def dpStep (P : Proc) (rd : ℕ → List Bool) (s : (ℕ → ℕ) × List (ℕ × ℕ)) (pe : ℕ × ℕ) : Option ((ℕ → ℕ) × List (ℕ × ℕ)) :=
  ((rd pe.1)[s.1 pe.1]?).bind fun b => (dofOf P pe.2).map fun d =>
    (Function.update s.1 pe.1 (s.1 pe.1 + 1), addDp b d pe.1 s.2)

/-- the additions to the table of distant processes, stokes_mesh_impl.hpp:279-295 -/
def dpAdds (P : Proc) (rd : ℕ → List Bool) : Option (List (ℕ × ℕ)) := ((visits P).foldlM (dpStep P rd) (fun _ => 0, [])).map Prod.snd

/-- all processes: what `r` has for its degrees of freedom, after `ExchangePairWise` (276) -/
def dofDps (Ps : ℕ → Proc) (r : ℕ) : Option (List (ℕ × ℕ)) :=
  (sendData (Ps r)).bind fun _ =>
    dpAdds (Ps r) fun p => ((sendData (Ps p)).map fun s => s r).getD []

/-- the degrees of freedom `ParallelDofs` (NGSolve) exchanges with `p`: those with `p` in their row, ascending -/
def exchangeDofs (n : ℕ) (adds : List (ℕ × ℕ)) (p : ℕ) : List ℕ := (List.range n).filter fun d => adds.contains (d, p)

end NgsAMG.EDofs
