import Verif.Model.BTM

/-!
# Model of nodal data on a distributed mesh

Source: `/repo/src/base/mesh/base_mesh.hpp:218-306` (`ScatterNodalData`, `AllreduceNodalData`),
`/repo/src/base/utils/utils_arrays_tables.hpp:377-436` (`sum_table`, `min_table`, `max_table`),
`/repo/src/base/mesh/alg_mesh.hpp:17-64` (`AttachedNodeData`).

Conventions: an array is a list, `none` is an access out of range. The exchanges are those of `Verif.Model.RedTab`.
-/

namespace NgsAMG.Nodal

open NgsAMG.EQC NgsAMG.RedTab NgsAMG.Exch NgsAMG.BTM

/-- what is used of the mesh: classes, `disp_eqc[NT]`, `disp_cross[NT]` -/
structure NMesh where
  T : List (List ℕ)
  dE : List ℕ
  dC : List ℕ

/-- base_mesh.hpp:101-112, `GetENodes<NT>(k)` and `GetCNodes<NT>(k)`: the numbers of the nodes of the class `k`, first those within the
class, then those between classes -/
def NMesh.nodesOf (M : NMesh) (k : ℕ) : List ℕ :=
  List.range' (M.dE.getD k 0) (M.dE.getD (k + 1) 0 - M.dE.getD k 0) ++
    List.range' (M.dE.getLastD 0 + M.dC.getD k 0) (M.dC.getD (k + 1) 0 - M.dC.getD k 0)

variable {α : Type}

/-- `row[C++] = avdata[nodes[l]]`, base_mesh.hpp:288-291, and 239-240 -/
def readRow (data : List α) (nodes : List ℕ) : Option (List α) := nodes.mapM (data[·]?)

/-- `avdata[nodes[l]] = row[C++]`, base_mesh.hpp:296-302, and 258-259 -/
def writeRow (data : List α) (nodes : List ℕ) (row : List α) : Option (List α) :=
  if nodes.length ≤ row.length ∧ ∀ n ∈ nodes, n < data.length then
    some ((nodes.zip row).foldl (fun a w => a.set w.1 w.2) data)
  else none

/-- base_mesh.hpp:271-292: the table that is reduced (`loc`: `apply_loc`) -/
def allredTab (M : NMesh) (loc : Bool) (data : List α) : Option (List (List α)) :=
  (List.range M.T.length).mapM fun k => if k = 0 ∧ loc = false then some [] else readRow data (M.nodesOf k)

/-- base_mesh.hpp:294: `ReduceTable` of the tables of all processes -/
def allredProg (np : ℕ) (M : ℕ → NMesh) (tab : ℕ → List (List α)) (red : List (List α) → List α) :=
  RedTab.prog np (fun p => (M p).T) tab fun _ _ ins => red ins

/-- base_mesh.hpp:269-270 and 295-303: the reduced data is written back -/
def allredBack (M : NMesh) (loc : Bool) (data : List α) (out : List (Option (List α))) : Option (List α) :=
  if M.T.length = 0 ∨ (M.T.length = 1 ∧ loc = false) then some data
  else (List.range M.T.length).foldlM (fun a k =>
    if k = 0 ∧ loc = false then some a else (out[k]?).join.bind fun row => writeRow a (M.nodesOf k) row) data

/-- utils_arrays_tables.hpp:377-436, `sum_table`, `min_table`, `max_table`: `f` is `+`, `min`, `max` -/
def combine (f : α → α → α) : List (List α) → Option (List α)
  | [] => some []
  | r :: rs => rs.foldlM (fun out row => if out.length ≤ row.length then some (List.zipWith f out row) else none) r

/-- base_mesh.hpp:224-249: the rows that are exchanged by `ScatterNodalData`; row 0 is empty. (The rows of classes of which this
process is not the master are only allocated; they have the size of what is received.) -/
def scatterTab (M : NMesh) (data : List α) : Option (List (List α)) :=
  (List.range M.T.length).mapM fun k => if k = 0 then some [] else readRow data (M.nodesOf k)

/-- the exchange of `ScatterNodalData`, base_mesh.hpp:236-252: the pattern of messages is that of `ScatterEQCData`; rows have to be of the
same size -/
def scatterProg (M : ℕ → NMesh) : List (DPhase (Option (List (List α))) (List (List α))) :=
  [eqcScatter (fun p => (M p).T) fun x y => x.length == y.length]

/-- base_mesh.hpp:221-223 and 253-262: received rows are written to the array -/
def scatterBack (M : NMesh) (rank : ℕ) (data : List α) (rows : List (List α)) : Option (List α) :=
  if M.T.length < 2 then some data
  else (List.range M.T.length).foldlM (fun a k =>
    if k = 0 ∨ isMaster rank (M.T.getD k []) = true then some a else (rows[k]?).bind fun row => writeRow a (M.nodesOf k) row) data

/-! ### data attached to a mesh -/

/-- `PARALLEL_STATUS` -/
inductive Stat
  | notParallel | distributed | cumulated
  deriving DecidableEq

/-- alg_mesh.hpp:46-63, the loop of `Distribute` on the process `rank`: data of classes it is not the master of is set to zero -/
def clearGhosts [Zero α] (M : NMesh) (rank : ℕ) (data : List α) : Option (List α) :=
  (List.range M.T.length).foldlM (fun a k =>
    if isMaster rank (M.T.getD k []) = true then some a
    else writeRow a (M.nodesOf k) ((M.nodesOf k).map fun _ => 0)) data

end NgsAMG.Nodal
