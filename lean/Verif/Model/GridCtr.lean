import Verif.Model.BTM
import Verif.Model.CtrMap

/-!
# Model of `GridContractMap`: groups of processes, the classes and the vertices of the contracted mesh

Source: `/repo/src/base/coarsening/grid_contract.cpp:18-200, 433-505, 909-1073`, `grid_contract.hpp:128-180`, `/repo/src/base/factory/nodal_factory_impl.hpp:43-80, 180-222`.

`none` is an access out of range, a value that was never set, or a search that does not end. Edges (506-860) are not modelled except for `annoyClass`. The identifiers of classes are `size_t` but are stored
as `int` in `gids` (961): they are assumed to fit. The tables and meshes of the members arrive at the master as they are (`Send`/`Recv` of a table, of an array and of a `BlockTM`).
-/

namespace NgsAMG.GCtr
open NgsAMG.EQC NgsAMG.BTM

/-! ### `PartitionProcsMETIS` -/

/-- `arra[partition[k]] = min2(arra[partition[k]], k)`, grid_contract.cpp:163-171: the lowest rank of each part -/
def minRanks (np nparts lo : ℕ) (part : ℕ → ℕ) : Option (List ℕ) :=
  (List.range' lo (np - lo)).foldlM (fun a k => if part k < a.length then some (a.modify (part k) (min · k)) else none) (List.replicate nparts np)

/-- `QuickSortI(arra, arrb); arra[arrb[k]] = k`, grid_contract.cpp:172-173: the place of each part -/
def places (sortI : List ℕ → List ℕ) (arra : List ℕ) : List ℕ := (sortI arra).zipIdx.foldl (fun a e => a.set e.1 e.2) arra

/-- `TableCreator::Add(row, p)` for all pairs in the given order, then `MoveTable`: as many rows as are needed -/
def mkTable {α : Type} (l : List (ℕ × α)) : List (List α) :=
  (List.range (l.foldl (fun m e => max m (e.1 + 1)) 0)).map fun r => (l.filter fun e => e.1 = r).map Prod.snd

/-- `PartitionProcsMETIS`, grid_contract.cpp:18-200; `part` is what METIS returns -/
def partitionProcs (sortI : List ℕ → List ℕ) (np nparts : ℕ) (sepP0 : Bool) (part : ℕ → ℕ) : Option (List (List ℕ)) :=
  if nparts = 0 ∨ np = 0 then none
  else if nparts = 1 then some [List.range np]
  else if sepP0 && nparts == 2 then some [[0], List.range' 1 (np - 1)]
  else
    (minRanks np nparts (if sepP0 then 1 else 0) part).bind fun arra =>
      let pl := places sortI arra
      if sepP0 then ((List.range' 1 (np - 1)).mapM fun p => (pl[part p]?).map fun g => (g + 1, p)).map fun l => mkTable ((0, 0) :: l)
      else ((List.range np).mapM fun p => (pl[part p]?).map fun g => (g, p)).map mkTable

/-! ### `BuildCEQCH` -/

/-- `proc_map`, grid_contract.cpp:917-923 -/
def procMap (groups : List (List ℕ)) : ℕ → Option ℕ :=
  groups.zipIdx.foldl (fun f g => g.1.foldl (fun f p => Function.update f p (some g.2)) f) fun _ => none

/-- `gids`, grid_contract.cpp:960-970: the identifiers of the classes of all members -/
def mergeIds (ids : List (List ℕ)) : List ℕ :=
  (ids.tail.flatten.foldl (fun g x => if g.contains x then g else g ++ [x]) (ids.headD [])).insertionSort (· ≤ ·)

/-- a member of the group with its mesh: its rank, its classes and their identifiers, the offsets of its vertices -/
abbrev Mem := ℕ × Ctx

/-- all classes of all members with the identifier, in the order of the loops, grid_contract.cpp:984-989, 993-1000: identifier, distant processes, rank -/
def allCls (G : List Mem) : List (ℕ × List ℕ × ℕ) := G.flatMap fun m => (m.2.ids.zip m.2.T).map fun e => (e.1, e.2, m.1)

/-- `mmems`, grid_contract.cpp:982-1002: the members of the merged classes. A row has the size that was written last; a class of another size would be written out of bounds or leave a part as it is -/
def mmems (gids : List ℕ) (G : List Mem) : Option (List (List ℕ)) :=
  let sz (m : ℕ) : ℕ := ((allCls G).filter fun e => gids.idxOf e.1 = m).foldl (fun _ e => e.2.1.length + 1) 0
  ((allCls G).foldlM (fun (t : List (List ℕ)) e =>
    let m := gids.idxOf e.1
    if m < t.length ∧ e.2.1.length + 1 = sz m then some (t.set m (e.2.1 ++ [e.2.2])) else none) (List.replicate gids.length [])).map
    fun t => t.map fun r => r.insertionSort (· ≤ ·)

/-- `crs_dps`, grid_contract.cpp:1004-1014: the other groups that have a part in a class -/
def crsDps (groups : List (List ℕ)) (crank : ℕ) (mems : List ℕ) : Option (List ℕ) :=
  (mems.foldlM (fun out p => (procMap groups p).map fun g => if g ≠ crank ∧ g ∉ out then out ++ [g] else out) []).map fun l => l.insertionSort (· ≤ ·)

/-- `ceqcs` and `map_mc`, grid_contract.cpp:1015-1032: the different classes in the order in which they turn up, and the number of each of them -/
def intern (cdps : List (List ℕ)) : List (List ℕ) × List ℕ :=
  cdps.foldl (fun s d => if s.1.contains d then (s.1, s.2 ++ [s.1.idxOf d]) else (s.1 ++ [d], s.2 ++ [s.1.length])) ([], [])

/-- the result of `BuildCEQCH` on a master -/
structure CEqc where
  gids : List ℕ
  mm : List (List ℕ)
  /-- the table handed to the constructor of the contracted hierarchy -/
  fam : List (List ℕ)
  /-- the table in the order of the contracted hierarchy -/
  tab : List (List ℕ)
  mc : List ℕ
  om : List (List ℕ)
  oc : List (List ℕ)
  deriving DecidableEq

/-- `remap`, grid_contract.cpp:1044-1055: the search does not end if the class is not in the table -/
def remapOf (tab fam : List (List ℕ)) : Option (List ℕ) := fam.mapM fun d => if tab.contains d then some (tab.idxOf d) else none

/-- `BuildCEQCH` on the master of group number `crank`, grid_contract.cpp:909-1073; `G`: the members of the group in their order -/
def buildCEQCH (groups : List (List ℕ)) (crank : ℕ) (G : List Mem) : Option CEqc :=
  let gids := mergeIds (G.map fun m => m.2.ids)
  let om := G.map fun m => m.2.ids.map gids.idxOf
  (mmems gids G).bind fun mm => (mm.mapM (crsDps groups crank)).bind fun cdps =>
    let r := intern cdps
    let tab := sortEqcs r.1
    (remapOf tab r.1).bind fun re => (r.2.mapM fun l => re[l]?).bind fun mc =>
      (om.mapM fun (row : List ℕ) => row.mapM fun (m : ℕ) => mc[m]?).map fun oc => ⟨gids, mm, r.1, tab, mc, om, oc⟩

/-! ### vertices of `BuildNodeMaps` -/

/-- `cut_min`, grid_contract.cpp:423-430: the first common entry of two sorted arrays (`none`: -1) -/
def cutMin : List ℕ → List ℕ → Option ℕ
  | [], _ => none
  | _ :: _, [] => none
  | a :: as, b :: bs => if a < b then cutMin as (b :: bs) else if b < a then cutMin (a :: as) bs else some a
termination_by as bs => as.length + bs.length

/-- `GetENodes<NT_VERTEX>(j)`: the first vertex of a class and their number, grid_contract.cpp:452, 492; base_mesh.hpp:150-156 -/
def eVerts (C : Ctx) (j : ℕ) : Option (ℕ × ℕ) := (C.disp[j]?).bind fun a => (C.disp[j + 1]?).map fun b => (a, b - a)

/-- the first loop over the classes of all members, grid_contract.cpp:446-459: `v_dsp` (one entry later) and `firsti_v`, which is the number of vertices of the merged classes here -/
def countPass (R : CEqc) (G : List Mem) : Option (List ℕ × List ℕ) :=
  let sender := R.mm.map fun m => cutMin m (G.map Prod.fst)
  (G.zip (R.om.zip R.oc)).foldlM (fun s m =>
    ((List.range m.1.2.T.length).zip (m.2.1.zip m.2.2)).foldlM (fun (s : List ℕ × List ℕ) e =>
      (eVerts m.1.2 e.1).bind fun vs =>
        if sender[e.2.1]? = some (some m.1.1) then
          if e.2.2 < s.1.length ∧ e.2.1 < s.2.length then some (s.1.modify e.2.2 (· + vs.2), s.2.set e.2.1 vs.2) else none
        else some s) s) (List.replicate R.tab.length 0, List.replicate R.mc.length 0)

/-- the offsets of the merged classes, grid_contract.cpp:478-484; arguments: `map_mc`, the offsets of the contracted classes, `firsti_v` -/
def firstiPass (disp : List ℕ) : List (ℕ × ℕ) → List ℕ → Option (List ℕ)
  | [], _ => some []
  | (ceq, bs) :: l, sz => (disp[ceq]?).bind fun a => (sz[ceq]?).bind fun s => (firstiPass disp l (sz.set ceq (s + bs))).map fun r => (a + s) :: r

/-- `vmaps[k]`, grid_contract.cpp:486-501 (`none` as an entry: -1) -/
def vertMap (firsti : List ℕ) (C : Ctx) (om : List ℕ) : Option (List (Option ℕ)) :=
  ((List.range C.T.length).mapM fun j => (eVerts C j).map Prod.snd).bind fun ns =>
    ((List.range C.T.length).zip om).foldlM (fun (v : List (Option ℕ)) e =>
      (eVerts C e.1).bind fun vs => (firsti[e.2]?).bind fun f =>
        (List.range vs.2).foldlM (fun (v : List (Option ℕ)) l => if vs.1 + l < v.length then some (v.set (vs.1 + l) (some (f + l))) else none) v)
      (List.replicate ns.sum none)

/-- the vertices of the contracted mesh on a master: offsets of the classes and the maps of the members, grid_contract.cpp:437-502 -/
def buildVerts (R : CEqc) (G : List Mem) : Option (List ℕ × List (List (Option ℕ))) :=
  (countPass R G).bind fun s =>
    let disp := 0 :: partialSum 0 s.1
    (firstiPass disp (R.mc.zip s.2) (List.replicate R.tab.length 0)).bind fun firsti =>
      ((G.zip R.om).mapM fun m => vertMap firsti m.1.2 m.2).map fun v => (disp, v)

/-! ### data of vertices -/

/-- `it_vals` of `MapNodeData`, grid_contract.hpp:160-167; `cumulated`: overwrite, otherwise add. `none`: write out of range -/
def itVals {E : Type} [Add E] (cumulated : Bool) (map : List ℕ) (buf : List E) (out : List E) : Option (List E) :=
  map.zipIdx.foldlM (fun (out : List E) e => (buf[e.2]?).bind fun b =>
    if e.1 < out.length then some (out.modify e.1 fun o => if cumulated then b else o + b) else none) out

/-- `MapNodeData` on a master for nodes without `annoy_nodes`, grid_contract.hpp:128-192: the values of the other members first, then the own ones -/
def mapNodeData {E : Type} [Zero E] [Add E] (cumulated : Bool) (n : ℕ) (maps : List (List ℕ)) (data : List (List E)) : Option (List E) :=
  ((maps.zip data).drop 1 ++ (maps.zip data).take 1).foldlM (fun out m => itVals cumulated m.1 m.2 out) (List.replicate n 0)

/-! ### unknowns -/

/-- `dof_maps` of `BuildContractDOFMap`, nodal_factory_impl.hpp:199-204: a copy of the node maps (`none`: an entry -1 that would be used as an index) -/
def dofMaps (v : List (List (Option ℕ))) : Option (List (List ℕ)) := v.mapM fun (row : List (Option ℕ)) => row.mapM id

/-- `NodalAMGFactory::BuildUDofs` for vertices, nodal_factory_impl.hpp:43-80: the distant processes of every unknown. (Not parallel, `IsDummy`: not modelled) -/
def buildUDofs (C : Ctx) : Option (List (List ℕ)) :=
  C.T.zipIdx.foldlM (fun (t : List (List ℕ)) e => (eVerts C e.2).bind fun vs =>
    (List.range vs.2).foldlM (fun (t : List (List ℕ)) l => if vs.1 + l < t.length then some (t.modify (vs.1 + l) (· ++ e.1)) else none) t) (List.replicate (C.disp.getLastD 0) [])

/-! ### edges that join classes without a common contracted class -/

/-- the class in which an "annoying" edge between vertices of the contracted classes `i` and `j` is put, grid_contract.cpp:552-575 (`none`: `NO_EQC`, used as a row number of the table) -/
def annoyClass (tab : List (List ℕ)) (i j : ℕ) : Option ℕ := commonEQC tab i j

end NgsAMG.GCtr
