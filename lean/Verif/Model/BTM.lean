import Verif.Model.SortedArray
import Verif.Model.RedTab

/-!
# Model of the distributed mesh `BlockTM`: numbering of vertices and edges

Source: `/repo/src/base/mesh/base_mesh_impl.hpp:27-370` (`SetVs`, `SetNodes<NT_EDGE>`), `/repo/src/base/mesh/base_mesh.hpp:107-150`
(queries), `/repo/src/base/utils/utils_arrays_tables.hpp:229-285` (`merge_arrays` with a comparison).

Conventions. `T` is the table of the classes of a process (`GetDistantProcs(eqc)`, `Verif.Model.EQC`), `ids` are the identifiers of
the classes. `none`: out-of-range access. Simplifications: the arrays `verts[k] = k` are left out; `QuickSort` is a sort into ascending order;
offsets of `TableCreator`s are not modelled (a row is the list of what was added, in this order). Only the node type `NT_EDGE` is
modelled for `SetNodes` (the comparison in the code works only for it, base_mesh_impl.hpp:203).
-/

namespace NgsAMG.BTM

open NgsAMG.EQC

/-! ### vertices -/

/-- `std::partial_sum` in place, base_mesh_impl.hpp:64 -/
def partialSum : ℕ → List ℕ → List ℕ
  | _, [] => []
  | acc, x :: xs => (acc + x) :: partialSum (acc + x) xs

/-- base_mesh_impl.hpp:46-47 and 63-64: the offsets of the classes; `cls`: classes of the vertices -/
def dispOf (neqcs : ℕ) (cls : List ℕ) : List ℕ :=
  partialSum 0 (cls.foldl (fun d c => d.modify (c + 1) (· + 1)) (List.replicate (neqcs + 1) 0))

/-- base_mesh_impl.hpp:73-75: the new numbers, `set_sort(vnr, vcnt[eqc]++)` -/
def sortPass : List ℕ → List ℕ → List ℕ
  | [], _ => []
  | c :: cs, vcnt => vcnt.getD c 0 :: sortPass cs (vcnt.modify c (· + 1))

/-- the part of a mesh that belongs to the vertices: number, offsets `disp_eqc[NT_VERTEX]`, new numbers -/
structure Verts where
  nv : ℕ
  disp : List ℕ
  sort : List ℕ
  deriving DecidableEq

/-- base_mesh_impl.hpp:27-95, `SetVs`. `dps`: distant processes of the vertices, `dummy`: `eqc_h.IsDummy()`. (A process without classes
only takes part in the `AllReduce`; its offsets are those of the constructor, base_mesh.cpp:93-109.) -/
def setVs (T : List (List ℕ)) (dummy : Bool) (dps : List (List ℕ)) : Option Verts :=
  if T.length = 0 then some ⟨0, [0], []⟩
  else if dummy then some ⟨dps.length, [0, dps.length], List.range dps.length⟩
  else (dps.mapM (findEQC T)).map fun cls =>
    let disp := dispOf T.length cls
    ⟨dps.length, disp, sortPass cls disp⟩

/-- base_mesh_impl.hpp:94-104: the number of vertices of the classes this process is the master of; they are added over all processes -/
def nMaster (rank : ℕ) (T : List (List ℕ)) (disp : List ℕ) : ℕ :=
  ((List.range T.length).map fun k => if isMaster rank (T.getD k []) then disp.getD (k + 1) 0 - disp.getD k 0 else 0).sum

/-- base_mesh.hpp:113-114, `GetEqcOfENode`: `merge_pos_in_sorted_array(node_num, disp_eqc) - 1` -/
def eqcOfE (disp : List ℕ) (n : ℕ) : Option ℕ :=
  match SortedArray.mergePos n disp with
  | some (.pos (p + 1)) => some p
  | _ => none

/-- base_mesh.hpp:117-118, `GetEQCOfNode`; `dE`, `dC`: `disp_eqc`, `disp_cross` -/
def eqcOf (dE dC : List ℕ) (n : ℕ) : Option ℕ :=
  if n < dE.getLastD 0 then eqcOfE dE n else eqcOfE dC (n - dE.getLastD 0)

/-- base_mesh.hpp:119-128, `MapNodeToEQC` (`MapENodeToEQC`, `MapCNodeToEQC`) -/
def toEQC (dE dC : List ℕ) (n : ℕ) : Option ℕ :=
  (eqcOf dE dC n).bind fun k =>
    if n < dE.getLastD 0 then dE[k]?.map (n - ·) else dC[k]?.map fun d => n - dE.getLastD 0 - d

/-- base_mesh.hpp:140-141, `MapENodeFromEQC` -/
def eFromEQC (dE : List ℕ) (n k : ℕ) : Option ℕ := dE[k]?.map (n + ·)

/-- base_mesh.hpp:142-144, `MapCNodeFromEQC` -/
def cFromEQC (dE dC : List ℕ) (n k : ℕ) : Option ℕ := dC[k]?.map fun d => dE.getLastD 0 + n + d

/-! ### edges -/

/-- `AMG_CNode<NT_EDGE>`: identifiers of the classes of the vertices and their numbers within the classes -/
structure CNode where
  e0 : ℕ
  e1 : ℕ
  v0 : ℕ
  v1 : ℕ
  deriving DecidableEq, Inhabited

/-- what `SetNodes` uses of the mesh and of the hierarchy: classes, identifiers, the table `idf_2_ind`, offsets of the vertices (those
of the cross vertices are all zero, base_mesh.cpp:93-109) -/
structure Ctx where
  T : List (List ℕ)
  ids : List ℕ
  ind : List (Option ℕ)
  disp : List ℕ

/-- `GetEQCOfNode<NT_VERTEX>` -/
def Ctx.eqcV (C : Ctx) (v : ℕ) : Option ℕ := eqcOf C.disp (List.replicate (C.T.length + 1) 0) v

/-- `MapNodeToEQC<NT_VERTEX>` -/
def Ctx.locV (C : Ctx) (v : ℕ) : Option ℕ := toEQC C.disp (List.replicate (C.T.length + 1) 0) v

/-- eqchierarchy.hpp:79-83, `GetEQCOfID` -/
def Ctx.eqcOfID (C : Ctx) (id : ℕ) : Option ℕ := (C.ind[id]?).join

/-- an edge with its place: is it in a class or between two classes, which class, its name within the class. For edges of the local
class 0 the name is not used. -/
structure Item where
  edge : ℕ × ℕ
  isIn : Bool
  cls : ℕ
  node : CNode
  deriving DecidableEq

/-- base_mesh_impl.hpp:149-170, the loop body of `lam_neq`, with the map of the vertices to their numbers within the classes that
both callbacks do (180-184, 190-194) -/
def classify (C : Ctx) (e : ℕ × ℕ) : Option Item :=
  (C.eqcV e.1).bind fun k0 => (C.eqcV e.2).bind fun k1 =>
    (C.ids[k0]?).bind fun i0 => (C.ids[k1]?).bind fun i1 =>
      let eqIn := k0 == k1
      (if eqIn then some k0 else commonEQC C.T k0 k1).bind fun cut =>
        (C.locV e.1).bind fun l0 => (C.locV e.2).map fun l1 => ⟨e, eqIn, cut, ⟨i0, i1, l0, l1⟩⟩

/-- lexicographic order of pairs (`IVec<2>`) -/
def pairLt (a b : ℕ × ℕ) : Bool := decide (a.1 < b.1) || (a.1 == b.1 && decide (a.2 < b.2))

/-- base_mesh_impl.hpp:202-214, `smaller` -/
def smaller (a b : CNode) : Bool :=
  if a.e0 == a.e1 && !(b.e0 == b.e1) then true
  else if !(a.e0 == a.e1) && (b.e0 == b.e1) then false
  else if (a.e0 == a.e1) && (b.e0 == b.e1) then pairLt (a.v0, a.v1) (b.v0, b.v1)
  else if a.e0 < b.e0 then true
  else if b.e0 < a.e0 then false
  else if a.e1 < b.e1 then true
  else if b.e1 < a.e1 then false
  else pairLt (a.v0, a.v1) (b.v0, b.v1)

/-- base_mesh_impl.hpp:196-216: the tentative table of shared edges, sorted. (Row 0 stays empty.) -/
def tent (neqcs : ℕ) (items : List Item) : List (List CNode) :=
  (List.range neqcs).map fun k =>
    if k = 0 then [] else ((items.filter fun i => i.cls == k).map Item.node).insertionSort fun a b => smaller b a = false

section Merge
variable {α : Type} [DecidableEq α] (lt : α → α → Bool)

/-- the scan of `Traversal.scanMin` with the comparison `lam_comp`, utils_arrays_tables.hpp:255-266 -/
def scanMinBy (m : α) (has : List ℕ) (k : ℕ) : List (List α) → α × List ℕ
  | [] => (m, has)
  | [] :: rs => scanMinBy m has (k + 1) rs
  | (x :: _) :: rs =>
    if x = m then scanMinBy m (k :: has) (k + 1) rs
    else if lt x m then scanMinBy x [k] (k + 1) rs
    else scanMinBy m has (k + 1) rs

/-- utils_arrays_tables.hpp:267-273, as `Traversal.advance` -/
def advanceBy (has : List ℕ) (k : ℕ) : List (List α) → List (List α) × ℕ
  | [] => ([], 0)
  | r :: rs =>
    let (rs', d) := advanceBy has (k + 1) rs
    if k ∈ has then (r.tail :: rs', d + if r.tail.isEmpty then 1 else 0)
    else (r :: rs', d)

/-- utils_arrays_tables.hpp:245-248, 275-281, as `Traversal.firstHead` -/
def firstHeadBy : List (List α) → Option α
  | [] => none
  | [] :: rs => firstHeadBy rs
  | (x :: _) :: _ => some x

/-- utils_arrays_tables.hpp:254-284, as `Traversal.mergeLoop` -/
def mergeLoopBy (fuel : ℕ) (rows : List (List α)) (ndone : ℕ) (min : α) : Option (List α) :=
  if ndone < rows.length then
    match fuel with
    | 0 => none
    | fuel + 1 =>
      let (m, has) := scanMinBy lt min [] 0 rows
      let (rows', d) := advanceBy has 0 rows
      let min' := (firstHeadBy rows').getD m
      (mergeLoopBy fuel rows' (ndone + d) min').map (m :: ·)
  else some []

/-- `merge_arrays (tab_in, out, lam_comp)`, utils_arrays_tables.hpp:229-285, with as many rounds as there are entries -/
def mergeBy (rows : List (List α)) : Option (List α) :=
  match firstHeadBy rows with
  | none => some []
  | some x => mergeLoopBy lt (rows.map List.length).sum rows (rows.countP List.isEmpty) x

end Merge

/-- base_mesh_impl.hpp:233-241, `isin` -/
def CNode.isIn (c : CNode) : Bool := c.e0 == c.e1

/-- base_mesh_impl.hpp:242-249: the number of edges of a row that are within the class -/
def nIn (row : List CNode) : ℕ := (row.takeWhile CNode.isIn).length

/-- the edges of a mesh: offsets `disp_eqc[NT_EDGE]`, `disp_cross[NT_EDGE]` (from the start of the cross edges), the edges (`none`: not
written), the new numbers of the given edges -/
structure Edges where
  dE : List ℕ
  dC : List ℕ
  nodes : List (Option (ℕ × ℕ))
  sort : List ℕ
  deriving DecidableEq

/-- base_mesh_impl.hpp:226-257: offsets: `n0` edges of class 0, then the counts of the rows `1, 2, ...` -/
def edgeDisp (n0 : ℕ) (cnts : List ℕ) : List ℕ := partialSum 0 (0 :: n0 :: cnts)

/-- base_mesh_impl.hpp:271-304: the writes of the shared edges of the class `k` -/
def rowWrites (C : Ctx) (dE dC : List ℕ) (tin k : ℕ) (row : List CNode) : Option (List (ℕ × (ℕ × ℕ))) :=
  (row.zipIdx.mapM fun (e : CNode × ℕ) =>
    if e.2 < nIn row then
      (eFromEQC C.disp e.1.v0 k).bind fun a => (eFromEQC C.disp e.1.v1 k).bind fun b =>
        dE[k]?.map fun o => (o + e.2, (a, b))
    else
      (C.eqcOfID e.1.e0).bind fun k0 => (C.eqcOfID e.1.e1).bind fun k1 =>
        (eFromEQC C.disp e.1.v0 k0).bind fun a => (eFromEQC C.disp e.1.v1 k1).bind fun b =>
          dC[k]?.map fun o => (tin + o + (e.2 - nIn row), (a, b)))

/-- base_mesh_impl.hpp:306-350: new numbers of the given edges, and the writes of the local ones; `c0`, `c1`: the counters `cnt0`, `cnt0c` -/
def place (ex : List (List CNode)) (dE dC : List ℕ) (tin : ℕ) : ℕ → ℕ → List Item → Option (List (ℕ × Option (ℕ × ℕ)))
  | _, _, [] => some []
  | c0, c1, i :: is =>
    if i.cls = 0 then
      if i.isIn then (place ex dE dC tin (c0 + 1) c1 is).map ((c0, some i.edge) :: ·)
      else (place ex dE dC tin c0 (c1 + 1) is).map ((c1, some i.edge) :: ·)
    else
      (ex[i.cls]?).bind fun row => (row.idxOf? i.node).bind fun pos =>
        if i.isIn then
          (eFromEQC dE pos i.cls).bind fun id => (place ex dE dC tin c0 c1 is).map ((id, none) :: ·)
        else
          (dC[i.cls]?).bind fun o => (place ex dE dC tin c0 c1 is).map ((pos - nIn row + (o + tin), none) :: ·)

/-- base_mesh_impl.hpp:226-354, from the merged rows to the mesh; `ex` are the rows `ex_nodes` (the row 0 is empty) -/
def finish (C : Ctx) (items : List Item) (ex : List (List CNode)) : Option Edges :=
  let n0 := items.countP fun i => i.cls == 0 && i.isIn
  let c0 := items.countP fun i => i.cls == 0 && !i.isIn
  let dE := edgeDisp n0 (ex.tail.map nIn)
  let dC := edgeDisp c0 (ex.tail.map fun r => r.length - nIn r)
  let tin := dE.getLastD 0
  let tot := n0 + c0 + (ex.tail.map List.length).sum
  ((ex.tail.zipIdx 1).mapM fun r => rowWrites C dE dC tin r.2 r.1).bind fun ws =>
    (place ex dE dC tin 0 tin items).map fun pl =>
      let writes := ws.flatten ++ pl.filterMap fun w => w.2.map fun e => (w.1, e)
      ⟨dE, dC, writes.foldl (fun a w => a.set w.1 (some w.2)) (List.replicate tot none), pl.map Prod.fst⟩

/-- base_mesh_impl.hpp:134-140 (`IsDummy()`): edges are not changed -/
def setEdgesDummy (edges : List (ℕ × ℕ)) : Edges :=
  ⟨[0, edges.length], [0, 0], edges.map some, List.range edges.length⟩

/-- base_mesh_impl.hpp:107-370, `SetNodes<NT_EDGE>` on all processes (no dummy hierarchy): `Ctxs p` the context of process `p`,
`edges p` its edges. The exchange is `ReduceTable` (`Verif.Model.RedTab`) with `merge_arrays`; its phases are -/
def edgeProg (np : ℕ) (Ctxs : ℕ → Ctx) (items : ℕ → List Item) :=
  RedTab.prog np (fun p => (Ctxs p).T) (fun p => tent (Ctxs p).T.length (items p))
    (fun _ _ ins => (mergeBy smaller ins).getD [])

/-- base_mesh_impl.hpp:218-354: what process `p` does with the result of `ReduceTable` -/
def afterReduce (C : Ctx) (items : List Item) (out : List (Option (List CNode))) : Option Edges :=
  (out.mapM id).bind (finish C items)

/-- base_mesh_impl.hpp:376-384: the edges of the classes this process is the master of; they are added over all processes -/
def nEdgeMaster (rank : ℕ) (T : List (List ℕ)) (E : Edges) : ℕ := nMaster rank T E.dE + nMaster rank T E.dC

end NgsAMG.BTM
