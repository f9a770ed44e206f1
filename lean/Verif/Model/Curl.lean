import Verif.Model.CSR
import Verif.Model.SparseMM
import Verif.Model.SortedArray
import Mathlib.Data.List.Sort
import Mathlib.Algebra.Field.Basic

/-!
# Model: discrete divergence and curl of the Stokes discretizations (stokes/common/stokes_mesh_impl.hpp, stokes/ncfes/nc_stokes_factory_impl.hpp,
stokes/hdiv/hdiv_stokes_factory_impl.hpp, stokes/hdiv/mesh_dofs.hpp)

Simplifications: `double` is a field `K`; a matrix entry that is never written is `junk` (NGSolve's constructor with row sizes does not set values).
An edge is the pair of its vertices; the entry of a loop is `e+1` or `-(e+1)` for edge `e`, as in `LoopMap`.
-/

namespace NgsAMG.Curl
open NgsAMG.SparseMM
variable {K : Type} [Field K] {b : ℕ}

/-! ### edges with degrees of freedom -/

/-- stokes_mesh_impl.hpp:169-181: `e2dof` with ghost vertices (`none` is -1) -/
def e2dofGo (gv : ℕ → Bool) : ℕ → List (ℕ × ℕ) → List (Option ℕ)
  | _, [] => []
  | cnt, e :: t => if gv e.1 && gv e.2 then none :: e2dofGo gv cnt t else some cnt :: e2dofGo gv (cnt + 1) t

/-- stokes_mesh_impl.hpp:156-181, `SetUpDOFedEdges`: `e2dof`; without ghost vertices every edge has a degree of freedom -/
def e2dof (gv : Option (ℕ → Bool)) (edges : List (ℕ × ℕ)) : List (Option ℕ) :=
  match gv with
  | none => (List.range edges.length).map some
  | some g => e2dofGo g 0 edges

/-- `cnt` -/
def dofCount (e2d : List (Option ℕ)) : ℕ := (e2d.filter Option.isSome).length

/-- stokes_mesh_impl.hpp:162-165, 182-186: `dof2e`; `none` is writing out of range -/
def dof2e (e2d : List (Option ℕ)) : Option (List ℕ) :=
  e2d.zipIdx.foldlM (fun l x => match x.1 with
    | none => some l
    | some d => if d < l.length then some (l.set d x.2) else none) (List.replicate (dofCount e2d) 0)

/-! ### the nonconforming discretization -/

/-- nc_stokes_factory_impl.hpp:849-854: the columns of the rows of `div_mat` -/
def scatter (edges : ℕ → ℕ × ℕ) (d2e : List ℕ) : ℕ → List ℕ :=
  d2e.zipIdx.foldl (fun rows x =>
    let r0 := Function.update rows (edges x.1).1 (rows (edges x.1).1 ++ [x.2])
    Function.update r0 (edges x.1).2 (r0 (edges x.1).2 ++ [x.2])) (fun _ => [])

/-- nc_stokes_factory_impl.hpp:860: `fac` -/
def volFac [LT K] [DecidableLT K] (vol : K) : K := if 0 < vol then 1 / vol else 0

/-- nc_stokes_factory_impl.hpp:865-867: `orient` -/
def orient (edges : ℕ → ℕ × ℕ) (v e : ℕ) (master : Bool) : K := if !master then 0 else if (edges e).1 = v then 1 else -1

/-- nc_stokes_factory_impl.hpp:856-872: a row of `div_mat`; `fac v` is `volFac` of the volume -/
def divRow (edges : ℕ → ℕ × ℕ) (d2e : List ℕ) (master : ℕ → Bool) (fac : ℕ → K) (flow : ℕ → Fin b → K) (v : ℕ) : List (ℕ × Mt 1 b K) :=
  (scatter edges d2e v).map fun d => (d, fun _ l => orient edges v (d2e.getD d 0) (master d) * fac v * flow (d2e.getD d 0) l)

/-- nc_stokes_factory_impl.hpp:807-879, `BuildDivMat` -/
def ncDiv (nv : ℕ) (edges : ℕ → ℕ × ℕ) (d2e : List ℕ) (master : ℕ → Bool) (fac : ℕ → K) (flow : ℕ → Fin b → K) : CSR (Mt 1 b K) where
  height := nv
  width := d2e.length
  row v := if v < nv then divRow edges d2e master fac flow v else []

/-- `abs(loop[j]) - 1` -/
def enr (k : ℤ) : ℕ := k.natAbs - 1

/-- nc_stokes_factory_impl.hpp:937, hdiv_stokes_factory_impl.hpp:1703: `fac` -/
def sgn (k : ℤ) : K := if k < 0 then -1 else 1

/-- nc_stokes_factory_impl.hpp:926-931, hdiv_stokes_factory_impl.hpp:1692-1697: the columns of a row of `curlT_mat`. `col e`: the degree of freedom of
the edge, if it has one. -/
def curlCols (col : ℕ → Option ℕ) (loop : List ℤ) : List ℕ := (loop.filterMap fun k => col (enr k)).insertionSort (· ≤ ·)

/-- nc_stokes_factory_impl.hpp:932-949, hdiv_stokes_factory_impl.hpp:1698-1709: its values; `val k` is the value for entry `k` of the loop -/
def curlVals {E : Type} (junk : E) (col : ℕ → Option ℕ) (val : ℤ → E) (loop : List ℤ) : List E :=
  loop.foldl (fun rvs k => match col (enr k) with
    | none => rvs
    | some d => rvs.set ((curlCols col loop).idxOf d) (val k)) ((curlCols col loop).map fun _ => junk)

/-- a row of `curlT_mat` -/
def curlRow {E : Type} (junk : E) (col : ℕ → Option ℕ) (val : ℤ → E) (loop : List ℤ) : List (ℕ × E) := (curlCols col loop).zip (curlVals junk col val loop)

/-- `curlT_mat`, nc_stokes_factory_impl.hpp:906-951, hdiv_stokes_factory_impl.hpp:1672-1711; rows of loops that are not active are empty -/
def curlT {E : Type} (junk : E) (nd : ℕ) (col : ℕ → Option ℕ) (val : ℤ → E) (active : ℕ → Bool) (loops : List (List ℤ)) : CSR E where
  height := loops.length
  width := nd
  row k := if active k then ((loops[k]?).map (curlRow junk col val)).getD [] else []

/-- nc_stokes_factory_impl.hpp:938-946: the value for an entry of a loop -/
def ncVal (flow : ℕ → Fin b → K) (k : ℤ) : Mt 1 b K := fun _ l => sgn k * flow (enr k) l / ∑ m, flow (enr k) m * flow (enr k) m

/-- nc_stokes_factory_impl.hpp:883-985, `BuildCurlMat`: the matrix `curl_mat_T` -/
def ncCurlT (junk : Mt 1 b K) (e2d : List (Option ℕ)) (nd : ℕ) (flow : ℕ → Fin b → K) (active : ℕ → Bool) (loops : List (List ℤ)) : CSR (Mt 1 b K) :=
  curlT junk nd (fun e => e2d.getD e none) (ncVal flow) active loops

/-! ### the H(div)-conforming discretization -/

/-- mesh_dofs.hpp:45-62: `SetNDOF` for all edges, then `Finalize`: offsets from the numbers of degrees of freedom -/
def offsetsGo : ℕ → List ℕ → List ℕ
  | acc, [] => [acc]
  | acc, n :: t => acc :: offsetsGo (acc + n) t

/-- mesh_dofs.hpp:32-62: `_dofOffsets` -/
def offsets (ns : List ℕ) : List ℕ := offsetsGo 0 ns

/-- mesh_dofs.hpp:93-96, `EdgeToDOF(e, 0)` -/
def firstDof (off : List ℕ) (e : ℕ) : ℕ := off.getD e 0

/-- mesh_dofs.hpp:83-86, `GetNDOF(e)` -/
def nDof (off : List ℕ) (e : ℕ) : ℕ := off.getD (e + 1) 0 - off.getD e 0

/-- mesh_dofs.hpp:73-76, `GetDOFNrs(e)` -/
def dofNrs (off : List ℕ) (e : ℕ) : List ℕ := (List.range (nDof off e)).map fun l => firstDof off e + l

/-- mesh_dofs.hpp:103-106, `DOFToEdge` -/
def dofToEdge (off : List ℕ) (d : ℕ) : Option ℕ :=
  match SortedArray.mergePos d off with
  | some (.pos (p + 1)) => some p
  | _ => none

/-- hdiv_stokes_factory_impl.hpp:1547-1561: the columns of the rows of `div_mat`, before sorting; `ord`: the order of the edges in `ApplyEQ2` -/
def hScatter (edges : ℕ → ℕ × ℕ) (off : List ℕ) (ord : List ℕ) : ℕ → List ℕ :=
  ord.foldl (fun rows e => (dofNrs off e).foldl (fun rows d =>
    let r0 := Function.update rows (edges e).1 (rows (edges e).1 ++ [d])
    Function.update r0 (edges e).2 (r0 (edges e).2 ++ [d])) rows) (fun _ => [])

/-- hdiv_stokes_factory_impl.hpp:1600-1607: the entries of a row for one edge: the flow of the first degree of freedom, zero for the others -/
def hPart (edges : ℕ → ℕ × ℕ) (flow0 : ℕ → K) (v e : ℕ) (cols : List ℕ) : List (ℕ × Mt 1 1 K) :=
  cols.zipIdx.map fun x => (x.1, fun _ _ => orient edges v e true * if x.2 = 0 then flow0 e else 0)

/-- hdiv_stokes_factory_impl.hpp:1595-1608: the values of a row, edge by edge. `none`: out of range, or a loop that does not end (the fuel is the length
of the row). -/
def hFill (edges : ℕ → ℕ × ℕ) (off : List ℕ) (flow0 : ℕ → K) (v : ℕ) : ℕ → List ℕ → Option (List (ℕ × Mt 1 1 K))
  | _, [] => some []
  | 0, _ :: _ => none
  | fuel + 1, d :: t =>
    match dofToEdge off d with
    | none => none
    | some e =>
      if (d :: t).length < nDof off e then none
      else (hFill edges off flow0 v fuel ((d :: t).drop (nDof off e))).map fun r =>
        hPart edges flow0 v e ((d :: t).take (nDof off e)) ++ r

/-- hdiv_stokes_factory_impl.hpp:1563-1564: sorted columns -/
def hCols (edges : ℕ → ℕ × ℕ) (off : List ℕ) (ord : List ℕ) (v : ℕ) : List ℕ := (hScatter edges off ord v).insertionSort (· ≤ ·)

/-- hdiv_stokes_factory_impl.hpp:1484-1620, `BuildDivMat`; `none` if a row fails -/
def hDiv (nv : ℕ) (edges : ℕ → ℕ × ℕ) (off : List ℕ) (ord : List ℕ) (flow0 : ℕ → K) : Option (CSR (Mt 1 1 K)) :=
  (collect nv fun v => hFill edges off flow0 v (hCols edges off ord v).length (hCols edges off ord v)).map fun rows =>
    { height := nv, width := off.getLast?.getD 0, row := rows }

/-- hdiv_stokes_factory_impl.hpp:1707: the value for an entry of a loop -/
def hVal (flow0 : ℕ → K) (k : ℤ) : Mt 1 1 K := fun _ _ => sgn k / flow0 (enr k)

/-- hdiv_stokes_factory_impl.hpp:1626-1745, `BuildCurlMat`: the matrix `curl_mat_T`; `dofed e`: the edge has degrees of freedom -/
def hCurlT (junk : Mt 1 1 K) (off : List ℕ) (dofed : ℕ → Bool) (flow0 : ℕ → K) (active : ℕ → Bool) (loops : List (List ℤ)) : CSR (Mt 1 1 K) :=
  curlT junk (off.getLast?.getD 0) (fun e => if dofed e then some (firstDof off e) else none) (hVal flow0) active loops

end NgsAMG.Curl
