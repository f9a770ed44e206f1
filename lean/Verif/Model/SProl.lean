import Verif.Model.MapData
import Verif.Model.SparseMM

/-! Model of the smoothed prolongation `AuxSProlMap` (base/factory/vertex_factory_impl.hpp:2437-2745) and of the connectivity
`TopologicMesh::GetEdgeCM` (base/mesh/base_mesh.cpp:35-76). The rows are those computed by the master of a vertex
(`ApplyEQ(.., true)`); the distribution of finished rows (2681-2743) is not part of this file. Doubles are real numbers.
`none`: access outside of an array, or an entry of the result that is never written. -/

namespace NgsAMG.SProl

open MapData SparseMM

/-- base_mesh.cpp:53-57: `econ_s[edge.v[l]]++` -/
def countEnds (edges : List (ℕ × ℕ)) : ℕ → ℕ :=
  edges.foldl (fun cnt e =>
    let cnt := Function.update cnt e.1 (cnt e.1 + 1)
    Function.update cnt e.2 (cnt e.2 + 1)) (fun _ => 0)

/-- base_mesh.cpp:62: `econ_i[v][econ_s[v]++] = (n, id)`, an error if the row is full -/
def putEnd (size : ℕ → ℕ) (v : ℕ) (x : ℕ × ℕ) (rows : Option (ℕ → List (ℕ × ℕ))) : Option (ℕ → List (ℕ × ℕ)) :=
  rows.bind fun rows =>
    if (rows v).length < size v then some (Function.update rows v (rows v ++ [x])) else none

/-- `GetEdgeCM` (base_mesh.cpp:35-76): for every vertex the neighbours with edge numbers; `QuickSort` (a library function) is
`insertionSort` by neighbour, which is the same if there are no parallel edges -/
def edgeCM (edges : List (ℕ × ℕ)) : Option (ℕ → List (ℕ × ℕ)) :=
  let size := countEnds edges
  (edges.zipIdx.foldl (fun rows e =>
      putEnd size e.1.2 (e.1.1, e.2) (putEnd size e.1.1 (e.1.2, e.2) rows)) (some fun _ => [])).map
    fun rows v => (rows v).insertionSort (fun x y => x.1 ≤ y.1)

/-- what the algorithm takes from `ENERGY` and the dense linear algebra: `GetApproxWeight`, `CalcQs`, `GetEMatrix`, the
regularisation of the edge matrix (2632-2641: `RegTM` if the neighbour is in the same aggregate, which is the argument; for
scalars `max2(EMAT, 1e-8)`) and `CalcInverse`. All of them are arbitrary functions -/
structure Energy (VD ED : Type) (n : ℕ) where
  approx : ED → ℝ
  qs : VD → VD → Mt n n ℝ × Mt n n ℝ
  emat : ED → Mt n n ℝ
  reg : Bool → Mt n n ℝ → Mt n n ℝ
  inv : Mt n n ℝ → Mt n n ℝ

/-- options `sp_min_frac`, `sp_max_per_row`, `sp_omega` (2474-2477) -/
structure Opts where
  minFrac : ℝ
  maxPerRow : ℕ
  omega : ℝ

/-- the input: fine mesh, connectivity, vertex map and number of coarse vertices; `allowed V c` is `IsLEQ(EQ of V, EQ of c)`
(2518-2519, always true on one process); `sortDesc` is the `QuickSort` of 2532, which may order equal weights in any way -/
structure Input (VD ED : Type) where
  mesh : Mesh VD ED
  econ : ℕ → List (ℕ × ℕ)
  vmap : ℕ → Option ℕ
  ncv : ℕ
  allowed : ℕ → ℕ → Bool
  sortDesc : List (ℕ × ℝ) → List (ℕ × ℝ)

variable {VD ED : Type} {n : ℕ}

/-- `dg_wt` (2490-2496): the maximal approximate weight of the edges of a vertex -/
noncomputable def dgWt (E : Energy VD ED n) (M : Mesh VD ED) : ℕ → ℝ :=
  (List.range M.edges.length).foldl (fun d e =>
    let w := E.approx (M.edata e)
    let d := Function.update d (M.edge e).1 (max (d (M.edge e).1) w)
    Function.update d (M.edge e).2 (max (d (M.edge e).2) w)) (fun _ => 0)

/-- 2522-2527: add `wt` to the weight of a coarse vertex, appending it if it is not there -/
noncomputable def addWt (trow : List (ℕ × ℝ)) (c : ℕ) (wt : ℝ) : List (ℕ × ℝ) :=
  if c ∈ trow.map Prod.fst then trow.map fun x => if x.1 = c then (x.1, x.2 + wt) else x else trow ++ [(c, wt)]

/-- 2505-2530: `(in_wt, trow)` -/
noncomputable def collectRow (E : Energy VD ED n) (I : Input VD ED) (V CV : ℕ) : ℝ × List (ℕ × ℝ) :=
  (I.econ V).foldl (fun s x => match I.vmap x.1 with
    | none => s
    | some cov =>
      if cov = CV then (s.1 + E.approx (I.mesh.edata x.2), s.2)
      else if I.allowed V cov then (s.1, addWt s.2 cov (E.approx (I.mesh.edata x.2)))
      else s) (0, [])

/-- the loop 2537-2543 -/
noncomputable def pick (frac dgwt : ℝ) : ℝ → List (ℕ × ℝ) → List ℕ
  | _, [] => []
  | cw, x :: l => by
    classical exact
      if ¬(x.2 > frac * (cw + x.2)) ∨ x.2 < frac * dgwt then [] else x.1 :: pick frac dgwt (cw + x.2) l

/-- `fin_row` (2533-2544); without room for the own coarse vertex the loop bound is negative and wraps around, `graph[V]` has no
entries -/
noncomputable def finRow (E : Energy VD ED n) (O : Opts) (I : Input VD ED) (V CV : ℕ) : Option (List ℕ) :=
  let s := collectRow E I V CV
  if O.maxPerRow = 0 then none
  else
    let l := (I.sortDesc s.2).take (min (O.maxPerRow - 1) (I.sortDesc s.2).length)
    some ((CV :: pick O.minFrac (dgWt E I.mesh V) (0.2 * s.1) l).insertionSort (· ≤ ·))

/-- number of neighbours whose coarse vertex is in `row` (2551-2560, `find_in_sorted_array` is membership) -/
def countIn (I : Input VD ED) (V : ℕ) (row : List ℕ) : ℕ :=
  (I.econ V).countP fun x => match I.vmap x.1 with
    | none => false
    | some c => row.contains c

/-- number of neighbours in the same aggregate, `nniscv` (2561-2562) -/
def countSame (I : Input VD ED) (V CV : ℕ) : ℕ := (I.econ V).countP fun x => I.vmap x.1 = some CV

/-- `(graph[V], perow[V])` for a vertex that is not at the ground (2545-2579) -/
noncomputable def graphRow (E : Energy VD ED n) (O : Opts) (I : Input VD ED) (V CV : ℕ) : Option (List ℕ × ℕ) :=
  (finRow E O I V CV).map fun row =>
    if row.length = 1 then (row, 1)
    else if countSame I V CV = 0 then ([CV], 1)
    else (row, countIn I V row + 1)

/-- `une` (2602-2616): the vertex itself (edge number -1) and the used neighbours with edge numbers, by vertex number -/
def usedNbs (I : Input VD ED) (V : ℕ) (grow : List ℕ) : List (ℕ × Option ℕ) :=
  ((V, none) :: ((I.econ V).filter fun x => match I.vmap x.1 with
    | none => false
    | some c => grow.contains c).map fun x => (x.1, some x.2)).insertionSort (fun a b => a.1 ≤ b.1)

/-- `Q = Trans(Qij) * EMAT` and `Qij`, `Qji` for an edge of `V` (2627-2644) -/
def edgeTerm (E : Energy VD ED n) (I : Input VD ED) (V CV : ℕ) (nb eid : ℕ) : Mt n n ℝ × Mt n n ℝ × Mt n n ℝ :=
  let edge := I.mesh.edge eid
  let q := if V = edge.1 then E.qs (I.mesh.vdata edge.1) (I.mesh.vdata edge.2)
    else E.qs (I.mesh.vdata edge.2) (I.mesh.vdata edge.1)
  (q.1.transpose * E.reg (I.vmap nb = some CV) (E.emat (I.mesh.edata eid)), q.1, q.2)

/-- one row of `RM` (2587-2676) -/
noncomputable def rmRow (E : Energy VD ED n) (O : Opts) (I : Input VD ED) (V : ℕ) : Option (List (ℕ × Mt n n ℝ)) :=
  match I.vmap V with
  | none => some []
  | some CV => (graphRow E O I V CV).bind fun g =>
    if g.2 = 1 then some [(V, 1)]
    else
      let une := usedNbs I V g.1
      if une.length ≠ g.2 then none
      else
        let diag := (une.map fun x => match x.2 with
          | none => 0
          | some e =>
            let t := edgeTerm E I V CV x.1 e
            t.1 * t.2.1).sum
        let X := E.inv diag
        some (une.map fun x => match x.2 with
          | none => (x.1, 1 - O.omega • (X * diag))
          | some e =>
            let t := edgeTerm E I V CV x.1 e
            (x.1, O.omega • (X * (t.1 * t.2.2))))

/-- `RM` (2580-2676): created with `NCV` columns although its columns are fine vertices -/
noncomputable def rmat (E : Energy VD ED n) (O : Opts) (I : Input VD ED) : Option (CSR (Mt n n ℝ)) :=
  (collect I.mesh.nv fun V => rmRow E O I V).map fun rows =>
    { height := I.mesh.nv, width := I.ncv, row := rows }

/-- the smoothed prolongation `MatMultAB(RM, pwprol)` (2684-2685) -/
noncomputable def sprol (nhash : ℕ → ℕ) (junk mjunk : ℕ → ℕ → ℕ × ℕ) (E : Energy VD ED n) (O : Opts) (I : Input VD ED)
    (pw : CSR (Mt n n ℝ)) : Option (CSR (Mt n n ℝ)) :=
  (rmat E O I).bind fun RM => matMultAB nhash junk mjunk RM pw

end NgsAMG.SProl
