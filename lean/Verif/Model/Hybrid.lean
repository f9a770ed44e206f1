import Verif.Model.DCC
import Verif.Model.CSR
import Verif.Model.SortedArray
import Verif.Model.Traversal

/-!
Model of `DecomposeSparseMatrixHybrid`, `/repo/src/base/linalg/hybrid_matrix.cpp:20-277`: the splitting of a matrix that is given
by a sum of process-local matrices into a master-master part `M` and a remainder `G`.

As in `Verif.Model.DCC` neighbours are addressed by rank instead of their position `kp` in `ex_procs`. A sparse matrix with the rows
`0..n-1` that is sent to another process is the list of its rows. The outer `none` of a result is undefined behaviour (an access
outside of an array).
-/

namespace NgsAMG.Hybrid

open NgsAMG.DCC

variable {E : Type}

/-- rows of a sparse matrix that is sent -/
abbrev Rows (E : Type) := List (List (ℕ × E))

/-- `find_in_sorted_array`: inner `none` is `-1` -/
def findPos (x : ℕ) (a : List ℕ) : Option (Option ℕ) :=
  (SortedArray.find x a).map fun
    | .pos i => some i
    | .sentinel => none

/-- one row of `SPM_DIAG`, hybrid_matrix.cpp:62-78, 88-92 (`iterate_coo` for one `i`) -/
def diagRow (A : CSR E) (dofs : List ℕ) (d : ℕ) : Option (List (ℕ × E)) :=
  ((A.row d).mapM fun e => (findPos e.1 dofs).map fun o => o.map fun j => (j, e.2)).map fun l => l.filterMap id

/-- `SPM_DIAG`, hybrid_matrix.cpp:58-95: the diagonal block of `A` for `dofs` -/
def spmDiag (A : CSR E) (dofs : List ℕ) : Option (Rows E) := dofs.mapM (diagRow A dofs)

/-- the variables of `iterate_rowinds`: `at_row` and `recv_mats` (modified in place), hybrid_matrix.cpp:122-125 -/
structure RecvSt (E : Type) where
  atRow : ℕ → ℕ
  mats : ℕ → Rows E

/-- lines 143-154: which received matrices have the row; `row_matis` and the new `at_row`. `at_row[kp]` counts from 0 and never
exceeds the size, so that the test for equality in line 146 is the test for being in range. -/
def takeMats (P : PD) (p rownr : ℕ) (atRow : ℕ → ℕ) : List ℕ × (ℕ → ℕ) :=
  (P.exProcs p).foldl (fun s q =>
    match (P.mEx p q)[s.2 q]? with
    | none => s
    | some d => if d > rownr then s else (s.1 ++ [q], Function.update s.2 q (s.2 q + 1))) ([], atRow)

/-- `cols[j] = mxd[cols[j]]`, line 169 -/
def remapRow (mxd : List ℕ) (row : List (ℕ × E)) : Option (List (ℕ × E)) := row.mapM fun e => (mxd[e.1]?).map fun c => (c, e.2)

/-- lines 160-170: remapping only `if (map_exd)` -/
def fixRow (mapExd : Bool) (mxd : List ℕ) (row : List (ℕ × E)) : Option (List (ℕ × E)) :=
  if mapExd then remapRow mxd row else some row

/-- lines 159-173: remap (in place, if `map_exd`) the received rows -/
def remapMats (P : PD) (p : ℕ) (mapExd : Bool) (at' : ℕ → ℕ) (matis : List ℕ) (mats : ℕ → Rows E) : Option (ℕ → Rows E) :=
  matis.foldlM (fun mats q => do
    let row ← (mats q)[at' q - 1]?
    let row' ← fixRow mapExd (P.mEx p q) row
    some (Function.update mats q ((mats q).set (at' q - 1) row'))) mats

/-- what `iterate_rowinds` hands to `fun` for one row: the columns, and the received rows (`recv_mats[kp]`, row `at_row[kp]-1`) -/
structure RowOut (E : Type) where
  cols : List ℕ
  recv : Rows E

/-- one round of `iterate_rowinds`, lines 135-213 -/
def rowStep (P : PD) (p : ℕ) (A : CSR E) (mapExd : Bool) (rownr : ℕ) (st : RecvSt E) : Option (RecvSt E × Option (RowOut E)) :=
  if P.isMaster p rownr then
    let own := ((A.row rownr).map Prod.fst).filter (P.isMaster p)
    if (P.dps p rownr).isEmpty then some (st, some ⟨own, []⟩)
    else
      let (matis, at') := takeMats P p rownr st.atRow
      do
        let mats' ← remapMats P p mapExd at' matis st.mats
        let rows ← matis.mapM fun q => (mats' q)[at' q - 1]?
        let all := rows.map (List.map Prod.fst) ++ [own]
        let merged ← Traversal.mergeTable (all.map List.length).sum all
        some (⟨at', mats'⟩, some ⟨merged, rows⟩)
  else some (st, none)

/-- `iterate_rowinds`, lines 128-215: all rows, starting with `at_row = 0` -/
def pass (P : PD) (p : ℕ) (A : CSR E) (mapExd : Bool) (mats : ℕ → Rows E) :
    ℕ → Option (RecvSt E × List (Option (RowOut E)))
  | 0 => some (⟨fun _ => 0, mats⟩, [])
  | n + 1 => do
    let (st, out) ← pass P p A mapExd mats n
    let (st', o) ← rowStep P p A mapExd n st
    some (st', out ++ [o])

/-- `add_vals`, lines 232-241 -/
def addVals [Add E] (ris : List ℕ) (rvs : List E) (row : List (ℕ × E)) : Option (List E) :=
  row.foldlM (fun rvs e =>
    match findPos e.1 ris with
    | none => none
    | some none => some rvs
    | some (some pos) => (rvs[pos]?).map fun v => rvs.set pos (v + e.2)) rvs

/-- the second use of `iterate_rowinds`, lines 224-252, for one row; `size` is `perow[rownr]` of the first use (lines 217-222): the
assignment `ris = rowis` needs it to be the number of columns -/
def mRow [Zero E] [Add E] (A : CSR E) (rownr size : ℕ) (o : Option (RowOut E)) : Option (List (ℕ × E)) :=
  match o with
  | none => if size = 0 then some [] else none
  | some o =>
    if o.cols.length = size then do
      let rvs ← addVals o.cols (List.replicate size 0) (A.row rownr)
      let rvs ← o.recv.foldlM (addVals o.cols) rvs
      some (o.cols.zip rvs)
    else none

/-- `perow`, lines 217-220 -/
def perow (out : List (Option (RowOut E))) (i : ℕ) : ℕ :=
  match out[i]? with
  | some (some o) => o.cols.length
  | _ => 0

/-- merge diag-mats, lines 114-255 -/
def buildM [Zero E] [Add E] (P : PD) (p : ℕ) (A : CSR E) (mats : ℕ → Rows E) : Option (CSR E) := do
  let (st, out1) ← pass P p A true mats A.height
  let (_, out2) ← pass P p A false st.mats A.height
  let rows ← (List.range A.height).mapM fun i => do
    let o ← out2[i]?
    mRow A i (perow out1 i) o
  some ⟨A.height, A.height, fun i => rows[i]?.getD []⟩

/-- `master_of`, lines 263-269; `none` is `-1` -/
def masterOf (P : PD) (p : ℕ) : ℕ → Option ℕ :=
  (P.exProcs p).foldl (fun m q => (P.gEx p q).foldl (fun m d => Function.update m d (some q)) m) fun _ => none

/-- build G-matrix, lines 260-301 -/
def buildG (P : PD) (p : ℕ) (A : CSR E) : CSR E :=
  ⟨A.height, A.height, fun i => (A.row i).filter fun e => masterOf P p e.1 != masterOf P p i⟩

/-- `DecomposeSparseMatrixHybrid` on process `p`, given the matrices received from the neighbours -/
def decompose [Zero E] [Add E] (P : PD) (p : ℕ) (A : CSR E) (recv : ℕ → Option (Rows E)) : Option (CSR E × Option (CSR E)) :=
  if (P.exProcs p).isEmpty then some (A, none)
  else if (P.exProcs p).all fun q => (recv q).isSome then do
    let M ← buildM P p A fun q => (recv q).getD []
    some (M, some (buildG P p A))
  else none

/-- the communication, lines 97-112: every process sends a (possibly empty) matrix to each neighbour, and receives one. The local
state is the given matrix and the result. -/
def decomposePhase [Zero E] [Add E] (P : PD) : Exch.Phase (CSR E × Option (CSR E × Option (CSR E))) (Option (Rows E)) where
  sends p q := (P.exProcs p).contains q
  recvs p q := (P.exProcs p).contains q
  msg p v q := spmDiag v.1 (P.gEx p q)
  start _ v := v
  apply p v buf := (v.1, decompose P p v.1 buf)

end NgsAMG.Hybrid
