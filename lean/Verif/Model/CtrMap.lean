import Verif.Model.HybridMatrix
import Verif.Model.MergeArrays
import Verif.Model.SortedArray
import Verif.Model.Permutation
import Verif.Model.SparseMM

/-!
# Model of `CtrMap`: unknowns, vectors and matrices of groups of processes gathered at one process per group

Source: `/repo/src/base/coarsening/dof_contract.cpp:1-725`, `dof_contract.hpp`.

The communication between the processes of the fine level uses `Verif.Model.Exchange`. `BaseVector::Cumulate` and `Distribute` (NGSolve) are replaced by their results
(`Verif.Model.HybridMatrix`). Scalars are real numbers. `PrintTo`, `Concatenate` (does nothing) and timers are not modelled.
-/

namespace NgsAMG.Ctr
open NgsAMG.DCC NgsAMG.HybSm NgsAMG.HybMat

/-- the members `group` (the same on all processes of a group) and `dof_maps` (on the master only) of the `CtrMap`s of all processes, dof_contract.hpp:64-67; group number `gi` is rank `gi` of the
communicator of the masters -/
structure Ctr where
  ng : ℕ
  group : ℕ → List ℕ
  maps : ℕ → List (List ℕ)

/-- the group of a process, dof_contract.cpp:14 -/
def Ctr.grpOf (C : Ctr) (p : ℕ) : ℕ := ((List.range C.ng).find? fun gi => (C.group gi).contains p).getD 0
/-- `master(group[0])`, dof_contract.cpp:15 -/
def Ctr.master (C : Ctr) (gi : ℕ) : ℕ := ((C.group gi)[0]?).getD 0
/-- `is_gm`, dof_contract.cpp:18 -/
def Ctr.isGm (C : Ctr) (p : ℕ) : Bool := p == C.master (C.grpOf p)
/-- `dof_maps[kp]`, dof_contract.hpp:67 -/
def Ctr.map (C : Ctr) (gi kp : ℕ) : List ℕ := ((C.maps gi)[kp]?).getD []
/-- the members `kp ≥ 1` with `dof_maps[kp].Size() > 0`, dof_contract.cpp:87-98, 152-157 -/
def Ctr.active (C : Ctr) (gi : ℕ) : List ℕ := (List.range' 1 ((C.group gi).length - 1)).filter fun kp => 0 < (C.map gi kp).length
/-- rank of member `kp`, dof_contract.hpp:64 -/
def Ctr.rank (C : Ctr) (gi kp : ℕ) : ℕ := ((C.group gi)[kp]?).getD 0

variable {k : ℕ}

/-- memory of one process during a transfer, dof_contract.cpp:63-235: the entries of `x_fine`, of `x_coarse` (on masters), and `ok = false` if something undefined has happened -/
structure VS (k : ℕ) where
  fine : BVec k
  coarse : BVec k
  ok : Bool

/-- `fvc(map[j]) += fac * buf[j]`, dof_contract.cpp:99-100, 106-109 -/
def addMapped (fac : ℝ) (map : List ℕ) (buf : ℕ → Fin k → ℝ) (c : BVec k) : BVec k :=
  map.zipIdx.foldl (fun c e => Function.update c e.1 (c e.1 + fac • buf e.2)) c

/-- does process `p` of a group hand its values to its master: not the master, and has unknowns, dof_contract.cpp:76-83, 139-148 -/
def Ctr.hands (C : Ctr) (P : PD) (p : ℕ) : Bool := !C.isGm p && decide (0 < P.ndof p)

/-- does the master `p` exchange with process `q`, dof_contract.cpp:87-98, 152-157 -/
def Ctr.serves (C : Ctr) (p q : ℕ) : Bool := C.isGm p && (C.active (C.grpOf p)).any fun kp => C.rank (C.grpOf p) kp == q

/-- `AddF2C` after `Distribute`, dof_contract.cpp:63-112. `arr p` is the order in which `MPI_Waitany` reports the messages. A message whose size is not that of `buffers[kp]` is undefined -/
noncomputable def addF2CPhase (C : Ctr) (P : PD) (fac : ℝ) (arr : ℕ → List ℕ) : Exch.Phase (VS k) (List (Fin k → ℝ)) where
  sends p q := C.hands P p && C.master (C.grpOf p) == q
  recvs p q := C.serves p q
  msg p v _ := (List.range (P.ndof p)).map v.fine
  start _ v := v
  apply p v recv :=
    if C.isGm p then
      let gi := C.grpOf p
      let c0 := addMapped fac (C.map gi 0) v.fine v.coarse
      { v with
        coarse := (arr p).foldl (fun c kp => addMapped fac (C.map gi kp) (fun j => (recv (C.rank gi kp)).getD j 0) c) c0
        ok := v.ok && (arr p).all fun kp => (recv (C.rank gi kp)).length == (C.map gi kp).length }
    else v

/-- `TransferC2F` (`add = none`) after `Cumulate`, dof_contract.cpp:115-165, and `AddC2F` (`add = some fac`), dof_contract.cpp:168-221. The MPI type of member `kp` selects the entries
`dof_maps[kp]` as they were when `SetUpMPIStuff` was called (`T`), dof_contract.cpp:511-515 -/
noncomputable def c2fPhaseT (T C : Ctr) (P : PD) (add : Option ℝ) : Exch.Phase (VS k) (List (Fin k → ℝ)) where
  sends p q := C.serves p q
  recvs p q := C.hands P p && C.master (C.grpOf p) == q
  msg p v q := ((C.active (C.grpOf p)).find? fun kp => C.rank (C.grpOf p) kp == q).elim [] fun kp => (T.map (C.grpOf p) kp).map v.coarse
  start _ v := v
  apply p v recv :=
    let put (src : ℕ → Option (Fin k → ℝ)) : BVec k := fun j => match src j with
      | some a => (match add with | none => a | some fac => v.fine j + fac • a)
      | none => v.fine j
    if C.isGm p then { v with fine := put fun j => ((C.map (C.grpOf p) 0)[j]?).map v.coarse }
    else if C.hands P p then
      let m := recv (C.master (C.grpOf p))
      { v with fine := put fun j => m[j]?, ok := v.ok && m.length == P.ndof p }
    else v

/-- `SetUpMPIStuff` on a master, dof_contract.cpp:503-537: the argument is what an earlier call has left; a second call does nothing (506-511) -/
def setUpMPI (t : Option Ctr) (C : Ctr) : Option Ctr := some (t.getD C)

/-- the transfer of a map whose MPI types are up to date -/
noncomputable abbrev c2fPhase (C : Ctr) (P : PD) (add : Option ℝ) : Exch.Phase (VS k) (List (Fin k → ℝ)) := c2fPhaseT C C P add

/-- `AddF2C` on all processes: what the phase starts from, dof_contract.cpp:74, 84; `Pc`: the unknowns of the masters -/
def startF2C (C : Ctr) (P Pc : PD) (xDist : Bool) (x : ℕ → BVec k) (yDist : Bool) (y : ℕ → BVec k) (p : ℕ) : VS k :=
  ⟨distributeIf P xDist x p, distributeIf Pc yDist y (C.grpOf p), true⟩

/-- `TransferF2C` sets the coarse vector to zero first, dof_contract.cpp:58-60 -/
def startTransferF2C (P : PD) (xDist : Bool) (x : ℕ → BVec k) (p : ℕ) : VS k := ⟨distributeIf P xDist x p, 0, true⟩

/-- `TransferC2F`, dof_contract.cpp:127, 149: the old entries of the fine vector stay -/
def startTransferC2F (C : Ctr) (Pc : PD) (x : ℕ → BVec k) (yDist : Bool) (y : ℕ → BVec k) (p : ℕ) : VS k := ⟨x p, cumulate Pc yDist y (C.grpOf p), true⟩

/-- `AddC2F`, dof_contract.cpp:179, 196 -/
def startAddC2F (C : Ctr) (P Pc : PD) (xDist : Bool) (x : ℕ → BVec k) (yDist : Bool) (y : ℕ → BVec k) (p : ℕ) : VS k :=
  ⟨cumulate P xDist x p, cumulate Pc yDist y (C.grpOf p), true⟩

/-! ### `DoAssembleMatrix` -/

variable {E : Type}

/-- `QuickSortI(cols, inds)`: the positions of a list in an order that sorts it -/
abbrev SortI := ∀ n : ℕ, (Fin n → ℕ) → Fin n → ℤ

/-- `reverse_map[r]`, dof_contract.cpp:580-588: the pairs `(k, j)` with `dof_maps[k][j] = r` -/
def revRow (maps : List (List ℕ)) (r : ℕ) : List (ℕ × ℕ) :=
  maps.zipIdx.flatMap fun m => m.1.zipIdx.filterMap fun c => if c.1 = r then some (m.2, c.2) else none

/-- `needs_sort`, dof_contract.cpp:625-630, 642-648, 654-660; `last` is the previous entry -/
def needsSort : ℕ → List ℕ → Bool
  | _, [] => false
  | last, c :: cs => decide (c < last) || needsSort c cs

/-- column numbers in contracted numbering, dof_contract.cpp:627, 644, 656 -/
def remapRow (map : List ℕ) (row : List (ℕ × E)) : Option (List (ℕ × E)) := row.mapM fun e => (map[e.1]?).map fun c => (c, e.2)

/-- `QuickSort` of column numbers if needed, dof_contract.cpp:631, 661 -/
def sortCols (cs : List ℕ) : List ℕ := if needsSort 0 cs then cs.insertionSort (· ≤ ·) else cs

/-- `QS_COL_VAL`, dof_contract.cpp:597-612: columns and values are permuted along the cycles of the sorting permutation -/
def qsColVal (sortI : SortI) (row : List (ℕ × E)) : Option (List (ℕ × E)) :=
  (Permutation.applyInPlace row.length (fun i : Fin row.length => row[i]) (sortI row.length fun i => row[i].1)).map fun r => List.ofFn r.1

/-- a row of member `km ≠ 0` when rows are merged, dof_contract.cpp:641-650: it is overwritten in place -/
def mapInPlace (sortI : SortI) (map : List ℕ) (row : List (ℕ × E)) : Option (List (ℕ × E)) :=
  (remapRow map row).bind fun r => if needsSort 0 (r.map Prod.fst) then qsColVal sortI r else some r

/-- the row of `(km, jm)` as it is used after merging: columns handed to `MergeArrays`, and the contents of the matrix row afterwards, dof_contract.cpp:634-665.
A row belongs to one contracted row only, so that the modified row is read only there -/
def prepRow (sortI : SortI) (maps : List (List ℕ)) (mats : List (CSR E)) (kj : ℕ × ℕ) : Option (List ℕ × List (ℕ × E)) :=
  (maps[kj.1]?).bind fun map => (mats[kj.1]?).bind fun A =>
    if kj.1 ≠ 0 then (mapInPlace sortI map (A.row kj.2)).map fun r => (r.map Prod.fst, r)
    else (remapRow map (A.row kj.2)).map fun r => (sortCols (r.map Prod.fst), A.row kj.2)

/-- `rvs[pos] = v` or `rvs[pos] += v` with `pos = find_in_sorted_array(c, ris)`, dof_contract.cpp:694-697, 709-711; not found: undefined -/
def putVal (ris : List ℕ) (f : E → E → E) (vals : ℕ → E) (c : ℕ) (v : E) : Option (ℕ → E) :=
  match SortedArray.find c ris with
  | some (.pos i) => some (Function.update vals i (f (vals i) v))
  | _ => none

/-- the values of `(km, jm)` added to row `ris`, dof_contract.cpp:704-712; `row` is what is stored for it, `map` is applied for `km = 0` only -/
def addRow [Add E] (ris : List ℕ) (km : ℕ) (map : List ℕ) (vals : ℕ → E) (row : List (ℕ × E)) : Option (ℕ → E) :=
  row.foldlM (fun vals e => (if km = 0 then map[e.1]? else some e.1).bind fun c => putVal ris (· + ·) vals c e.2) vals

/-- one row of the contracted matrix, dof_contract.cpp:613-715. `junk` is the uninitialised memory of the values, `mjunk` that of `MergeArrays`. Two rows of member zero share the buffer `mc_buffer`,
which is treated as undefined (maps are injective) -/
def asmRow [Zero E] [Add E] (sortI : SortI) (mjunk : ℕ → ℕ × ℕ) (junk : ℕ → E) (maps : List (List ℕ)) (mats : List (CSR E)) (r : ℕ) : Option (List (ℕ × E)) :=
  match revRow maps r with
  | [] => some []
  | [(km, jm)] =>
    (maps[km]?).bind fun map => (mats[km]?).bind fun A => (remapRow map (A.row jm)).bind fun row =>
      let ris := sortCols (row.map Prod.fst)
      (row.foldlM (fun vals e => putVal ris (fun _ v => v) vals e.1 e.2) junk).map fun vals => ris.zipIdx.map fun e => (e.1, vals e.2)
  | kjs =>
    if 1 < (kjs.filter fun kj => kj.1 = 0).length then none
    else (kjs.mapM (prepRow sortI maps mats)).bind fun rows =>
      (MergeArrays.run mjunk (rows.map Prod.fst)).bind fun ris =>
        ((kjs.zip rows).foldlM (fun vals kr => addRow ris kr.1.1 ((maps[kr.1.1]?).getD []) vals kr.2.2) 0).map fun vals => ris.zipIdx.map fun e => (e.1, vals e.2)

/-- `DoAssembleMatrix` on a master, from the received matrices on, dof_contract.cpp:574-722. An entry of `dof_maps` outside of the contracted unknowns is undefined (580-588) -/
def assembleMat [Zero E] [Add E] (sortI : SortI) (mjunk : ℕ → ℕ → ℕ × ℕ) (junk : ℕ → ℕ → E) (maps : List (List ℕ)) (mats : List (CSR E)) (cndof : ℕ) : Option (CSR E) :=
  if maps.all fun m => m.all fun c => c < cndof then
    (SparseMM.collect cndof fun r => asmRow sortI (mjunk r) (junk r) maps mats r).map fun rows => ⟨cndof, cndof, rows⟩
  else none

/-- `DoAssembleMatrix` on all processes, dof_contract.cpp:541-722: members send their matrix; the second component is the result on masters -/
def assemblePhase [Zero E] [Add E] (C : Ctr) (Pc : PD) (sortI : SortI) (mjunk : ℕ → ℕ → ℕ → ℕ × ℕ) (junk : ℕ → ℕ → ℕ → E) : Exch.Phase (CSR E × Option (CSR E)) (CSR E) where
  sends p q := !C.isGm p && C.master (C.grpOf p) == q
  recvs p q := C.isGm p && (C.group (C.grpOf p)).tail.contains q
  msg _ v _ := v.1
  start _ v := v
  apply p v recv :=
    if C.isGm p then
      let gi := C.grpOf p
      (v.1, assembleMat sortI (mjunk p) (junk p) (C.maps gi) (v.1 :: (C.group gi).tail.map recv) (Pc.ndof gi))
    else v

/-! ### `SwapWithProl` -/

/-- `new_dmap` of `get_rows`, dof_contract.cpp:372-391: the columns of the listed rows in increasing order -/
def newDmap (R : CSR E) (dmap : List ℕ) : List ℕ := (List.range R.width).filter fun c => dmap.any fun r => (R.row r).any fun e => e.1 == c

/-- `rmap[c]` (`none`: -1), dof_contract.cpp:386-391 -/
def rmap (nd : List ℕ) (c : ℕ) : Option ℕ := if nd.contains c then some (nd.idxOf c) else none

/-- `Pchunk`, dof_contract.cpp:392-409: a row of `R` outside of it is undefined, as is a column that is not in the matrix -/
def chunk (R : CSR E) (dmap : List ℕ) : Option (CSR E) :=
  if dmap.all fun r => decide (r < R.height) && (R.row r).all fun e => decide (e.1 < R.width) then
    some ⟨dmap.length, (newDmap R dmap).length, fun j => ((dmap[j]?).elim [] fun r => R.row r).filterMap fun e => (rmap (newDmap R dmap) e.1).map fun c => (c, e.2)⟩
  else none

/-- `SwapWithProl`, dof_contract.cpp:301-490, on one master: the new `dof_maps` and the prolongations of the members (the latter are sent to them, 452-468) -/
def swapMaster (maps : List (List ℕ)) (R : CSR E) : Option (List (List ℕ) × List (CSR E)) := (maps.mapM (chunk R)).map fun cs => (maps.map (newDmap R), cs)

/-- `SwapWithProl` on all processes: masters send the parts (`master` itself keeps the first), members receive; state: the prolongation after contraction (on masters), the new prolongation,
dof_contract.cpp:316-320, 452-468 -/
def swapPhase (C : Ctr) : Exch.Phase (Option (CSR E) × Option (CSR E)) (Option (CSR E)) where
  sends p q := C.isGm p && (C.group (C.grpOf p)).tail.contains q
  recvs p q := !C.isGm p && C.master (C.grpOf p) == q
  msg p v q := v.1.bind fun R => (swapMaster (C.maps (C.grpOf p)) R).bind fun r => r.2[(C.group (C.grpOf p)).idxOf q]?
  start _ v := v
  apply p v recv :=
    if C.isGm p then (v.1, v.1.bind fun R => (swapMaster (C.maps (C.grpOf p)) R).bind fun r => r.2[0]?)
    else (v.1, recv (C.master (C.grpOf p)))

/-- the contraction after `SwapWithProl`, dof_contract.cpp:470-475 -/
def Ctr.swapped (C : Ctr) (R : ℕ → CSR E) : Ctr := { C with maps := fun gi => (C.maps gi).map (newDmap (R gi)) }

end NgsAMG.Ctr
