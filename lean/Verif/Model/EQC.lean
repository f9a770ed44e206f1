import Verif.Model.DCC
import Mathlib.Data.List.Sort

/-!
# Model of the equivalence-class hierarchy (EQCs: sets of DOFs/vertices shared by the same processes)

Source: `/repo/src/base/distributed/eqchierarchy.{hpp,cpp}`.

Conventions. A family of equivalence classes of process `p` is the list of its *distant processes* (`dps`): sorted lists of ranks
not containing `p`. `QuickSort` of integers is the sort into ascending order. `none` is an out-of-range access, a receive
without a message, or a loop that did not end within `fuel` iterations (the theorems show that `2 ^ np + 2` is enough).
MPI: communication phases of `Verif.Model.Exchange`; several messages from `p` to `q` with the same tag are received in
the order in which they were sent (MPI: non-overtaking), so they are one message, the list of them.
-/

namespace NgsAMG.EQC

open NgsAMG.Exch NgsAMG.DCC

/-- a loop `for (i = ..; i < size(); i++)` whose bound is evaluated in each iteration -/
def dynFor {S : Type} (size : S → ℕ) (body : ℕ → S → Option S) : ℕ → ℕ → S → Option S
  | 0, _, _ => none
  | fuel + 1, i, s => if i < size s then (body i s).bind (dynFor size body fuel (i + 1)) else some s

/-! ### SetupFromInitialDPs -/

/-- eqchierarchy.cpp:357-367, `v_exps`: all distant processes, sorted -/
def vExps (V : List (List ℕ)) : List ℕ := (V.flatten.dedup).insertionSort (· ≤ ·)

/-- eqchierarchy.cpp:373-387 and 664-682, `merge`/`merge_arrays`: merge two sorted arrays without duplicates -/
def mergeL : List ℕ → List ℕ → List ℕ
  | [], bs => bs
  | a :: as, [] => a :: as
  | a :: as, b :: bs =>
    if a < b then a :: mergeL as (b :: bs)
    else if b < a then b :: mergeL (a :: as) bs
    else a :: mergeL as bs
termination_by as bs => as.length + bs.length

/-- eqchierarchy.cpp:398-421: the merged class is added if some class is a superset and none is the same. (The loop over `e3`
stops at the first class that is the same; `valid` is used only if it ran through.) -/
def addUnion (e1 : ℕ) (F : List (List ℕ)) (e2 : ℕ) : List (List ℕ) :=
  let m := mergeL (F.getD e1 []) (F.getD e2 [])
  let valid := F.any fun d => m.all fun p => d.contains p
  let isNew := !(F.any fun d => (m.all fun p => d.contains p) && d.length == m.length)
  if valid && isNew then F ++ [m] else F

/-- eqchierarchy.cpp:394-422: the double loop; `n1 = new_dps.Size()` at all times -/
def unionLoop (fuel : ℕ) (V : List (List ℕ)) : Option (List (List ℕ)) :=
  dynFor List.length (fun e1 F => some ((List.range e1).foldl (addUnion e1) F)) fuel 0 V

/-- eqchierarchy.cpp:433-459: the message with the new classes for process `q`: number, then size and members of each -/
def encode (N : List (List ℕ)) : List ℕ := N.length :: N.flatMap fun d => d.length :: d

/-- eqchierarchy.cpp:472-476: read `n` chunks (size, members) -/
def decode : ℕ → List ℕ → Option (List (List ℕ))
  | 0, _ => some []
  | _ + 1, [] => none
  | n + 1, sz :: rest =>
    if sz ≤ rest.length then (decode n (rest.drop sz)).map fun ds => rest.take sz :: ds else none

/-- eqchierarchy.cpp:478-488: process `q` gets the class `d` from process `p`: its own rank is replaced by the rank of the sender
(an out-of-range access if it is not there), the result is sorted and added if it is new -/
def addReceived (q p : ℕ) (F : List (List ℕ)) (d : List ℕ) : Option (List (List ℕ)) :=
  if d.contains q then
    let c := (d.set (d.idxOf q) p).insertionSort (· ≤ ·)
    some (if F.contains c then F else F ++ [c])
  else none

/-- eqchierarchy.cpp:470-491: process one message -/
def addMessage (q p : ℕ) (F : List (List ℕ)) : List ℕ → Option (List (List ℕ))
  | [] => none
  | n :: rest => (decode n rest).bind fun ds => ds.foldlM (addReceived q p) F

/-- eqchierarchy.cpp:500-531: the body of the inner loop over `j`: add the intersection of the classes `k` and `j` if it is new -/
def addInter (k : ℕ) (j : ℕ) (s : List (List ℕ) × Bool) : Option (List (List ℕ) × Bool) :=
  let c := ((s.1.getD k []).filter fun p => (s.1.getD j []).contains p).insertionSort (· ≤ ·)
  some (if s.1.contains c then s else (s.1 ++ [c], true))

/-- eqchierarchy.cpp:498-534: one pass over all pairs (both bounds grow) -/
def interPass (fuel : ℕ) (F : List (List ℕ)) : Option (List (List ℕ) × Bool) :=
  dynFor (fun s => s.1.length) (fun k s => dynFor (fun s => s.1.length) (addInter k) fuel 0 s) fuel 0 (F, false)

/-- eqchierarchy.cpp:495-535: `while(changed)`; first argument: bound for the number of passes -/
def interLoop (fuel : ℕ) : ℕ → List (List ℕ) → Option (List (List ℕ))
  | 0, _ => none
  | n + 1, F => (interPass fuel F).bind fun r => if r.2 then interLoop fuel n r.1 else some r.1

/-! ### SetupFromDPs -/

/-- eqchierarchy.cpp:559-564: lexicographic comparison of two arrays of the same size -/
def lexLt : List ℕ → List ℕ → Bool
  | a :: as, b :: bs => if a < b then true else if b < a then false else lexLt as bs
  | _, _ => false

/-- eqchierarchy.cpp:552-565: the order of the classes: by size, then lexicographic -/
def eqLt (a b : List ℕ) : Bool :=
  if b.length < a.length then false else if a.length < b.length then true else lexLt a b

/-- eqchierarchy.cpp:549-590: the sorted table `dist_procs` -/
def sortEqcs (F : List (List ℕ)) : List (List ℕ) := F.insertionSort fun a b => eqLt b a = false

/-- eqchierarchy.hpp:70-71, `IsMasterOfEQC`, for the class with distant processes `d` -/
def isMaster (rank : ℕ) : List ℕ → Bool
  | [] => true
  | h :: _ => decide (rank < h)

/-- eqchierarchy.hpp:67-68, `GetMasterOfEQC` -/
def masterOf (rank : ℕ) : List ℕ → ℕ
  | [] => rank
  | h :: _ => min rank h

/-- mpiwrap_extension.hpp:12 -/
def tagBase : ℕ := 1020

/-- eqchierarchy.cpp:604-607: the number of shared classes this process is the master of -/
def nblocksLoc (rank : ℕ) (T : List (List ℕ)) : ℕ := (T.filter fun d => !d.isEmpty && isMaster rank d).length

/-- eqchierarchy.cpp:611-613: the first number this process hands out -/
def tagStart (np rank : ℕ) (nb : ℕ → ℕ) : ℕ := tagBase + np + ((List.range rank).map nb).sum

/-- eqchierarchy.cpp:617-624: the numbers sent to process `q`, in the order of the sends -/
def sendIds (rank q : ℕ) : List (List ℕ) → ℕ → List ℕ
  | [], _ => []
  | d :: T, t =>
    if !d.isEmpty && isMaster rank d then
      if d.contains q then t :: sendIds rank q T (t + 1) else sendIds rank q T (t + 1)
    else sendIds rank q T t

/-- eqchierarchy.cpp:618-630: `eqc_ids`. `Q h`: the numbers received from process `h` that are not used yet; the receives from one
process are served in the order in which they were posted. -/
def assignIds (rank : ℕ) : List (List ℕ) → ℕ → (ℕ → List ℕ) → Option (List ℕ)
  | [], _, _ => some []
  | [] :: T, t, Q => (assignIds rank T t Q).map ((tagBase + rank) :: ·)
  | (h :: _) :: T, t, Q =>
    if rank < h then (assignIds rank T (t + 1) Q).map (t :: ·)
    else match Q h with
      | [] => none
      | x :: xs => (assignIds rank T t (Function.update Q h xs)).map (x :: ·)

/-- eqchierarchy.cpp:632-634: `neqcs_glob` before the offset is subtracted, the size of the table `idf_2_ind`: the counter after the
loop (it includes the classes of this process) plus `nblocks[k]` for `k >= rank` -/
def idTableSize (np rank : ℕ) (nb : ℕ → ℕ) (T : List (List ℕ)) : ℕ :=
  tagStart np rank nb + nblocksLoc rank T + ((List.range' rank (np - rank)).map nb).sum

/-- eqchierarchy.cpp:641, `neqcs_glob` -/
def neqcsGlob (np rank : ℕ) (nb : ℕ → ℕ) (T : List (List ℕ)) : ℕ := idTableSize np rank nb T - tagBase

/-- eqchierarchy.cpp:637-639, `idf_2_ind` (`none` in the table: `-1`; `none` as result: write out of range) -/
def idToInd (size : ℕ) (ids : List ℕ) : Option (List (Option ℕ)) :=
  ids.zipIdx.foldlM (fun tab e => if e.1 < tab.length then some (tab.set e.1 (some e.2)) else none) (List.replicate size none)

/-- local state of a process during the set-up: current classes (`none`: something went wrong), gathered numbers of classes,
identifiers of the classes -/
structure LSt where
  fam : Option (List (List ℕ))
  nb : ℕ → ℕ
  ids : Option (List ℕ)

/-- eqchierarchy.cpp:428-535: the exchange of the new classes. All messages are sent, then one message is received from each process
of `v_exps`, they are worked off in ascending order of the processes; then the intersections are added and the table is sorted. -/
def newEqcPhase (fuel : ℕ) (V : ℕ → List (List ℕ)) : Phase LSt (List ℕ) where
  sends := fun p q => (vExps (V p)).contains q
  recvs := fun p q => (vExps (V p)).contains q
  msg := fun p v q => encode ((((v.fam.getD []).drop (V p).length)).filter fun d => d.contains q)
  start := fun _ v => v
  apply := fun p v m =>
    let f1 := v.fam.bind fun F => (vExps (V p)).foldlM (fun F q => addMessage p q F (m q)) F
    { v with fam := (f1.bind (interLoop fuel fuel)).map sortEqcs }

/-- eqchierarchy.cpp:608-610, `MPI_Allgather` of the number of classes -/
def gatherPhase (np : ℕ) : Phase LSt (List ℕ) where
  sends := fun p q => decide (q < np) && decide (p < np)
  recvs := fun p q => decide (q < np) && decide (p < np)
  msg := fun p v _ => [nblocksLoc p (v.fam.getD [])]
  start := fun _ v => v
  apply := fun _ v m => { v with nb := fun q => (m q).headD 0 }

/-- eqchierarchy.cpp:615-630: the masters send the identifiers. `T`: the sorted tables (they decide who sends to whom) -/
def idPhase (np : ℕ) (T : ℕ → List (List ℕ)) : Phase LSt (List ℕ) where
  sends := fun p q => (T p).any fun d => !d.isEmpty && isMaster p d && d.contains q
  recvs := fun p q => (T p).any fun d => !isMaster p d && (d.head? == some q)
  msg := fun p v q => sendIds p q (v.fam.getD []) (tagStart np p v.nb)
  start := fun _ v => v
  apply := fun p v m => { v with ids := v.fam.bind fun F => assignIds p F (tagStart np p v.nb) m }

/-- eqchierarchy.cpp:349-426: the state before the exchange -/
def initState (fuel : ℕ) (V : ℕ → List (List ℕ)) (p : ℕ) : LSt := ⟨unionLoop fuel (V p), fun _ => 0, none⟩

/-- what `SetupFromInitialDPs` finds on process `p` (the phases of the other processes in lockstep) -/
def closedTable (fuel : ℕ) (V : ℕ → List (List ℕ)) (p : ℕ) : Option (List (List ℕ)) :=
  ((newEqcPhase fuel V).apply p (initState fuel V p) fun q =>
    if (newEqcPhase fuel V).recvs p q then (newEqcPhase fuel V).msg q (initState fuel V q) p else default).fam

/-- `do_cutunion`: `SetupFromInitialDPs` followed by `SetupFromDPs`, eqchierarchy.cpp:349-641 -/
def setupProg (np fuel : ℕ) (V : ℕ → List (List ℕ)) : List (Phase LSt (List ℕ)) :=
  [newEqcPhase fuel V, gatherPhase np, idPhase np fun p => (closedTable fuel V p).getD []]

/-- not `do_cutunion`: only `SetupFromDPs` -/
def plainProg (np : ℕ) (V : ℕ → List (List ℕ)) : List (Phase LSt (List ℕ)) :=
  [gatherPhase np, idPhase np fun p => sortEqcs (V p)]

/-! ### queries -/

/-- eqchierarchy.cpp:686-702 (and 738-752): position of the last class that is equal to `c` -/
def lastPos (T : List (List ℕ)) (c : List ℕ) : Option ℕ :=
  (List.range T.length).foldl (fun pos k => if T.getD k [] = c then some k else pos) none

/-- eqchierarchy.cpp:722-738, `intersect_arrays` -/
def interL : List ℕ → List ℕ → List ℕ
  | [], _ => []
  | _ :: _, [] => []
  | a :: as, b :: bs =>
    if a = b then a :: interL as bs else if a < b then interL as (b :: bs) else interL (a :: as) bs
termination_by as bs => as.length + bs.length

/-- the entries of an `n x n` table that is filled for `e1 <= e2` at `e1 + n * e2` and `e2 + n * e1` (eqchierarchy.cpp:686-702,
738-752), read at row `i`, column `j`; `none`: not written -/
def symTable (n : ℕ) (f : ℕ → ℕ → Option ℕ) (i j : ℕ) : Option (Option ℕ) :=
  ((List.range n).flatMap fun e1 => (List.range' e1 (n - e1)).map fun e2 => (e1, e2)).foldl (fun cur e =>
    if i * n + j = e.1 + n * e.2 ∨ i * n + j = e.2 + n * e.1 then some (f e.1 e.2) else cur) none

/-- eqchierarchy.hpp:98-108, `GetMergedEQC`/`IsMergeValid`; the inner `none` is `NO_EQC` -/
def mergedEQC (T : List (List ℕ)) (i j : ℕ) : Option ℕ :=
  (symTable T.length (fun a b => lastPos T (mergeL (T.getD a []) (T.getD b []))) i j).getD none

/-- eqchierarchy.hpp:110-112, `GetCommonEQC` -/
def commonEQC (T : List (List ℕ)) (i j : ℕ) : Option ℕ :=
  (symTable T.length (fun a b => lastPos T (interL (T.getD a []) (T.getD b []))) i j).getD none

/-- eqchierarchy.cpp:703-720 and eqchierarchy.hpp:114-115, `IsLEQ`: the bit at `e1 * neqcs + e2` -/
def isLEQ (T : List (List ℕ)) (i j : ℕ) : Bool :=
  ((List.range T.length).flatMap fun e1 => (List.range T.length).map fun e2 => (e1, e2)).any fun e =>
    e.1 * T.length + e.2 == i * T.length + j &&
      !((T.getD e.2 []).isEmpty && !(T.getD e.1 []).isEmpty) && (T.getD e.1 []).all fun p => (T.getD e.2 []).contains p

/-- eqchierarchy.hpp:86-92, `FindEQCWithDPs` -/
def findEQC (T : List (List ℕ)) (d : List ℕ) : Option ℕ := (List.range T.length).find? fun k => T.getD k [] = d

/-! ### constructors -/

/-- eqchierarchy.cpp:94-131: the classes of the DOFs of process `p` with a number below `maxNd` that are selected; the class of the
local DOFs comes first -/
def classesOfDofs (P : PD) (maxNd : ℕ → ℕ) (sel : ℕ → ℕ → Bool) (p : ℕ) : List (List ℕ) :=
  let base := if 0 < P.ndof p then [[]] else []
  (List.range (maxNd p)).foldl (fun V d =>
    if sel p d = false then V
    else if P.dps p d = [] then V
    else if (V.drop 1).contains (P.dps p d) then V else V ++ [P.dps p d]) base

/-- eqchierarchy.cpp:34-70, the classes of the nodes of a mesh, for the node types `nts`; `nn nt`: number of nodes, `dp nt k`: distant
processes. `none`: the distant processes of a node that does not exist. (Line 60 combines the *current* node type with the number
of the node that was found first, which may be of another type.) -/
def classesOfNodes (nn : ℕ → ℕ) (dp : ℕ → ℕ → List ℕ) (nts : List ℕ) : Option (List (List ℕ)) :=
  let base := if nts.any (fun nt => decide (0 < nn nt)) then ([[]], [0]) else ([], [])
  (nts.foldlM (fun s nt => (List.range (nn nt)).foldlM (fun (s : List (List ℕ) × List ℕ) k =>
    if dp nt k = [] then some s
    else
      -- the search stops at the first match
      ((s.2.drop 1).foldlM (fun (found : Bool) l => if found then some true else if l < nn nt then some (decide (dp nt l = dp nt k)) else none)
        false).map fun (found : Bool) => if found then s else (s.1 ++ [dp nt k], s.2 ++ [k])) s) base).map Prod.fst

/-- sortedarray utilities: insert into a sorted array unless it is there, eqchierarchy.cpp:186 -/
def insertSorted (x : ℕ) : List ℕ → List ℕ
  | [] => [x]
  | a :: l => if x < a then x :: a :: l else if x = a then a :: l else a :: insertSorted x l

/-- eqchierarchy.cpp:181-201: the message of process `p` for process `q`; `A`: the rows of `aloc_mems` -/
def memMsg (p q : ℕ) (A : List (List ℕ)) : List ℕ :=
  A.flatMap fun row => (row.filter (· = q)).flatMap fun _ => row.length :: (insertSorted p row).filter (· ≠ q)

/-- eqchierarchy.cpp:260-269: split a message into classes; first argument: bound for the number of rounds -/
def splitMsg : ℕ → List ℕ → Option (List (List ℕ))
  | _, [] => some []
  | 0, _ :: _ => none
  | f + 1, n :: rest =>
    if n ≤ rest.length then (splitMsg f (rest.drop n)).map (rest.take n :: ·) else none

/-- eqchierarchy.cpp:225-247, 253-267: add a class to the list of representatives unless it is empty or there already -/
def addRep (R : List (List ℕ)) (d : List ℕ) : List (List ℕ) := if d = [] then R else if R.contains d then R else R ++ [d]

/-- utils_arrays_tables.hpp:10-21, `lex_smaller` -/
def lexSmaller (a b : List ℕ) : Bool := if a.length = b.length then lexLt a b else decide (a.length < b.length)

/-- eqchierarchy.cpp:217-314: the table of classes from the own rows and the messages, in the order of `alldps` -/
def memFamily (p : ℕ) (D : List ℕ) (A : List (List ℕ)) (m : ℕ → List ℕ) : Option (List (List ℕ)) :=
  let own := (A.map fun row => row.filter (· ≠ p)).foldl addRep []
  (D.foldlM (fun R q => (splitMsg (m q).length (m q)).map fun ds => ds.foldl addRep R) own).map fun R =>
    [] :: R.insertionSort fun a b => lexSmaller b a = false

/-- eqchierarchy.cpp:172-320: exchange of the classes with all processes of `D p`, then `SetupFromInitialDPs` starts -/
def memPhase (fuel : ℕ) (D : ℕ → List ℕ) (A : ℕ → List (List ℕ)) : Phase LSt (List ℕ) where
  sends := fun p q => (D p).contains q
  recvs := fun p q => (D p).contains q
  msg := fun p _ q => memMsg p q (A p)
  start := fun _ v => v
  apply := fun p v m => { v with fam := (memFamily p (D p) (A p) m).bind (unionLoop fuel) }

/-- the table of classes that process `p` starts with -/
def memTable (D : ℕ → List ℕ) (A : ℕ → List (List ℕ)) (p : ℕ) : Option (List (List ℕ)) :=
  memFamily p (D p) (A p) fun q => if (D p).contains q then memMsg q p (A q) else default

/-- the constructor from members of the classes with `do_cutunion`, eqchierarchy.cpp:172-326 -/
def memProg (np fuel : ℕ) (D : ℕ → List ℕ) (A : ℕ → List (List ℕ)) : List (Phase LSt (List ℕ)) :=
  memPhase fuel D A :: setupProg np fuel fun p => (memTable D A p).getD []

end NgsAMG.EQC
