import Verif.Model.Exchange2
import Verif.Model.EQC

/-!
# Model of `ReduceTable` and of the scatter operations of the equivalence-class hierarchy

Source: `/repo/src/base/distributed/reducetable.hpp:21-576` (`ReduceTable`) and
`/repo/src/base/distributed/eqchierarchy.hpp:147-205` (`ScatterEQCData`, `ScatterEQCArray`).

Conventions. `dps p` are the distant processes of the rows of process `p` (`get_dps`), `tab p` the rows. The state of a process holds
its receive buffers and results; `ok` becomes `false` if a message does not have the size of the buffer it is received into, or if
the code reads behind the end of a buffer. Simplifications: `QuickSort` is the sort into ascending order; the offsets
`s[p]`, `displ[p]` are represented by the parts of the arrays that follow them; the pairs of messages with one number each (total
size, number of blocks; 151-168 and 426-445) are one message.
-/

namespace NgsAMG.RedTab

open NgsAMG.Exch

variable {T R : Type}

/-- reducetable.hpp:64-90, `master_of_rows[q]` of process `p`: the rows `q` is the master of (first argument of the recursion: the
number of the first of the remaining rows) -/
def masterFrom (p q : ℕ) : ℕ → List (List ℕ) → List ℕ
  | _, [] => []
  | k, [] :: rest => (if q = p then [k] else []) ++ masterFrom p q (k + 1) rest
  | k, (d :: _) :: rest =>
    (if p < d then (if q = p then [k] else []) else (if q = d then [k] else [])) ++ masterFrom p q (k + 1) rest

/-- reducetable.hpp:64-90, `slave_of_rows[q]` of process `p`: the rows `p` is the master of that `q` has as well -/
def slaveFrom (p q : ℕ) : ℕ → List (List ℕ) → List ℕ
  | _, [] => []
  | k, [] :: rest => slaveFrom p q (k + 1) rest
  | k, (d :: ds) :: rest =>
    (if p < d then ((d :: ds).filter (· == q)).map fun _ => k else []) ++ slaveFrom p q (k + 1) rest

/-- `master_of_rows[q]` -/
def masterRows (dps : List (List ℕ)) (p q : ℕ) : List ℕ := masterFrom p q 0 dps

/-- `slave_of_rows[q]` -/
def slaveRows (dps : List (List ℕ)) (p q : ℕ) : List ℕ := slaveFrom p q 0 dps

/-- a message: the phases below use one or two of the fields -/
structure Msg (T R : Type) where
  tot : ℕ
  nb : ℕ
  bs : List ℕ
  dat : List T
  rdat : List R

instance : Inhabited (Msg T R) := ⟨0, 0, [], [], []⟩

/-- the local variables of a process; `g…`: gather, `s…`: scatter -/
structure Loc (T R : Type) where
  ok : Bool := true
  gTot : ℕ → ℕ := fun _ => 0
  gNb : ℕ → ℕ := fun _ => 0
  gBs : ℕ → List ℕ := fun _ => []
  gDat : ℕ → List T := fun _ => []
  red : List (List R) := []
  sTot : ℕ → ℕ := fun _ => 0
  sNb : ℕ → ℕ := fun _ => 0
  sBs : ℕ → List ℕ := fun _ => []
  sDat : ℕ → List R := fun _ => []
  out : List (Option (List R)) := []

/-- reducetable.hpp:94-126: the blocks (rows) that are sent to process `q` -/
def gatherRows (dps : ℕ → List (List ℕ)) (tab : ℕ → List (List T)) (p q : ℕ) : List (List T) :=
  (masterRows (dps p) p q).map fun k => (tab p).getD k []

/-- reducetable.hpp:102-107 and 143-168: total size and number of blocks go to the masters -/
def gatherMeta (np : ℕ) (dps : ℕ → List (List ℕ)) (tab : ℕ → List (List T)) : DPhase (Loc T R) (Msg T R) where
  sends p _ q := decide (q < p) && decide (0 < (masterRows (dps p) p q).length)
  recvs p _ q := decide (p < q) && decide (q < np) && decide (0 < (slaveRows (dps p) p q).length)
  msg p _ q :=
    let rows := gatherRows dps tab p q
    { (default : Msg T R) with tot := (rows.map List.length).sum, nb := rows.length }
  apply _ v m := { v with gTot := fun q => (m q).tot, gNb := fun q => (m q).nb }

/-- reducetable.hpp:202-220: sizes of the blocks -/
def gatherSizes (np : ℕ) (dps : ℕ → List (List ℕ)) (tab : ℕ → List (List T)) : DPhase (Loc T R) (Msg T R) where
  sends p _ q := decide (q < p) && decide (0 < (gatherRows dps tab p q).length)
  recvs p v q := decide (p < q) && decide (q < np) && decide (0 < v.gNb q)
  msg p _ q := { (default : Msg T R) with bs := (gatherRows dps tab p q).map List.length }
  apply p v m :=
    let got := fun q => decide (p < q) && decide (q < np) && decide (0 < v.gNb q)
    let sizes := fun q => if got q then (m q).bs else []
    let fits := (List.range np).all fun q => (sizes q).length == v.gNb q
    { v with gBs := sizes, ok := v.ok && fits }

/-- reducetable.hpp:236-258: the data. (The copy of the own data, 256-257, has size zero.) -/
def gatherData (np : ℕ) (dps : ℕ → List (List ℕ)) (tab : ℕ → List (List T)) : DPhase (Loc T R) (Msg T R) where
  sends p _ q := decide (q < p) && decide (0 < ((gatherRows dps tab p q).map List.length).sum)
  recvs p v q := decide (p < q) && decide (q < np) && decide (0 < v.gTot q)
  msg p _ q := { (default : Msg T R) with dat := (gatherRows dps tab p q).flatten }
  apply p v m :=
    let got := fun q => decide (p < q) && decide (q < np) && decide (0 < v.gTot q)
    let dat := fun q => if got q then (m q).dat else []
    let fits := (List.range np).all fun q => (dat q).length == v.gTot q
    { v with gDat := dat, ok := v.ok && fits }

/-- reducetable.hpp:297-334: the inputs of the lambda for one row this process is the master of, ordered by process. `rb`, `rd`: what
is left of the block sizes and of the data of the other processes. `none`: read behind the end. -/
def rowInput (p : ℕ) (ds : List ℕ) (row : List T) (rb : ℕ → List ℕ) (rd : ℕ → List T) : Option (List (List T)) :=
  ((p :: ds).insertionSort (· ≤ ·)).mapM fun q =>
    if q = p then some row
    else match rb q with
      | [] => none
      | b :: _ => if b ≤ (rd q).length then some ((rd q).take b) else none

/-- reducetable.hpp:272-363: collect the data of each row this process is the master of and call the lambda (`lam p k`: call for row
`k` on process `p`; a call may give any result). The other rows get no data. -/
def reduceRows (p : ℕ) (lam : ℕ → ℕ → List (List T) → List R) :
    ℕ → List (List ℕ × List T) → (ℕ → List ℕ) → (ℕ → List T) → Option (List (List R))
  | _, [], _, _ => some []
  | k, (ds, row) :: rest, rb, rd =>
    if !ds.isEmpty && decide (ds.headD 0 < p) then (reduceRows p lam (k + 1) rest rb rd).map ([] :: ·)
    else
      (rowInput p ds row rb rd).bind fun ins =>
        (reduceRows p lam (k + 1) rest (fun q => if q ∈ ds then (rb q).tail else rb q)
          (fun q => if q ∈ ds then (rd q).drop ((rb q).headD 0) else rd q)).map (lam p k ins :: ·)

/-- reducetable.hpp:272-363 as a phase without communication -/
def reduceLocal (dps : ℕ → List (List ℕ)) (tab : ℕ → List (List T)) (lam : ℕ → ℕ → List (List T) → List R) :
    DPhase (Loc T R) (Msg T R) where
  sends _ _ _ := false
  recvs _ _ _ := false
  msg _ _ _ := default
  apply p v _ :=
    let r := reduceRows p lam 0 ((dps p).zip (tab p)) v.gBs v.gDat
    { v with red := r.getD [], ok := v.ok && r.isSome }

/-- reducetable.hpp:371-402: the reduced rows that are sent to process `q` -/
def scatterRows (dps : ℕ → List (List ℕ)) (p : ℕ) (v : Loc T R) (q : ℕ) : List (List R) :=
  (slaveRows (dps p) p q).map fun k => v.red.getD k []

/-- reducetable.hpp:417-445: total size and number of blocks go to the other processes -/
def scatterMeta (np : ℕ) (dps : ℕ → List (List ℕ)) : DPhase (Loc T R) (Msg T R) where
  sends p _ q := decide (p < q) && decide (q < np) && decide (0 < (slaveRows (dps p) p q).length)
  recvs p _ q := decide (q < p) && decide (0 < (masterRows (dps p) p q).length)
  msg p v q :=
    let rows := scatterRows dps p v q
    { (default : Msg T R) with tot := (rows.map List.length).sum, nb := rows.length }
  apply _ v m := { v with sTot := fun q => (m q).tot, sNb := fun q => (m q).nb }

/-- reducetable.hpp:457-494: sizes of the blocks; they are sent only if there is data, otherwise they are zero -/
def scatterSizes (np : ℕ) (dps : ℕ → List (List ℕ)) : DPhase (Loc T R) (Msg T R) where
  sends p v q := decide (p < q) && decide (q < np) && decide (0 < ((scatterRows dps p v q).map List.length).sum)
  recvs p v q := decide (q < p) && decide (0 < v.sTot q)
  msg p v q := { (default : Msg T R) with bs := (scatterRows dps p v q).map List.length }
  apply p v m :=
    let got := fun q => decide (q < p) && decide (0 < v.sTot q)
    let sizes := fun q => if got q then (m q).bs else List.replicate (v.sNb q) 0
    let fits := (List.range np).all fun q => (sizes q).length == v.sNb q
    { v with sBs := sizes, ok := v.ok && fits }

/-- reducetable.hpp:499-531: the reduced data -/
def scatterData (np : ℕ) (dps : ℕ → List (List ℕ)) : DPhase (Loc T R) (Msg T R) where
  sends p v q := decide (p < q) && decide (q < np) && decide (0 < ((scatterRows dps p v q).map List.length).sum)
  recvs p v q := decide (q < p) && decide (0 < v.sTot q)
  msg p v q := { (default : Msg T R) with rdat := (scatterRows dps p v q).flatten }
  apply p v m :=
    let got := fun q => decide (q < p) && decide (0 < v.sTot q)
    let dat := fun q => if got q then (m q).rdat else []
    let fits := (List.range np).all fun q => (dat q).length == v.sTot q
    { v with sDat := dat, ok := v.ok && fits }

/-- reducetable.hpp:541-562: the blocks received from one process with the rows they belong to -/
def unpack : List ℕ → List ℕ → List R → Option (List (ℕ × List R))
  | [], _, _ => some []
  | _ :: _, [], _ => none
  | r :: rs, b :: bs, dat =>
    if b ≤ dat.length then (unpack rs bs (dat.drop b)).map ((r, dat.take b) :: ·) else none

/-- reducetable.hpp:536-565: the result table: rows received from the masters, and the own rows. (Sizes and contents are written in
one go; `none`: row of size `-1`.) -/
def output (dps : ℕ → List (List ℕ)) (p : ℕ) (v : Loc T R) : Option (List (Option (List R))) :=
  ((List.range p).mapM fun q => unpack (masterRows (dps p) p q) (v.sBs q) (v.sDat q)).map fun got =>
    (got.flatten ++ (masterRows (dps p) p p).map fun k => (k, v.red.getD k [])).foldl (fun t e => t.set e.1 (some e.2))
      (List.replicate (dps p).length none)

/-- reducetable.hpp:536-565 as a phase without communication -/
def outputLocal (dps : ℕ → List (List ℕ)) : DPhase (Loc T R) (Msg T R) where
  sends _ _ _ := false
  recvs _ _ _ := false
  msg _ _ _ := default
  apply p v _ :=
    let r := output dps p v
    { v with out := r.getD [], ok := v.ok && r.isSome }

/-- reducetable.hpp:21-576, `ReduceTable` -/
def prog (np : ℕ) (dps : ℕ → List (List ℕ)) (tab : ℕ → List (List T)) (lam : ℕ → ℕ → List (List T) → List R) :
    List (DPhase (Loc T R) (Msg T R)) :=
  [gatherMeta np dps tab, gatherSizes np dps tab, gatherData np dps tab, reduceLocal dps tab lam,
   scatterMeta np dps, scatterSizes np dps, scatterData np dps, outputLocal dps]

/-! ### scatter of class-wise data -/

/-- eqchierarchy.hpp:158-169 and 187-199: the rows process `p` sends to `q`, in the order of the sends: one for each shared class `p` is
the master of -/
def eqcSends (p q : ℕ) : List (List ℕ × T) → List T
  | [] => []
  | ([], _) :: rest => eqcSends p q rest
  | (d :: ds, x) :: rest => if p < d then ((d :: ds).filter (· == q)).map (fun _ => x) ++ eqcSends p q rest else eqcSends p q rest

/-- eqchierarchy.hpp:166-167 and 196-197: the receives in the order of the classes; `Q h`: the messages of `h` that are not received
yet; `fits old new`: the message has the size of the row it is received into -/
def eqcRecvs (p : ℕ) (fits : T → T → Bool) : List (List ℕ × T) → (ℕ → List T) → Option (List T)
  | [], _ => some []
  | ([], x) :: rest, Q => (eqcRecvs p fits rest Q).map (x :: ·)
  | (d :: _, x) :: rest, Q =>
    if p < d then (eqcRecvs p fits rest Q).map (x :: ·)
    else match Q d with
      | [] => none
      | y :: ys => if fits x y then (eqcRecvs p fits rest (Function.update Q d ys)).map (y :: ·) else none

/-- eqchierarchy.hpp:147-174, `ScatterEQCData` with the wait for the requests, and 176-204, `ScatterEQCArray` (`T`: an entry of the
array, `fits` always true). State: the rows (`none`: failed) -/
def eqcScatter (dps : ℕ → List (List ℕ)) (fits : T → T → Bool) : DPhase (Option (List T)) (List T) where
  sends p _ q := (dps p).any fun d => match d with
    | [] => false
    | h :: _ => decide (p < h) && d.contains q
  recvs p _ q := (dps p).any fun d => match d with
    | [] => false
    | h :: _ => !decide (p < h) && (h == q)
  msg p v q := eqcSends p q ((dps p).zip (v.getD []))
  apply p v m := v.bind fun rows => eqcRecvs p fits ((dps p).zip rows) m

end NgsAMG.RedTab
