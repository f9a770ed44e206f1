import Verif.Model.LoopMap
import Verif.Model.SortedArray
import Verif.Model.Exchange2
import Mathlib.Data.List.Sort

/-!
# Model: the tables of the processes that share a loop (stokes/common/loop_utils.hpp, stokes_mesh_impl.hpp, stokes_map_impl.hpp)

Simplifications: buffers and counters are addressed by the rank of the other process instead of its position in the sorted list `all_dps`
(`find_in_sorted_array` is modelled in `SortedArray`; a process that is not in the list is `none` here). A message is what is in the buffer
when it is sent (see `Exchange`). `none`: reading or writing out of bounds, or a message that does not have the size of the receive buffer.
-/

namespace NgsAMG.LTab
open NgsAMG.Loop
variable {α β : Type}

/-- `send_data[kp][perow[kp]++] = …` (loop_utils.hpp:326-327) and `csd.Add(kp, …)` (stokes_map_impl.hpp:328-332): append to what is sent to `q` -/
def addTo (all : List ℕ) (xs : List α) (s : ℕ → List α) (q : ℕ) : Option (ℕ → List α) :=
  if all.contains q then some (Function.update s q (s q ++ xs)) else none

/-- loop_utils.hpp:322-329 and stokes_map_impl.hpp:320-335: run through the rows, and for each row through the processes that share it;
`enc`: what is sent for the row -/
def sendRows (all : List ℕ) (enc : β → List α) (rows : List (List ℕ × β)) : Option (ℕ → List α) :=
  rows.foldlM (fun s r => r.1.foldlM (addTo all (enc r.2)) s) (fun _ => [])

/-- one row of loop_utils.hpp:340-347 and stokes_map_impl.hpp:357-369: for each process that shares the row read one entry of what it sent,
at the position where reading stopped before; `rd m c`: the entry of the message `m` that starts at `c`, and where the next one starts -/
def readRow (rd : List α → ℕ → Option (β × ℕ)) (recv : ℕ → List α) : (ℕ → ℕ) → List ℕ → Option ((ℕ → ℕ) × List (ℕ × β))
  | cur, [] => some (cur, [])
  | cur, q :: t =>
    match rd (recv q) (cur q) with
    | none => none
    | some x => (readRow rd recv (Function.update cur q x.2) t).map fun r => (r.1, (q, x.1) :: r.2)

/-- all rows (the counters are zero at first) -/
def readRows (rd : List α → ℕ → Option (β × ℕ)) (recv : ℕ → List α) : (ℕ → ℕ) → List (List ℕ) → Option (List (List (ℕ × β)))
  | _, [] => some []
  | cur, ds :: t =>
    match readRow rd recv cur ds with
    | none => none
    | some r => (readRows rd recv r.1 t).map fun o => r.2 :: o

/-! ### ShrinkDPTable and AddOrientedLoops -/

/-- loop_utils.hpp:325: `istay` -/
def stay (remove : Bool) : ℕ := if remove then 0 else 1

/-- reading one number -/
def rdOne (m : List ℕ) (c : ℕ) : Option (ℕ × ℕ) := (m[c]?).map fun x => (x, c + 1)

/-- loop_utils.hpp:309-314: `row_map` (`none` is -1) -/
def rowMap : ℕ → List Bool → List (Option ℕ)
  | _, [] => []
  | n, r :: t => if r then none :: rowMap n t else some n :: rowMap (n + 1) t

/-- loop_utils.hpp:344-345: the processes kept in a row -/
def keepProcs (bits : List (ℕ × ℕ)) : List ℕ := (bits.filter fun x => x.2 == 1).map Prod.fst

/-- loop_utils.hpp:335-349: the new table -/
def newDps (remove : List Bool) (bits : List (List (ℕ × ℕ))) : List (List ℕ) :=
  ((remove.zip bits).filter fun x => !x.1).map fun x => keepProcs x.2

/-- stokes_mesh_impl.hpp:28-39: `all_loop_dps` -/
def allDps (eqProcs : List ℕ) (dps : List (List ℕ)) : Option (List ℕ) :=
  dps.flatten.foldlM (fun a p => (SortedArray.insertNodups p a).map Prod.snd) eqProcs

/-- stokes_mesh_impl.hpp:21-26: `remove_loop` -/
def removeLoop (loops : List (List ℤ)) : List Bool := loops.map List.isEmpty

/-- the tables `AddOrientedLoops` leaves: loops, loopers and `filt_map` -/
structure Tables where
  loops : List (List ℤ)
  dps : List (List ℕ)
  map : List (Option ℕ)
deriving DecidableEq

/-- stokes_mesh_impl.hpp:41-61 with loop_utils.hpp:331-349: what is done with the received numbers. `sent`: the own buffers, which have the
sizes of the receive buffers (loop_utils.hpp:319, mpiwrap_extension.hpp:338-351) -/
def finishLoops (all : List ℕ) (rows : List (List ℕ × List ℤ)) (sent recv : ℕ → List ℕ) : Option Tables :=
  if all.all fun q => (recv q).length == (sent q).length then
    let remove := removeLoop (rows.map Prod.snd)
    (readRows rdOne recv (fun _ => 0) (rows.map Prod.fst)).map fun bits =>
      { loops := (rows.map Prod.snd).filter fun l => !l.isEmpty, dps := newDps remove bits, map := rowMap 0 remove }
  else none

/-- what is sent in `ShrinkDPTable` -/
def shrinkSend (all : List ℕ) (rows : List (List ℕ × List ℤ)) : Option (ℕ → List ℕ) :=
  sendRows all (fun l : List ℤ => [stay l.isEmpty]) rows

/-- the state of a process: the fine loops (who shares them, the coarse edges of PHASE I), the coarse loops before and after PHASE IV -/
structure Loc (V : Type) where
  fine : List (List ℕ × List (V × V))
  init : Option (List (List ℕ × List ℤ))
  out : Option Tables

/-- the numbers and tuples that are sent: `(size, -1, -1, -1)` is `head size` (stokes_map_impl.hpp:328-332), and the bits of `ShrinkDPTable` -/
inductive Item (V : Type) where
  | head (n : ℕ)
  | tup (a b : V)
deriving DecidableEq

variable {V : Type}

/-- the list of the processes the exchange of `AddOrientedLoops` is done with -/
def loopProcs (eqProcs : List ℕ) (v : Loc V) : Option (List ℕ) := v.init.bind fun rows => allDps eqProcs (rows.map Prod.fst)

/-- what process `p` sends to `q`; nothing if the process failed before -/
def shrinkMsg (eqProcs : List ℕ) (v : Loc V) (q : ℕ) : List ℕ :=
  match v.init, loopProcs eqProcs v with
  | some rows, some all => ((shrinkSend all rows).getD fun _ => []) q
  | _, _ => []

/-- loop_utils.hpp:331 (`ExchangePairWise`): send to and receive from all processes of the list -/
def exchangesWith (eqProcs : List ℕ) (v : Loc V) (q : ℕ) : Bool :=
  match loopProcs eqProcs v with
  | some all => all.contains q
  | none => false

/-- the numbers of a message -/
def nums (m : List (Item V)) : List ℕ := m.filterMap fun | .head n => some n | .tup _ _ => none

/-- `AddOrientedLoops` after the exchange -/
def shrinkApply (eqProcs : List ℕ) (v : Loc V) (recv : ℕ → List ℕ) : Loc V :=
  { v with out := v.init.bind fun rows => (loopProcs eqProcs v).bind fun all => (shrinkSend all rows).bind fun sent => finishLoops all rows sent recv }

/-- stokes_mesh_impl.hpp:14-66, `AddOrientedLoops`, one communication phase; `eqProcs p` are the distant processes of the class hierarchy -/
def shrinkPhase (eqProcs : ℕ → List ℕ) : Exch.DPhase (Loc V) (List (Item V)) where
  sends p v q := exchangesWith (eqProcs p) v q
  recvs p v q := exchangesWith (eqProcs p) v q
  msg p v q := (shrinkMsg (eqProcs p) v q).map .head
  apply p v m := shrinkApply (eqProcs p) v fun q => nums (m q)

/-! ### PHASE II: the exchange of the coarse edges -/

/-- stokes_map_impl.hpp:328-332: what is sent for one loop -/
def encChunk (c : List (V × V)) : List (Item V) := .head c.length :: c.map fun x => .tup x.1 x.2

/-- the tuples of a part of a message; `none` if the part is not made of tuples -/
def tuples (m : List (Item V)) : Option (List (V × V)) := m.mapM fun | .tup a b => some (a, b) | .head _ => none

/-- stokes_map_impl.hpp:360-364, 412-417: the chunk that starts at `c`: its length is in the first entry, `recv_data[kp].Part(os, len)` -/
def rdChunk (m : List (Item V)) (c : ℕ) : Option (List (V × V) × ℕ) :=
  match m[c]? with
  | some (.head len) => if c + 1 + len ≤ m.length then (tuples ((m.drop (c + 1)).take len)).map fun t => (t, c + 1 + len) else none
  | _ => none

/-- `floop_uDofs.GetDistantProcs()` -/
def fineProcs (v : Loc V) : List ℕ := (v.fine.map Prod.fst).flatten

/-- stokes_map_impl.hpp:351-377, 408-418: the chunks of one loop, in the order of the ranks -/
def chunks (p : ℕ) (own : List (V × V)) (got : List (ℕ × List (V × V))) : List (ℕ × List (V × V)) :=
  (got ++ [(p, own)]).insertionSort fun a b => a.1 ≤ b.1

/-- the coarse edges of one loop -/
def chunkData (p : ℕ) (own : List (V × V)) (got : List (ℕ × List (V × V))) : List (V × V) := (chunks p own got).flatMap Prod.snd

/-- stokes_map_impl.hpp:473-488: `all_c_loops` and `all_c_loopers` -/
def allRows [LinearOrder V] (p : ℕ) (fine : List (List ℕ × List (V × V))) (got : List (List (ℕ × List (V × V)))) : Option (List (List ℕ × List V)) :=
  ((fine.zip got).mapM fun r => (itLoop (chunkData p r.1.2 r.2)).map fun ls => ls.map fun l => (r.1.1, l)).map List.flatten

/-- stokes_map_impl.hpp:565-650 (PHASE III): the rows that are not duplicates of rows before -/
def noDupRows [LinearOrder V] : List (List V) → List (List ℕ × List V) → List (List ℕ × List V)
  | _, [] => []
  | before, r :: t => if isDup before r.2 then noDupRows (r.2 :: before) t else r :: noDupRows (r.2 :: before) t

/-- PHASES II.II–III: from the received chunks to `init_cloops`, `init_loopers`; `conv` is `convertLoop` of the process -/
def gatherApply [LinearOrder V] (conv : List V → List ℤ) (p : ℕ) (v : Loc V) (recv : ℕ → List (Item V)) : Loc V :=
  { v with init := (readRows rdChunk recv (fun _ => 0) (v.fine.map Prod.fst)).bind fun got =>
      (allRows p v.fine got).map fun rows => (noDupRows [] rows).map fun r => (r.1, conv r.2) }

/-- stokes_map_impl.hpp:296-650, PHASES II–III, one communication phase (`ExchangePairWise2`, mpiwrap_extension.hpp:354-376: the receive buffers
get the size of the message) -/
def gatherPhase [LinearOrder V] (conv : ℕ → List V → List ℤ) : Exch.DPhase (Loc V) (List (Item V)) where
  sends _ v q := (fineProcs v).contains q
  recvs _ v q := (fineProcs v).contains q
  msg _ v q := ((sendRows (fineProcs v) encChunk v.fine).getD fun _ => []) q
  apply p v m := gatherApply (conv p) p v m

end NgsAMG.LTab
