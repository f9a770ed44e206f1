import Verif.Model.LoopSort
import Verif.Model.RedTab

/-!
# Model: tables that are reduced and the loops of facets (stokes/common/stokes_pc.cpp:388-510, 513-753)

Arrays are functions of the index, a row of a `Table` is a list. Rows that are written twice or not with their size are an error (`none`), as is
an exception of one of the functions given. The data of a row and its distant processes are input (`generateData`; here a pair of functions).
-/

namespace NgsAMG.LSort

variable {D T O : Type}

/-- the counters and arrays of the first loop, stokes_pc.cpp:398-408 -/
structure Cnt where
  nLoc : ℕ := 0
  nEx : ℕ := 0
  perow : ℕ → ℕ := fun _ => 0
  perowEx : ℕ → ℕ := fun _ => 0
  perowDps : ℕ → ℕ := fun _ => 0
  exRows : ℕ → ℕ := fun _ => 0

/-- stokes_pc.cpp:410-420: one row -/
def Cnt.step (data : ℕ → List D) (dps : ℕ → List ℕ) (c : Cnt) (row : ℕ) : Cnt :=
  if (dps row).length ≠ 0 then
    { c with
      perowEx := Function.update c.perowEx c.nEx (data row).length
      perowDps := Function.update c.perowDps row (dps row).length
      exRows := Function.update c.exRows c.nEx row
      nEx := c.nEx + 1 }
  else
    { c with
      perow := Function.update c.perow c.nLoc (data row).length
      nLoc := c.nLoc + 1 }

/-- stokes_pc.cpp:410-420 -/
def count (data : ℕ → List D) (dps : ℕ → List ℕ) (nRows : ℕ) : Cnt := (List.range nRows).foldl (Cnt.step data dps) {}

/-- a row of given size is written -/
def sized {α : Type} (n : ℕ) (l : List α) : Option (List α) := if l.length = n then some l else none

/-- stokes_pc.cpp:436-439: sizes of the rows of `dps_table` -/
def Cnt.shifted (c : Cnt) (nRows k : ℕ) : ℕ := if k < nRows - c.nEx then 0 else c.perowDps (c.exRows (k - (nRows - c.nEx)))

/-- stokes_pc.cpp:441-450 and 479-481: the table of the distant processes. The rows before `ex_offset` are not written, which is right if their
size is zero -/
def dpsTable (data : ℕ → List D) (dps : ℕ → List ℕ) (nRows : ℕ) : Option (List (List ℕ)) :=
  let c := count data dps nRows
  (List.range nRows).mapM fun k =>
    if c.nEx = 0 then sized (c.perowDps k) []
    else if c.nLoc ≤ k ∧ k < c.nLoc + c.nEx then sized (c.shifted nRows k) (dps (c.exRows (k - c.nLoc))) else sized (c.shifted nRows k) []

/-- stokes_pc.cpp:442-450: the encoded rows -/
def encodeTable (data : ℕ → List D) (dps : ℕ → List ℕ) (encode : List D → Option (List T)) (nRows : ℕ) : Option (List (List T)) :=
  let c := count data dps nRows
  (List.range c.nEx).mapM fun e => (encode (data (c.exRows e))).bind (sized (c.perowEx e))

/-- stokes_pc.cpp:464: the distant processes of the encoded rows -/
def encodeDps (data : ℕ → List D) (dps : ℕ → List ℕ) (nRows : ℕ) : List (List ℕ) :=
  let c := count data dps nRows
  (List.range c.nEx).map fun e => ((dpsTable data dps nRows).getD []).getD (c.nLoc + e) []

/-- stokes_pc.cpp:470-475: sizes of the rows of the result -/
def Cnt.sizes (c : Cnt) (decode : List T → List O) (red : List (List T)) (k : ℕ) : ℕ :=
  if c.nLoc ≤ k ∧ k < c.nLoc + c.nEx then (decode (red.getD (k - c.nLoc) [])).length else c.perow k

/-- the state of the last loop: both counters and what was written to the rows -/
structure Wr (O : Type) where
  nEx : ℕ := 0
  nLoc : ℕ := 0
  rows : ℕ → Option (List O) := fun _ => none

/-- stokes_pc.cpp:491-507: one row -/
def Wr.step (data : ℕ → List D) (transform : List D → Option (List O)) (decode : List T → List O) (red : List (List T)) (c : Cnt)
    (w : Wr O) (row : ℕ) : Option (Wr O) :=
  if w.nEx < c.nEx ∧ c.exRows w.nEx = row then
    some { w with
      rows := Function.update w.rows (c.nLoc + w.nEx) (some (decode (red.getD w.nEx [])))
      nEx := w.nEx + 1 }
  else
    (transform (data row)).map fun o =>
      { w with
        rows := Function.update w.rows w.nLoc (some o)
        nLoc := w.nLoc + 1 }

/-- stokes_pc.cpp:484-509: the rows of the result, from the reduced rows -/
def outTable (data : ℕ → List D) (dps : ℕ → List ℕ) (transform : List D → Option (List O)) (decode : List T → List O) (nRows : ℕ)
    (red : List (List T)) : Option (List (List O)) :=
  let c := count data dps nRows
  ((List.range nRows).foldlM (Wr.step data transform decode red c) {}).bind fun w =>
    (List.range nRows).mapM fun k => (w.rows k).bind (sized (c.sizes decode red k))

/-! ### facet loops -/

/-- what a process knows: facets and distant processes of every loop, the edge of a facet, the vertices of an edge, the codes of the vertices and the
numbers of coded vertices, ghosts and the numbers of edges -/
structure PLoops where
  nRows : ℕ
  data : ℕ → List ℕ
  dps : ℕ → List ℕ
  f2e : ℕ → Option ℕ
  edge : ℕ → ℕ × ℕ
  code : ℕ → GV
  vert : GV → Option ℕ
  ghost : ℕ → Bool
  econ : ℕ → ℕ → ℕ

/-- stokes_pc.cpp:442-464: the table given to `ReduceTable` -/
def PLoops.table (P : PLoops) : Option (List (List (GV × GV))) := encodeTable P.data P.dps (encodeLoop P.f2e P.edge P.code) P.nRows

/-- its distant processes -/
def PLoops.exDps (P : PLoops) : List (List ℕ) := encodeDps P.data P.dps P.nRows

/-- stokes_pc.cpp:468-509: loops and distant processes, from the result of `ReduceTable` -/
def PLoops.finish (P : PLoops) (red : List (List (GV × GV))) : Option (List (List ℤ) × List (List ℕ)) :=
  (outTable P.data P.dps (localLoop P.f2e P.edge) (decodeLoop P.vert P.ghost P.econ) P.nRows red).bind fun o =>
    (dpsTable P.data P.dps P.nRows).map fun d => (o, d)

/-- stokes_pc.cpp:464: the communication. An exception of `reduceLoops` is an empty row here (theorems about executions without exception only) -/
def loopProg (np : ℕ) (P : ℕ → PLoops) : List (Exch.DPhase (RedTab.Loc (GV × GV) (GV × GV)) (RedTab.Msg (GV × GV) (GV × GV))) :=
  RedTab.prog np (fun p => (P p).exDps) (fun p => (P p).table.getD []) fun _ _ ins => (reduceLoops ins).getD []

end NgsAMG.LSort
