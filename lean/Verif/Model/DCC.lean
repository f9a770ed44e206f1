import Verif.Model.Exchange
import Mathlib.Algebra.Group.Basic

/-!
Model of `DCCMap` and `BasicDCCMap`, `/repo/src/base/linalg/dcc_map.{hpp,cpp}`: conversion of parallel vectors between
DISTRIBUTED, CONCENTRATED and CUMULATED.

Simplifications: the value of one DOF (a block of `block_size` scalars) is one element of `M`; rows of `m_ex_dofs`,
`g_ex_dofs` and of the buffers are addressed by the rank of the other process instead of its position in `ex_procs`.
`ParallelDofs` is NGSolve: it is given by the global identity of the local DOFs.
-/

namespace NgsAMG.DCC

/-- `ParallelDofs` (NGSolve): number of processes, local DOFs, and which global DOF each of them is -/
structure PD where
  np : ℕ
  ndof : ℕ → ℕ
  glob : ℕ → ℕ → ℕ

/-- process `q` has a copy of the global DOF `g` -/
def PD.shares (P : PD) (q g : ℕ) : Bool := (List.range (P.ndof q)).any fun e => P.glob q e == g

/-- `pardofs->GetDistantProcs(d)`: the other processes that share a DOF, in increasing order -/
def PD.dps (P : PD) (p d : ℕ) : List ℕ := (List.range P.np).filter fun q => q != p && P.shares q (P.glob p d)

/-- `pardofs->GetDistantProcs()` -/
def PD.exProcs (P : PD) (p : ℕ) : List ℕ :=
  (List.range P.np).filter fun q => (List.range (P.ndof p)).any fun d => (P.dps p d).contains q

/-- the condition `dps.Size() > 0 && dps[0] < comm.Rank()`, dcc_map.cpp:509 -/
def PD.ghost (P : PD) (p d : ℕ) : Bool :=
  match P.dps p d with
  | [] => false
  | q :: _ => q < p

/-- `g_ex_dofs` of `BasicDCCMap::CalcDOFMasters`, dcc_map.cpp:506-534 (rows are sorted) -/
def PD.gEx (P : PD) (p q : ℕ) : List ℕ :=
  (List.range (P.ndof p)).filter fun d => P.ghost p d && (P.dps p d).head? == some q

/-- `m_ex_dofs` of `BasicDCCMap::CalcDOFMasters`, dcc_map.cpp:506-534 -/
def PD.mEx (P : PD) (p q : ℕ) : List ℕ := (List.range (P.ndof p)).filter fun d => !P.ghost p d && (P.dps p d).contains q

/-- `m_dofs`, dcc_map.cpp:512, 515 -/
def PD.isMaster (P : PD) (p d : ℕ) : Bool := !P.ghost p d

variable {M : Type*}

/-- `BufferG`, dcc_map.cpp:249-259: new vector and `g_buffer` -/
def bufferG [Zero M] (P : PD) (p : ℕ) (v : ℕ → M) : (ℕ → M) × (ℕ → List M) :=
  (P.exProcs p).foldl (fun s q => (P.gEx p q).foldl
    (fun s d => (Function.update s.1 d 0, Function.update s.2 q (s.2 q ++ [s.1 d]))) s) (v, fun _ => [])

/-- `ApplyM`, dcc_map.cpp:262-273 -/
def applyM [Add M] (P : PD) (p : ℕ) (v : ℕ → M) (buf : ℕ → List M) : ℕ → M :=
  (P.exProcs p).foldl (fun v q => ((P.mEx p q).zip (buf q)).foldl
    (fun v e => Function.update v e.1 (v e.1 + e.2)) v) v

/-- `BufferM`, dcc_map.cpp:276-287: `m_buffer` -/
def bufferM (P : PD) (p : ℕ) (v : ℕ → M) (q : ℕ) : List M := (P.mEx p q).map v

/-- `ApplyG`, dcc_map.cpp:290-301 -/
def applyG (P : PD) (p : ℕ) (v : ℕ → M) (buf : ℕ → List M) : ℕ → M :=
  (P.exProcs p).foldl (fun v q => ((P.gEx p q).zip (buf q)).foldl (fun v e => Function.update v e.1 e.2) v) v

/-- `g_send` / `g_recv` exist only for non-empty rows, dcc_map.cpp:54-59 -/
def gComm (P : PD) (p q : ℕ) : Bool := (P.exProcs p).contains q && !(P.gEx p q).isEmpty

/-- `m_send` / `m_recv`, dcc_map.cpp:60-65 -/
def mComm (P : PD) (p q : ℕ) : Bool := (P.exProcs p).contains q && !(P.mEx p q).isEmpty

/-- `StartDIS2CO`, `ApplyDIS2CO`, `FinishDIS2CO` for a DISTRIBUTED vector, dcc_map.cpp:76-131 -/
def dis2co [Zero M] [Add M] (P : PD) : Exch.Phase (ℕ → M) (List M) where
  sends := gComm P
  recvs := mComm P
  msg p v := (bufferG P p v).2
  start p v := (bufferG P p v).1
  apply p v buf := applyM P p v buf

/-- `StartCO2CU`, `ApplyCO2CU`, `FinishCO2CU`, dcc_map.cpp:134-183 -/
def co2cu (P : PD) : Exch.Phase (ℕ → M) (List M) where
  sends := mComm P
  recvs := gComm P
  msg p v := bufferM P p v
  start _ v := v
  apply p v buf := applyG P p v buf

/-- `StartDIS2CO` followed by `ApplyDIS2CO` for a vector whose status is CUMULATED, dcc_map.cpp:85-87, 112-117: the start sets
the status to DISTRIBUTED and sends nothing, so that the apply adds what the receive buffer `stale` contains from earlier -/
def dis2coCumulated [Zero M] [Add M] (P : PD) (p : ℕ) (v : ℕ → M) (stale : ℕ → List M) : ℕ → M :=
  applyM P p (bufferG P p v).1 stale

end NgsAMG.DCC
