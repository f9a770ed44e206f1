import Mathlib.Logic.Function.Basic
import Mathlib.Data.Nat.Basic

/-!
Message passing between processes, as the persistent requests of `/repo/src/base/linalg/dcc_map.cpp:54-67` use it: a *phase*
is `MPI_Startall` of all sends and receives (dcc_map.cpp:87-90, 150-153) followed, after local work, by `MPI_Waitall` of the
receives (dcc_map.cpp:116, 167) and by using what was received. Every process executes the same list of phases; processes
proceed independently of each other (any interleaving).

Simplifications: MPI is not part of /repo. A message is available to the receiver from the moment the sender started; the
messages of one phase are matched with the receives of the same phase (MPI does not let messages with the same source,
destination and tag overtake). A process can wait for its sends at the end of a phase because all receives are posted at the
start of the phase. The message is the content of the buffer at the start of the phase (the buffer is not touched before the
wait).
-/

namespace NgsAMG.Exch

variable {V Msg : Type*}

/-- one communication phase; `V` is the whole local state of a process -/
structure Phase (V Msg : Type*) where
  /-- process `p` starts a send to `q` -/
  sends : ℕ → ℕ → Bool
  /-- process `p` starts a receive from `q` -/
  recvs : ℕ → ℕ → Bool
  /-- content of the message from `p` to `q`, from the local state when the phase is started -/
  msg : ℕ → V → ℕ → Msg
  /-- local state after starting -/
  start : ℕ → V → V
  /-- local work after the wait; messages by sender -/
  apply : ℕ → V → (ℕ → Msg) → V

/-- state of all processes: number of finished phases, whether the next phase is started, local states, messages in flight
(phase, sender, receiver) -/
structure St (V Msg : Type*) where
  idx : ℕ → ℕ
  mid : ℕ → Bool
  vec : ℕ → V
  chan : ℕ → ℕ → ℕ → Option Msg

/-- initial state -/
def init (v : ℕ → V) : St V Msg := ⟨fun _ => 0, fun _ => false, v, fun _ _ _ => none⟩

variable [Inhabited Msg]

/-- one step of one process -/
inductive Step (np : ℕ) (prog : List (Phase V Msg)) : St V Msg → St V Msg → Prop
  | start (s : St V Msg) (p : ℕ) (ph : Phase V Msg) (hp : p < np) (hph : prog[s.idx p]? = some ph) (hm : s.mid p = false) :
      Step np prog s
        { s with
          mid := Function.update s.mid p true
          vec := Function.update s.vec p (ph.start p (s.vec p))
          chan := fun i a b => if i = s.idx p ∧ a = p ∧ ph.sends p b then some (ph.msg p (s.vec p) b) else s.chan i a b }
  | finish (s : St V Msg) (p : ℕ) (ph : Phase V Msg) (hp : p < np) (hph : prog[s.idx p]? = some ph) (hm : s.mid p = true)
      (hrecv : ∀ q, ph.recvs p q → (s.chan (s.idx p) q p).isSome) :
      Step np prog s
        { idx := Function.update s.idx p (s.idx p + 1)
          mid := Function.update s.mid p false
          vec := Function.update s.vec p
            (ph.apply p (s.vec p) fun q => if ph.recvs p q then (s.chan (s.idx p) q p).getD default else default)
          chan := fun i a b => if i = s.idx p ∧ b = p ∧ ph.recvs p a then none else s.chan i a b }

/-- reachable states -/
inductive Reach (np : ℕ) (prog : List (Phase V Msg)) (v : ℕ → V) : ℕ → St V Msg → Prop
  | init : Reach np prog v 0 (Exch.init v)
  | step {n s t} : Reach np prog v n s → Step np prog s t → Reach np prog v (n + 1) t

end NgsAMG.Exch
