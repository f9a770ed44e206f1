import Verif.Model.Exchange

/-!
Communication phases as in `Verif.Model.Exchange`, in which the processes decide from their current data whom they send to and
whom they wait for (e.g. `if (gather_recv_total_msg_size[p]>0) gather_reqs.Append(comm.IRecv(..))`,
/repo/src/base/distributed/reducetable.hpp:207-215). In one phase a process posts its receives, sends, waits for the receives and
works with what it received (`IRecv`s, then `Send`s or `ISend`s, then `MyMPI_WaitAll`). Several messages from one process to
another within a phase are one message (they have the same tag and cannot overtake). Simplifications: those of
`Verif.Model.Exchange`.
-/

namespace NgsAMG.Exch

variable {V Msg : Type*}

/-- one communication phase -/
structure DPhase (V Msg : Type*) where
  /-- process `p` in state `v` sends to `q` -/
  sends : ℕ → V → ℕ → Bool
  /-- process `p` in state `v` receives from `q` -/
  recvs : ℕ → V → ℕ → Bool
  /-- content of the message from `p` to `q` -/
  msg : ℕ → V → ℕ → Msg
  /-- local work after the wait; messages by sender -/
  apply : ℕ → V → (ℕ → Msg) → V

variable [Inhabited Msg]

/-- one step of one process -/
inductive DStep (np : ℕ) (prog : List (DPhase V Msg)) : St V Msg → St V Msg → Prop
  | start (s : St V Msg) (p : ℕ) (ph : DPhase V Msg) (hp : p < np) (hph : prog[s.idx p]? = some ph) (hm : s.mid p = false) :
      DStep np prog s
        { s with
          mid := Function.update s.mid p true
          chan := fun i a b => if i = s.idx p ∧ a = p ∧ ph.sends p (s.vec p) b then some (ph.msg p (s.vec p) b) else s.chan i a b }
  | finish (s : St V Msg) (p : ℕ) (ph : DPhase V Msg) (hp : p < np) (hph : prog[s.idx p]? = some ph) (hm : s.mid p = true)
      (hrecv : ∀ q, ph.recvs p (s.vec p) q → (s.chan (s.idx p) q p).isSome) :
      DStep np prog s
        { idx := Function.update s.idx p (s.idx p + 1)
          mid := Function.update s.mid p false
          vec := Function.update s.vec p
            (ph.apply p (s.vec p) fun q => if ph.recvs p (s.vec p) q then (s.chan (s.idx p) q p).getD default else default)
          chan := fun i a b => if i = s.idx p ∧ b = p ∧ ph.recvs p (s.vec p) a then none else s.chan i a b }

/-- reachable states -/
inductive DReach (np : ℕ) (prog : List (DPhase V Msg)) (v : ℕ → V) : ℕ → St V Msg → Prop
  | init : DReach np prog v 0 (Exch.init v)
  | step {n s t} : DReach np prog v n s → DStep np prog s t → DReach np prog v (n + 1) t

end NgsAMG.Exch
