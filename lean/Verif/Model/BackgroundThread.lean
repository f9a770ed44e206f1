import Mathlib.Data.List.Basic
import Mathlib.Logic.Relation

/-! Model of `BackgroundMPIThread` (smoothers/hybrid_base_smoother.cpp:11-66) as interleaving transition system of the worker
thread and one client thread. Memory is sequentially consistent; the writes of the destructor, which the code does without
holding the mutex, are separate steps. `cv` has at most the two threads as waiters, so `notify_one` wakes the other thread
if it sleeps. Spurious wakeups are possible at any time. A submitted function is identified by a number; executing it is
recorded in `log`. -/

namespace NgsAMG.BG

/-- operations of the client: `StartInThread(f_i)`, `WaitForThread()`, destructor -/
inductive Op | start (i : ℕ) | wait | destroy
  deriving DecidableEq

inductive Thr | w | c
  deriving DecidableEq

/-- program counter of `thread_fpf`, hybrid_base_smoother.cpp:33-51: loop head (35); before `unique_lock` (37); evaluating the
predicate (39); predicate was false, about to block; blocked in `cv.wait`; woken, re-acquiring the mutex; holding the
mutex after `wait` (41); calling the function (42-44, resetting it); `thread_done = true`; `thread_ready = false` (44);
`notify_one` (45); releasing the mutex (47); left the loop (50) -/
inductive WPC | head | lock | pred | decided | asleep | woken | body | exec | setDone | setReady | notify | unlock | exited
  deriving DecidableEq

/-- program counter of the client: between operations; `StartInThread` (54-60): acquire, write, notify, release;
`WaitForThread` (62-66): acquire, evaluate, block, blocked, woken, release; destructor (30): `thread_ready = true`,
`end_thread = true`, notify, join -/
inductive CPC | idle | sLock (i : ℕ) | sSet (i : ℕ) | sNotify | sUnlock | wLock | wPred | wDecided | wAsleep | wWoken | wUnlock
  | d1 | d2 | d3 | d4
  deriving DecidableEq

/-- global state: the flags (16), the mutex (15), the stored function (18, `none` is the empty lambda), both program counters, the
remaining client program; ghost: functions submitted and executed so far -/
structure St where
  ready : Bool
  done : Bool
  endT : Bool
  mtx : Option Thr
  fn : Option ℕ
  wpc : WPC
  cpc : CPC
  prog : List Op
  sub : List ℕ
  log : List ℕ

/-- after construction (16, 18, 21-27) -/
def init (prog : List Op) : St := ⟨true, false, false, none, none, .head, .idle, prog, [], []⟩

/-- regular step of the worker, `none`: blocked or finished -/
def wstep (s : St) : Option St :=
  match s.wpc with
  | .head => some { s with wpc := if s.endT then .exited else .lock }
  | .lock => if s.mtx = none then some { s with mtx := some .w, wpc := .pred } else none
  | .pred => some { s with wpc := if s.ready then .body else .decided }
  | .decided => some { s with mtx := none, wpc := .asleep }
  | .asleep => none
  | .woken => if s.mtx = none then some { s with mtx := some .w, wpc := .pred } else none
  | .body => some { s with wpc := if !s.endT && !s.done then .exec else .unlock }
  | .exec => some { s with log := s.log ++ s.fn.toList, fn := none, wpc := .setDone }
  | .setDone => some { s with done := true, wpc := .setReady }
  | .setReady => some { s with ready := false, wpc := .notify }
  | .notify => some { s with wpc := .unlock, cpc := if s.cpc = .wAsleep then .wWoken else s.cpc }
  | .unlock => some { s with mtx := none, wpc := .head }
  | .exited => none

/-- regular step of the client, `none`: blocked or finished -/
def cstep (s : St) : Option St :=
  match s.cpc with
  | .idle => match s.prog with
    | [] => none
    | .start i :: p => some { s with cpc := .sLock i, prog := p }
    | .wait :: p => some { s with cpc := .wLock, prog := p }
    | .destroy :: p => some { s with cpc := .d1, prog := p }
  | .sLock i => if s.mtx = none then some { s with mtx := some .c, cpc := .sSet i } else none
  | .sSet i => some { s with done := false, ready := true, fn := some i, sub := s.sub ++ [i], cpc := .sNotify }
  | .sNotify => some { s with wpc := if s.wpc = .asleep then .woken else s.wpc, cpc := .sUnlock }
  | .sUnlock => some { s with mtx := none, cpc := .idle }
  | .wLock => if s.mtx = none then some { s with mtx := some .c, cpc := .wPred } else none
  | .wPred => some { s with cpc := if s.done then .wUnlock else .wDecided }
  | .wDecided => some { s with mtx := none, cpc := .wAsleep }
  | .wAsleep => none
  | .wWoken => if s.mtx = none then some { s with mtx := some .c, cpc := .wPred } else none
  | .wUnlock => some { s with mtx := none, cpc := .idle }
  | .d1 => some { s with ready := true, cpc := .d2 }
  | .d2 => some { s with endT := true, cpc := .d3 }
  | .d3 => some { s with wpc := if s.wpc = .asleep then .woken else s.wpc, cpc := .d4 }
  | .d4 => if s.wpc = .exited then some { s with cpc := .idle } else none

/-- regular steps -/
def Step (s s' : St) : Prop := wstep s = some s' ∨ cstep s = some s'

/-- spurious wakeups of the two waits -/
def Spurious (s s' : St) : Prop :=
  (s.wpc = .asleep ∧ s' = { s with wpc := .woken }) ∨ (s.cpc = .wAsleep ∧ s' = { s with cpc := .wWoken })

def Any (s s' : St) : Prop := Step s s' ∨ Spurious s s'

/-- reachable under any scheduling and any spurious wakeups -/
def Reach (prog : List Op) (s : St) : Prop := Relation.ReflTransGen Any (init prog) s

/-- the client has executed its program -/
def Finished (s : St) : Prop := s.cpc = .idle ∧ s.prog = []

end NgsAMG.BG
