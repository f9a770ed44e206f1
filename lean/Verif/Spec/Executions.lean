import Verif.Props.Exchange2

/-!
# Specification: all executions of a program of communication phases end well
-/

namespace NgsAMG.Spec
open NgsAMG.Exch
variable {V Msg : Type} [Inhabited Msg]

/-- however the processes are scheduled: the execution has a bounded number of steps, it is only stuck when all processes are done, then no message
is left over and the states satisfy `Q`; and there is such an execution -/
structure AllEnd (np : ℕ) (prog : List (DPhase V Msg)) (v : ℕ → V) (Q : (ℕ → V) → Prop) : Prop where
  bounded : ∀ n s, DReach np prog v n s → n ≤ 2 * prog.length * np
  alive : ∀ n s, DReach np prog v n s → ¬ DFinal np prog s → ∃ t, DStep np prog s t
  good : ∀ n s, DReach np prog v n s → DFinal np prog s → Q s.vec ∧ ∀ i, ∀ p < np, ∀ q < np, s.chan i p q = none
  exist : ∃ n s, DReach np prog v n s ∧ DFinal np prog s

/-- it is enough to show that sends and receives match, and `Q` for the result of running phase after phase -/
theorem AllEnd.of_matched {np : ℕ} {prog : List (DPhase V Msg)} {v : ℕ → V} {Q : (ℕ → V) → Prop} (hm : DMatched np prog v)
    (hQ : ∀ w : ℕ → V, (∀ p < np, w p = drun prog v p) → Q w) : AllEnd np prog v Q where
  bounded _ _ h := dterminates hm h
  alive _ _ h hf := dno_deadlock hm h hf
  good _ s h hf := by
    obtain ⟨h1, h2⟩ := dfinal_state hm h hf
    exact ⟨hQ s.vec h1, h2⟩
  exist := dexists_final hm

end NgsAMG.Spec
