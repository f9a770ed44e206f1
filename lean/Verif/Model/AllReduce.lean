import Verif.Model.DCC

/-!
Model of `MyAllReduceDofData`, `/repo/src/base/distributed/mpiwrap_extension.hpp:283-335`: a value per DOF is reduced over all
processes that share the DOF, with an arbitrary function `lam`.

Simplifications: as in `Verif.Model.DCC` neighbours are addressed by rank instead of their position in `ex_procs` (the table `tra`,
lines 309-313, translates between the two). `lam(a, b)` is given by the new value of `a`.
-/

namespace NgsAMG.AR

open NgsAMG.DCC

variable {T : Type}

/-- `pardofs.GetExchangeDofs(q)` (NGSolve): local DOFs that are shared with `q`, in increasing order -/
def exDofs (P : PD) (p q : ℕ) : List ℕ := (List.range (P.ndof p)).filter fun d => (P.dps p d).contains q

/-- the variables of the loop over `dps`: `dof_val`, `loc_done`, `perow` -/
structure DofSt (T : Type) where
  val : T
  locDone : Bool
  perow : ℕ → ℕ

/-- one round of the loop over `dps`, lines 320-327; `none`: access outside of a receive buffer -/
def dofStep (rank : ℕ) (lam : T → T → T) (own : T) (recv : ℕ → List T) (s : DofSt T) (q : ℕ) : Option (DofSt T) :=
  let s1 : DofSt T := if rank < q && !s.locDone then ⟨lam s.val own, true, s.perow⟩ else s
  ((recv q)[s1.perow q]?).map fun v => ⟨lam s1.val v, s1.locDone, Function.update s1.perow q (s1.perow q + 1)⟩

/-- one DOF, lines 315-333: new value and `perow` -/
def reduceDof (P : PD) (p : ℕ) (lam : T → T → T) (zero : T) (data : ℕ → T) (recv : ℕ → List T) (d : ℕ) (perow : ℕ → ℕ) :
    Option (T × (ℕ → ℕ)) :=
  if (P.dps p d).isEmpty then some (data d, perow)
  else ((P.dps p d).foldlM (dofStep p lam (data d) recv) ⟨zero, false, perow⟩).map fun s =>
    (if s.locDone then s.val else lam s.val (data d), s.perow)

/-- the loop over the first `n` DOFs, lines 314-333: new data and `perow` -/
def reduceLoop (P : PD) (p : ℕ) (lam : T → T → T) (zero : T) (recv : ℕ → List T) (data : ℕ → T) : ℕ → Option ((ℕ → T) × (ℕ → ℕ))
  | 0 => some (data, fun _ => 0)
  | n + 1 => do
    let (data', perow) ← reduceLoop P p lam zero recv data n
    let (v, perow') ← reduceDof P p lam zero data' recv n perow
    some (Function.update data' n v, perow')

/-- `MyAllReduceDofData`; the local state `none` is undefined behaviour -/
def allReduce (P : PD) (lam : T → T → T) (zero : T) : Exch.Phase (Option (ℕ → T)) (List T) where
  sends p q := (P.exProcs p).contains q
  recvs p q := (P.exProcs p).contains q
  msg p v q := match v with
    | some data => (exDofs P p q).map data
    | none => []
  start _ v := v
  apply p v recv := v.bind fun data => (reduceLoop P p lam zero recv data (P.ndof p)).map Prod.fst

end NgsAMG.AR
