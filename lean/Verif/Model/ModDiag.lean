import Verif.Model.AllReduce
import Verif.Model.HybridSmoother
import Mathlib.Analysis.SpecialFunctions.Sqrt

/-!
Model of the modified diagonal of the hybrid smoothers: `CalcHybridSmootherRDGItGeneric`, `CalcHybridSmootherRDG`
(`/repo/src/base/smoothers/hybrid_smoother_utils.hpp:11-174`) as called by `HybridSmoother::CalcModDiag`
(`/repo/src/base/smoothers/hybrid_smoother.cpp:70-98`).

Simplifications: doubles are reals; `TM = double` is the case of block size 1 (the code has separate but identical branches, lines
53-56, 80-85, 121-125). A null pointer `G` (possible only without neighbours) is dereferenced to bind a reference that is not used
before the early return of line 31; the model has an empty matrix instead. `scalSqrt` is allocated too large (line 47), which is not
visible. The two `MyAllReduceDofData` are the model of `Verif.Model.AllReduce`, on the two components of the state.
-/

namespace NgsAMG.ModDiag

open NgsAMG.DCC NgsAMG.HybSm

variable {k : ℕ}

/-- `scalSqrt`, hybrid_smoother_utils.hpp:47-62 -/
noncomputable def scalSqrt (orig : ℕ → Blk k) (d : ℕ) : Fin k → ℝ := fun l => √(orig d l l)

/-- the loop over the entries of row `d` of `G`, hybrid_smoother_utils.hpp:76-98 -/
noncomputable def addRow (sq : ℕ → Fin k → ℝ) (d : ℕ) (row : List (ℕ × Blk k)) : Fin k → ℝ :=
  row.foldl (fun ad e => fun l => (List.finRange k).foldl (fun s m => s + |e.2 l m| / (sq d l * sq e.1 m)) (ad l)) 0

/-- `addDiag` before it is reduced, hybrid_smoother_utils.hpp:65-99: rows that are not free are skipped -/
noncomputable def addDiag (orig : ℕ → Blk k) (G : CSR (Blk k)) (free : Option (ℕ → Bool)) (d : ℕ) : Fin k → ℝ :=
  if inSubset free d then addRow (scalSqrt orig) d (G.row d) else 0

/-- `maxfac`, hybrid_smoother_utils.hpp:123, 128-134 -/
noncomputable def maxfac (ad : Fin k → ℝ) : ℝ := (List.finRange k).foldl (fun f i => max f (51 / 100 * (1 + ad i))) 1

/-- the last loop, hybrid_smoother_utils.hpp:110-140 -/
noncomputable def modify (P : PD) (p : ℕ) (free : Option (ℕ → Bool)) (orig : ℕ → Blk k) (ad : ℕ → Fin k → ℝ) (d : ℕ) : Blk k :=
  if !P.isMaster p d || !inSubset free d then 0 else maxfac (ad d) • orig d

/-- local variables of a process: `origDiag`, `addDiag`, `modDiag`; `none`: undefined behaviour (an access outside of a receive
buffer), for `md`: not computed -/
structure Vars (k : ℕ) where
  orig : Option (ℕ → Blk k)
  add : Option (ℕ → Fin k → ℝ)
  md : Option (ℕ → Blk k)

/-- messages: the first component in the first reduction, the second component in the second -/
abbrev Msg (k : ℕ) := List (Blk k) × List (Fin k → ℝ)

/-- `origDiag` before it is reduced: `M(k,k)`, hybrid_smoother_utils.hpp:37-42, 150-157, hybrid_smoother.cpp:87 -/
def start (M : ℕ → CSR (Blk k)) (p : ℕ) : Vars k := ⟨some fun d => (M p).lookup d d, none, none⟩

/-- hybrid_smoother_utils.hpp:45-99: reduce `origDiag`, then compute `addDiag` -/
noncomputable def phase1 (P : PD) (G : ℕ → Option (CSR (Blk k))) (free : ℕ → Option (ℕ → Bool)) : Exch.Phase (Vars k) (Msg k) where
  sends := (AR.allReduce (T := Blk k) P (· + ·) 0).sends
  recvs := (AR.allReduce (T := Blk k) P (· + ·) 0).recvs
  msg p v q := ((AR.allReduce P (· + ·) 0).msg p v.orig q, [])
  start _ v := v
  apply p v recv :=
    let o := (AR.allReduce P (· + ·) 0).apply p v.orig fun q => (recv q).1
    ⟨o, o.map fun orig => addDiag orig ((G p).getD ⟨0, 0, fun _ => []⟩) (free p), none⟩

/-- hybrid_smoother_utils.hpp:100-140: reduce `addDiag`, then compute `modDiag` -/
noncomputable def phase2 (P : PD) (free : ℕ → Option (ℕ → Bool)) : Exch.Phase (Vars k) (Msg k) where
  sends := (AR.allReduce (T := Fin k → ℝ) P (· + ·) 0).sends
  recvs := (AR.allReduce (T := Fin k → ℝ) P (· + ·) 0).recvs
  msg p v q := ([], (AR.allReduce P (· + ·) 0).msg p v.add q)
  start _ v := v
  apply p v recv :=
    let a := (AR.allReduce P (· + ·) 0).apply p v.add fun q => (recv q).2
    ⟨v.orig, a, v.orig.bind fun orig => a.map fun ad => modify P p (free p) orig ad⟩

/-- `CalcModDiag` on all processes -/
noncomputable def calcModDiag (P : PD) (G : ℕ → Option (CSR (Blk k))) (free : ℕ → Option (ℕ → Bool)) :
    List (Exch.Phase (Vars k) (Msg k)) := [phase1 P G free, phase2 P free]

/-- the diagonal that the local smoothers invert: the result is empty without neighbours (hybrid_smoother_utils.hpp:28-32), then they
take the diagonal of `M` (`GSS3::CalcDiags`, gssmoother.cpp:143-170); `none`: undefined behaviour -/
noncomputable def usedDiag (P : PD) (M : ℕ → CSR (Blk k)) (p : ℕ) (v : Vars k) : Option (ℕ → Blk k) :=
  if (P.exProcs p).isEmpty then some fun d => (M p).lookup d d else v.md

end NgsAMG.ModDiag
