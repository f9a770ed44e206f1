import Verif.Model.HybridSmoother

/-!
Model of the matrix-vector operations and of the constructor of `HybridBaseMatrix` / `HybridMatrix`,
`/repo/src/base/linalg/hybrid_matrix.cpp:336-620`, and of the constructors of the hybrid smoothers, which pass their settings on to
`HybridBaseSmoother`.

Simplifications: `BaseVector::Cumulate` and `Distribute` are NGSolve: they convert the status of a parallel vector and keep the
vector it represents. The operations are given for all processes at once; apart from `Cumulate` they do not communicate.
-/

namespace NgsAMG.HybMat

open NgsAMG.DCC NgsAMG.Hybrid NgsAMG.HybSm

variable {k : ℕ}

/-- `x.Cumulate()` (NGSolve): a DISTRIBUTED vector is summed over all copies of a DOF -/
def cumulate (P : PD) (xDist : Bool) (x : ℕ → BVec k) : ℕ → BVec k :=
  if xDist then fun p d => ∑ q ∈ Finset.range P.np, ∑ e ∈ Finset.range (P.ndof q), if P.glob q e = P.glob p d then x q e else 0
  else x

/-- `y.Distribute()` (NGSolve) -/
def distributeIf (P : PD) (yDist : Bool) (y : ℕ → BVec k) (p : ℕ) : BVec k := if yDist then y p else distribute P p (y p)

/-- `SparseMatrix::MultAdd` (NGSolve): `y(i) += s * RowTimesVector(i, x)` -/
def spMultAdd (s : ℝ) (B : CSR (Blk k)) (x y : BVec k) : BVec k :=
  fun i => if i < B.height then y i + s • rowTimesVector B i x else y i

/-- `SparseMatrix::MultTransAdd` (NGSolve): `AddRowTransToVector(i, s * x(i), y)` for all rows -/
def spMultTransAdd (s : ℝ) (B : CSR (Blk k)) (x y : BVec k) : BVec k :=
  (List.range B.height).foldl (fun y i => addRowTransToVector B i (s • x i) y) y

/-- an operation that is done only `if ( HasGLocal() )` -/
def ifG (f : CSR (Blk k) → BVec k → BVec k → BVec k) (G : Option (CSR (Blk k))) (x y : BVec k) : BVec k :=
  match G with
  | some G => f G x y
  | none => y

/-- `HybridBaseMatrix::MultAdd`, hybrid_matrix.cpp:394-413; the result is DISTRIBUTED -/
def multAdd (P : PD) (M : ℕ → CSR (Blk k)) (G : ℕ → Option (CSR (Blk k))) (s : ℝ) (xDist : Bool) (x : ℕ → BVec k)
    (yDist : Bool) (y : ℕ → BVec k) (p : ℕ) : BVec k :=
  let locX := cumulate P xDist x p
  let locY := distributeIf P yDist y p
  ifG (spMultAdd s) (G p) locX (spMultAdd s (M p) locX locY)

/-- `HybridBaseMatrix::Mult`, hybrid_matrix.cpp:437-455; `GetM()->Mult` overwrites `y` -/
def mult (P : PD) (M : ℕ → CSR (Blk k)) (G : ℕ → Option (CSR (Blk k))) (xDist : Bool) (x : ℕ → BVec k) (p : ℕ) : BVec k :=
  let locX := cumulate P xDist x p
  ifG (spMultAdd 1) (G p) locX (spMultAdd 1 (M p) locX 0)

/-- `HybridBaseMatrix::MultTransAdd`, hybrid_matrix.cpp:458-477 -/
def multTransAdd (P : PD) (M : ℕ → CSR (Blk k)) (G : ℕ → Option (CSR (Blk k))) (s : ℝ) (xDist : Bool) (x : ℕ → BVec k)
    (yDist : Bool) (y : ℕ → BVec k) (p : ℕ) : BVec k :=
  let locX := cumulate P xDist x p
  let locY := distributeIf P yDist y p
  ifG (spMultTransAdd s) (G p) locX (spMultTransAdd s (M p) locX locY)

/-- `HybridBaseMatrix::MultTrans`, hybrid_matrix.cpp:499-518 -/
def multTrans (P : PD) (M : ℕ → CSR (Blk k)) (G : ℕ → Option (CSR (Blk k))) (xDist : Bool) (x : ℕ → BVec k) (p : ℕ) : BVec k :=
  let locX := cumulate P xDist x p
  ifG (spMultTransAdd 1) (G p) locX (spMultTransAdd 1 (M p) locX 0)

/-! ### constructors -/

/-- `HybridBaseMatrix::SetMG`, hybrid_matrix.cpp:567-583: `g_zero`, where `nzgOthers` is what the other processes contribute to the
sum; `none`: null pointer dereferenced -/
def setMG {E : Type} (pardofs : Option PD) (M : CSR E) (G : Option (CSR E)) (nzgOthers : ℕ) :
    Option (CSR E × Option (CSR E) × Bool) :=
  match pardofs with
  | none => none
  | some _ => some (M, G, nzgOthers + (if G.isSome then 1 else 0) == 0)

/-- `HybridMatrix` constructor, hybrid_matrix.cpp:591-615 with 336-363; `pardofs` is `mat->GetParallelDofs()`, which is `nullptr`
exactly if `mat` is not a `ParallelMatrix` -/
def hybridMatrix {E : Type} [Zero E] [Add E] (pardofs : Option PD) (p : ℕ) (A : CSR E) (recv : ℕ → Option (Rows E)) (nzgOthers : ℕ) :
    Option (CSR E × Option (CSR E) × Bool) :=
  match pardofs with
  | some P => (decompose P p A recv).bind fun MG => setMG pardofs MG.1 MG.2 nzgOthers
  | none => setMG pardofs A none nzgOthers

/-- the members of `HybridBaseSmoother` that control its algorithm, hybrid_base_smoother.cpp:83-97 -/
structure Settings where
  numLocSteps : ℤ
  commInThread : Bool
  overlapComm : Bool

/-- C++ conversion `bool` to `int` -/
def intOfBool (b : Bool) : ℤ := if b then 1 else 0

/-- C++ conversion `int` to `bool` -/
def boolOfInt (i : ℤ) : Bool := i != 0

/-- `HybridSmoother` / `HybridBaseSmoother` constructor, hybrid_smoother.cpp:18-47, hybrid_base_smoother.cpp:83-97 -/
def hybridSmoother (numLocSteps : ℤ) (commInThread overlapComm : Bool) : Settings := ⟨numLocSteps, commInThread, overlapComm⟩

/-- `HybridGSSmoother` constructor, gssmoother.cpp:603-619: `HybridSmoother<TM>(_A, _overlap, _in_thread, _nsteps_loc)` -/
def hybridGSSmoother (overlap inThread : Bool) (nstepsLoc : ℤ) : Settings :=
  hybridSmoother (intOfBool overlap) inThread (boolOfInt nstepsLoc)

/-- `HybridBS` constructor, block_gssmoother.cpp:508-521: `HybridSmoother<TM>(_A, _nsteps_loc, _in_thread, _overlap)` -/
def hybridBS (overlap inThread : Bool) (nstepsLoc : ℤ) : Settings := hybridSmoother nstepsLoc inThread overlap

/-- `HybridDISmoother` constructor, hybrid_smoother.cpp:236-241: `HybridSmoother<TM>(_A, overlap, NG_MPI_thread, 1)` -/
def hybridDISmoother (overlap inThread : Bool) : Settings := hybridSmoother (intOfBool overlap) inThread (boolOfInt 1)

end NgsAMG.HybMat
