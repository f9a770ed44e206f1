import Verif.Model.CSR

/-! Model of the sequential Gauss-Seidel smoothers `GSS3`, `GSS4` in smoothers/gssmoother.cpp. -/

namespace NgsAMG.GS
open Matrix

variable {k : ℕ}

/-- `freedofs->NumSet()` of a BitArray of size `n` (NGSolve) -/
def numSet (n : ℕ) (f : ℕ → Bool) : ℕ := ((List.range n).filter f).length

/-- loop `while(c < Size()) { if Test(c) {first_free = c; break;} c++; }`, gssmoother.cpp:121-126. Returns the final
`first_free`, which is 0 if the loop finds nothing. -/
def scanUp (n : ℕ) (f : ℕ → Bool) (c : ℕ) : ℕ :=
  if c < n then (if f c then c else scanUp n f (c + 1)) else 0
termination_by n - c

/-- loop `c = Size()-1; while(c != -1) { if Test(c) {next_free = c+1; break;} c--; }`, gssmoother.cpp:127-134; the
argument is `c + 1`. Returns the final `next_free`, `dflt` if the loop finds nothing. -/
def scanDown (f : ℕ → Bool) (dflt : ℕ) : ℕ → ℕ
  | 0 => dflt
  | c + 1 => if f c then c + 1 else scanDown f dflt c

/-- state of a `GSS3` object -/
structure GSS3 (k : ℕ) where
  mat : CSR (Blk k)
  free : Option (ℕ → Bool)
  firstFree : ℕ
  nextFree : ℕ
  dinv : ℕ → Blk k

/-- `first_free`, `next_free` as set in `GSS3::SetUp`, gssmoother.cpp:110-137 -/
def setUpRange (H : ℕ) : Option (ℕ → Bool) → ℕ × ℕ
  | none => (0, H)
  | some f =>
    if numSet H f = 0 then (0, 0)
    else if numSet H f ≠ H then (scanUp H f 0, scanDown f H H)
    else (0, H)

/-- `!freedofs || freedofs->Test(i)` -/
def isFree (free : Option (ℕ → Bool)) (i : ℕ) : Bool := match free with | none => true | some f => f i

/-- constructors of `GSS3`, gssmoother.cpp:90-107 with `CalcDiags`, gssmoother.cpp:142-170. `inv` is
`CalcPseudoInverseTryNormal` or `CalcInverse` (dense inverse of a block); `replDiag = none` is the empty array. -/
def GSS3.mk' (inv : Blk k → Blk k) (A : CSR (Blk k)) (replDiag : Option (ℕ → Blk k)) (free : Option (ℕ → Bool)) :
    GSS3 k where
  mat := A
  free := free
  firstFree := (setUpRange A.height free).1
  nextFree := (setUpRange A.height free).2
  dinv i := if isFree free i then inv (match replDiag with | some d => d i | none => A.lookup i i) else 0

/-- lambda `updateRow` of `SmoothRHSInternal`, gssmoother.cpp:209-212 -/
def updateRow (A : CSR (Blk k)) (dinv : ℕ → Blk k) (b : BVec k) (x : BVec k) (i : ℕ) : BVec k :=
  Function.update x i (x i + dinv i *ᵥ (b i - rowTimesVector A i x))

/-- lambda `up_row` of `SmoothRESInternal`, gssmoother.cpp:274-278; state is (x, res) -/
def upRow (A : CSR (Blk k)) (dinv : ℕ → Blk k) (s : BVec k × BVec k) (i : ℕ) : BVec k × BVec k :=
  let w := -(dinv i *ᵥ s.2 i)
  let r := addRowTransToVector A i w s.2
  (Function.update s.1 i (s.1 i - w), r)

/-- descending `for (int rownr = next-1; rownr >= upf; rownr--)`: the visited rows -/
def downTo (lo : ℕ) : ℕ → List ℕ
  | 0 => []
  | c + 1 => if lo ≤ c then c :: downTo lo c else []

/-- the row numbers passed to the update lambda, in order: gssmoother.cpp:214-256 and 280-314. The backward branch
visits `use_next-1, …, use_first+1` and then `use_first` separately. -/
def visited (g : GSS3 k) (first next : ℕ) (backwards : Bool) : List ℕ :=
  let useFirst := max first g.firstFree
  let useNext := min next g.nextFree
  if backwards then
    (downTo (useFirst + 1) useNext).filter (isFree g.free) ++
      (if useNext > useFirst then (if isFree g.free useFirst then [useFirst] else []) else [])
  else if useNext > useFirst then
    ((List.range useNext).drop useFirst).filter (isFree g.free)
  else []

/-- `GSS3::SmoothRHSInternal`, gssmoother.cpp:195-257 -/
def GSS3.smoothRHS (g : GSS3 k) (first next : ℕ) (x b : BVec k) (backwards : Bool) : BVec k :=
  (visited g first next backwards).foldl (updateRow g.mat g.dinv b) x

/-- `GSS3::SmoothRESInternal`, gssmoother.cpp:260-315 -/
def GSS3.smoothRES (g : GSS3 k) (first next : ℕ) (x res : BVec k) (backwards : Bool) : BVec k × BVec k :=
  (visited g first next backwards).foldl (upRow g.mat g.dinv) (x, res)

/-- `BaseSmoother::CalcResiduum`, base_smoother.hpp:132-142 -/
def calcResiduum (A : CSR (Blk k)) (x b : BVec k) (xZero : Bool) : BVec k :=
  if xZero then b else b - multRow A x

/-- `GSS3::Smooth` (gssmoother.cpp:349-372, `backwards = false`) and `GSS3::SmoothBack` (gssmoother.cpp:375-398,
`backwards = true`): new (x, res). -/
def GSS3.smooth (g : GSS3 k) (backwards : Bool) (x b res : BVec k) (resUpdated updateRes xZero : Bool) :
    BVec k × BVec k :=
  if resUpdated then
    if updateRes then g.smoothRES 0 g.mat.height x res backwards
    else (g.smoothRHS 0 g.mat.height x b backwards, res)
  else
    if updateRes then g.smoothRES 0 g.mat.height x (calcResiduum g.mat x b xZero) backwards
    else (g.smoothRHS 0 g.mat.height x b backwards, res)

/-- `GSS3::MultAdd`, gssmoother.cpp:173-192: a Jacobi step (rows are independent, the parallel loop has no order) -/
def GSS3.multAdd (g : GSS3 k) (s : ℝ) (b x : BVec k) : BVec k := fun i =>
  if i < g.mat.height ∧ isFree g.free i then x i + s • (g.dinv i *ᵥ b i) else x i

/-- state of a `GSS4` object: compressed matrix (row numbers are positions in `xdofs`, columns are global) -/
structure GSS4 (k : ℕ) where
  cA : CSR (Blk k)
  xdofs : List ℕ
  dinv : ℕ → Blk k

/-- `GSS4::SetUp`, gssmoother.cpp:455-506: positions/rows of the subset. `res_subset` (462-469) contains the subset and
all columns of its rows. -/
def resSubset (A : CSR (Blk k)) (sub : ℕ → Bool) (j : ℕ) : Bool :=
  (List.range A.height).any (fun i => sub i && (i == j || (A.row i).any (fun e => e.1 == j)))

/-- `GSS4::SetUp`, gssmoother.cpp:455-506 -/
def setUp4 (A : CSR (Blk k)) (sub : Option (ℕ → Bool)) : CSR (Blk k) × List ℕ :=
  match sub with
  | some f =>
    if numSet A.height f ≠ A.height then
      let xdofs := (List.range A.height).filter f
      ({ height := xdofs.length, width := A.height,
         row := fun q => match xdofs[q]? with
           | some d => (A.row d).filter (fun e => resSubset A f e.1)
           | none => [] }, xdofs)
    else (A, List.range A.height)
  | none => (A, List.range A.height)

/-- constructors of `GSS4` with diagonals, gssmoother.cpp:406-438 and `CalcDiags` 510-527. Without `replDiag` the
diagonal is read as `ncA(i,i)` from the compressed matrix. -/
def GSS4.mk' (inv : Blk k → Blk k) (A : CSR (Blk k)) (replDiag : Option (ℕ → Blk k)) (sub : Option (ℕ → Bool)) :
    GSS4 k :=
  let s := setUp4 A sub
  { cA := s.1, xdofs := s.2,
    dinv := fun q => inv (match replDiag with
      | some d => (s.2[q]?.map d).getD 0
      | none => s.1.lookup q q) }

/-- `iterate_rows`, gssmoother.cpp:441-453 -/
def rows4 (h : ℕ) (bw : Bool) : List ℕ := if bw then (List.range h).reverse else List.range h

/-- lambda in `GSS4::SmoothRHSInternal`, gssmoother.cpp:577-581 -/
def updateRow4 (g : GSS4 k) (b : BVec k) (x : BVec k) (q : ℕ) : BVec k :=
  let d := g.xdofs.getD q 0
  Function.update x d (x d + g.dinv q *ᵥ (b d - rowTimesVector g.cA q x))

/-- lambda in `GSS4::SmoothRESInternal`, gssmoother.cpp:555-559 -/
def upRow4 (g : GSS4 k) (s : BVec k × BVec k) (q : ℕ) : BVec k × BVec k :=
  let d := g.xdofs.getD q 0
  let w := -(g.dinv q *ᵥ s.2 d)
  (Function.update s.1 d (s.1 d - w), addRowTransToVector g.cA q w s.2)

/-- `GSS4::SmoothRHSInternal`, gssmoother.cpp:564-583 -/
def GSS4.smoothRHS (g : GSS4 k) (x b : BVec k) (bw : Bool) : BVec k :=
  (rows4 g.cA.height bw).foldl (updateRow4 g b) x

/-- `GSS4::SmoothRESInternal`, gssmoother.cpp:542-561 -/
def GSS4.smoothRES (g : GSS4 k) (x res : BVec k) (bw : Bool) : BVec k × BVec k :=
  (rows4 g.cA.height bw).foldl (upRow4 g) (x, res)

end NgsAMG.GS
