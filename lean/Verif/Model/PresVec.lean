import Mathlib.Analysis.Real.Sqrt
import Mathlib.Data.Matrix.Mul
import Mathlib.Algebra.Order.Floor.Semiring

/-!
# Model: basis functions of coarse facets that represent given vectors (stokes/hdiv/preserved_vectors_impl.hpp:174-738, stokes/hdiv/mesh_dofs.hpp)

`double` is `ℝ`. The inner product is a parameter `ip`: theorems about the representation of the vectors hold for every `ip`, so also for inner products
that are computed inexactly; the others take the exact one. A division by zero (not a number in the code) is `none`, as are writes out of range.
Entries that are not initialized are arbitrary. One process; the loops do not communicate.
-/

namespace NgsAMG.Pres

abbrev Vec (n : ℕ) := Fin n → ℝ

/-- the columns of `P` that are set, and `W` by row and column -/
structure St (n : ℕ) where
  P : List (Vec n)
  W : ℕ → ℕ → ℝ

variable {n : ℕ}

/-- preserved_vectors_impl.hpp:209 -/
noncomputable def lowerTol : ℝ := 1 / 10 ^ 8

/-- preserved_vectors_impl.hpp:210 -/
noncomputable def upperTol : ℝ := 1 / 10 ^ 3

/-- preserved_vectors_impl.hpp:229-232 and 240-242, 294-297, 304-306: subtracts a multiple of column `ll`, and puts the factor into `W`; `put` is `=`
or `+=` -/
noncomputable def orthStep (fac : Vec n → ℕ → ℝ) (P : List (Vec n)) (put : ℝ → ℝ → ℝ) (s : Vec n × (ℕ → ℝ)) (ll : ℕ) : Vec n × (ℕ → ℝ) :=
  (s.1 - fac s.1 ll • P.getD ll 0, Function.update s.2 ll (put (s.2 ll) (fac s.1 ll)))

/-- preserved_vectors_impl.hpp:227-245, 292-309: orthogonalization against the first `nPres` columns, and those up to `nv` -/
noncomputable def orth (ip : Vec n → Vec n → ℝ) (sq : ℕ → ℝ) (P : List (Vec n)) (nPres nv : ℕ) (put : ℝ → ℝ → ℝ) (s : Vec n × (ℕ → ℝ)) : Vec n × (ℕ → ℝ) :=
  (List.range' nPres (nv - nPres)).foldl (orthStep (fun p ll => ip p (P.getD ll 0)) P put)
    ((List.range nPres).foldl (orthStep (fun p ll => ip p (P.getD ll 0) / sq ll) P put) s)

/-- writes column `l` of `W` -/
def setCol (W : ℕ → ℕ → ℝ) (l : ℕ) (w : ℕ → ℝ) : ℕ → ℕ → ℝ := fun i j => if j = l then w i else W i j

/-- preserved_vectors_impl.hpp:275-281, 321-326: a new column; `none` if there is no room for it -/
noncomputable def accept (k : ℕ) (s : St n) (l : ℕ) (w : ℕ → ℝ) (cn : ℝ) (p : Vec n) : Option (St n) :=
  if s.P.length < k then some ⟨s.P ++ [(1 / cn) • p], setCol s.W l (Function.update w s.P.length cn)⟩ else none

open Classical in
/-- preserved_vectors_impl.hpp:287-333: orthogonalizes again, `tries` times -/
noncomputable def retry (ip : Vec n → Vec n → ℝ) (sq : ℕ → ℝ) (nPres k : ℕ) (s : St n) (l : ℕ) (cn : ℝ) : ℕ → Vec n × (ℕ → ℝ) → Option (St n)
  | 0, r => some ⟨s.P, setCol s.W l r.2⟩
  | t + 1, r =>
    let r' := orth ip sq s.P nPres (min l s.P.length) (fun o f => o + f) r
    if upperTol * cn < Real.sqrt (ip r'.1 r'.1) then accept k s l r'.2 cn r'.1
    else if Real.sqrt (ip r'.1 r'.1) < lowerTol * cn then some ⟨s.P, setCol s.W l r'.2⟩
    else retry ip sq nPres k s l cn t r'

/-- preserved_vectors_impl.hpp:216-251: the rest of column `l` after the first orthogonalization, and the column of `W` -/
noncomputable def first (ip : Vec n → Vec n → ℝ) (sq : ℕ → ℝ) (nPres k : ℕ) (s : St n) (l : ℕ) (v : Vec n) : Vec n × (ℕ → ℝ) :=
  let r := orth ip sq s.P nPres (min l s.P.length) (fun _ f => f) (v, fun i => s.W i l)
  (r.1, fun i => if min l s.P.length ≤ i ∧ i < k then 0 else r.2 i)

open Classical in
/-- preserved_vectors_impl.hpp:213-336: column `l` -/
noncomputable def column (ip : Vec n → Vec n → ℝ) (sq : ℕ → ℝ) (nPres k : ℕ) (V : ℕ → Vec n) (s : St n) (l : ℕ) : Option (St n) :=
  let r := first ip sq nPres k s l (V l)
  let cn := Real.sqrt (ip r.1 r.1)
  if upperTol * Real.sqrt (ip (V l) (V l)) < cn then accept k s l r.2 cn r.1
  else if lowerTol * Real.sqrt (ip (V l) (V l)) < cn then retry ip sq nPres k s l cn 2 r
  else some ⟨s.P, setCol s.W l r.2⟩

/-- preserved_vectors_impl.hpp:197-204: the first columns of `P` and `W` -/
def start (V : ℕ → Vec n) (nPres k : ℕ) (W0 : ℕ → ℕ → ℝ) : St n :=
  ⟨(List.range nPres).map V, fun i j => if j < nPres ∧ i < k then (if i = j then 1 else 0) else W0 i j⟩

open Classical in
/-- preserved_vectors_impl.hpp:174-345, `computePW`. `V` has `k` columns, `W0` is what `W` contains before. -/
noncomputable def computePW (ip : Vec n → Vec n → ℝ) (V : ℕ → Vec n) (nPres k : ℕ) (W0 : ℕ → ℕ → ℝ) : Option (St n) :=
  if nPres < k ∧ ∃ l < nPres, ip (V l) (V l) = 0 then none
  else (List.range' nPres (k - nPres)).foldlM (column ip (fun l => ip (V l) (V l)) nPres k V) (start V nPres k W0)

/-- preserved_vectors_impl.hpp:393-406: column `j` gets flow zero -/
noncomputable def zfStep (ip : Vec n → Vec n → ℝ) (f : Vec n) (nFlow : ℝ) (s : St n) (j : ℕ) : St n :=
  ⟨s.P.set j (s.P.getD j 0 - (ip f (s.P.getD j 0) / nFlow) • s.P.getD 0 0),
    fun i l => if i = 0 then s.W 0 l + (ip f (s.P.getD j 0) / nFlow) * s.W j l else s.W i l⟩

open Classical in
/-- preserved_vectors_impl.hpp:350-440, `computePWZF` -/
noncomputable def computePWZF (ip : Vec n → Vec n → ℝ) (f : Vec n) (V : ℕ → Vec n) (nPres k : ℕ) (W0 : ℕ → ℕ → ℝ) : Option (St n) :=
  (computePW ip V nPres k W0).bind fun s =>
    if nPres < s.P.length ∧ ip f (s.P.getD 0 0) = 0 then none
    else some ((List.range' nPres (s.P.length - nPres)).foldl (zfStep ip f (ip f (s.P.getD 0 0))) s)

/-! ### the coarse edges -/

/-- what `PreservedVectorsMap` and `computeSpecialVecs` read; one special vector per edge -/
structure Inp where
  /-- edges of the coarse mesh in the order of `ApplyEQ` -/
  ord : List ℕ
  /-- `cDOFedEdges` -/
  dofed : ℕ → Bool
  /-- `c2f_edge` -/
  c2f : ℕ → List ℕ
  /-- first vertex of a coarse edge -/
  cv0 : ℕ → ℕ
  /-- first vertex of a fine edge -/
  fv0 : ℕ → ℕ
  /-- `vMap` -/
  vmap : ℕ → Option ℕ
  /-- `flow[0]` of a fine edge -/
  flow : ℕ → ℝ
  /-- `_dofOffsets` of the fine mesh -/
  off : ℕ → ℕ
  /-- the preserved vectors -/
  vecs : List (ℕ → ℝ)
  /-- what `W` contains before -/
  junk : ℕ → ℕ → ℝ

/-- mesh_dofs.hpp:82-85, `GetNDOF` -/
def Inp.nDof (I : Inp) (e : ℕ) : ℕ := I.off (e + 1) - I.off e

/-- mesh_dofs.hpp:71-74, 92-95: the degrees of freedom of the fine edges of coarse edge `E`, in the order of lines 570-583 of preserved_vectors_impl.hpp -/
def Inp.fDofs (I : Inp) (E : ℕ) : List ℕ := (I.c2f E).flatMap fun e => (List.range (I.nDof e)).map fun l => I.off e + l

/-- hdiv_stokes_factory_impl.hpp:240-262: the special vector of `E`; the entries of the first degree of freedom of the edges -/
noncomputable def Inp.special (I : Inp) (E : ℕ) : List ℝ :=
  (I.c2f E).flatMap fun e => (List.range (I.nDof e)).map fun l =>
    if l = 0 then (if decide (I.flow e < 0) = decide (I.vmap (I.fv0 e) ≠ some (I.cv0 E)) then 1 else -1) else 0

/-- preserved_vectors_impl.hpp:604-617: `fFlow` -/
noncomputable def Inp.fFlow (I : Inp) (E : ℕ) : List ℝ :=
  (I.c2f E).flatMap fun e => (List.range (I.nDof e)).map fun l =>
    (if I.vmap (I.fv0 e) = some (I.cv0 E) then 1 else -1) * (if l = 0 then I.flow e else 0)

/-- preserved_vectors_impl.hpp:559-584: column `c` of `V` -/
noncomputable def Inp.V (I : Inp) (E c : ℕ) : Vec (I.fDofs E).length := fun i =>
  if c = 0 then (I.special E).getD i 0 else (I.vecs.getD (c - 1) fun _ => 0) ((I.fDofs E).getD i 0)

/-- preserved_vectors_impl.hpp:541-623: the block of an edge; `none` is the exception of hdiv_stokes_factory_impl.hpp:267 for an edge without degrees
of freedom -/
noncomputable def Inp.block (ip : ∀ n, Vec n → Vec n → ℝ) (I : Inp) (E : ℕ) : Option (St (I.fDofs E).length) :=
  if (I.c2f E).all fun e => I.nDof e != 0 then computePWZF (ip _) (fun i => (I.fFlow E).getD i 0) (I.V E) 1 (1 + I.vecs.length) I.junk
  else none

/-- preserved_vectors_impl.hpp:478-500: the space for an edge -/
def Inp.room (I : Inp) (E : ℕ) : ℕ :=
  if I.dofed E then 1 + (1 + I.vecs.length) * I.vecs.length + (I.fDofs E).length * (1 + I.vecs.length) else 0

/-- preserved_vectors_impl.hpp:484-503: `cEdgeBufferOffset` and the total; `f` is what the array contains before -/
def Inp.offsets (I : Inp) (f : ℕ → ℕ) : (ℕ → ℕ) × ℕ := I.ord.foldl (fun s E => (Function.update s.1 E s.2, s.2 + I.room E)) (f, 0)

/-- preserved_vectors_impl.hpp:651-667: what is stored for an edge -/
noncomputable def chunk {n : ℕ} (s : St n) (nv : ℕ) : List ℝ :=
  (n : ℝ) :: ((List.finRange n).flatMap fun r => (List.range s.P.length).map fun c => s.P.getD c 0 r) ++
    ((List.range nv).flatMap fun j => (List.range s.P.length).map fun c => s.W c (1 + j))

/-- the loop `buffer[bufOffset++] = ...`; `none` if it leaves the buffer -/
def writeAt (buf : List ℝ) (o : ℕ) (xs : List ℝ) : Option (List ℝ) :=
  if o + xs.length ≤ buf.length then some (buf.take o ++ xs ++ buf.drop (o + xs.length)) else none

/-- preserved_vectors_impl.hpp:541-669: one edge; `nd` are the numbers of degrees of freedom set with `SetNDOF` -/
noncomputable def Inp.edgeStep (ip : ∀ n, Vec n → Vec n → ℝ) (I : Inp) (offs : ℕ → ℕ) (s : List ℝ × (ℕ → ℕ)) (E : ℕ) : Option (List ℝ × (ℕ → ℕ)) :=
  if I.dofed E then
    (I.block ip E).bind fun b => (writeAt s.1 (offs E) (chunk b I.vecs.length)).map fun buf => (buf, Function.update s.2 E b.P.length)
  else some s

/-- preserved_vectors_impl.hpp:508-670 and hdiv_stokes_factory_impl.hpp:284-299: the buffer and the numbers of degrees of freedom of the coarse edges;
`buf0` is the new array, of the size computed -/
noncomputable def Inp.fill (ip : ∀ n, Vec n → Vec n → ℝ) (I : Inp) (offs : ℕ → ℕ) (buf0 : List ℝ) : Option (List ℝ × (ℕ → ℕ)) :=
  I.ord.foldlM (I.edgeStep ip offs) (buf0, fun _ => 0)

/-- mesh_dofs.hpp:57-63, `Finalize`: the offsets -/
def dofOff (nd : ℕ → ℕ) (E : ℕ) : ℕ := ((List.range E).map nd).sum

/-- preserved_vectors_impl.hpp:723-735, `ReadProlBlockFromBuffer`: entry `(r, c)` of the block of `E` with `nd` columns -/
noncomputable def readBlock (buf : List ℝ) (offs : ℕ → ℕ) (nd : ℕ → ℕ) (E r c : ℕ) : ℝ := buf.getD (offs E + 1 + r * nd E + c) 0

/-- preserved_vectors_impl.hpp:691-715, `Finalize`: coarse vector `j`, written for the degrees of freedom of the edges in order -/
noncomputable def Inp.coarseVec (I : Inp) (buf : List ℝ) (offs : ℕ → ℕ) (nd : ℕ → ℕ) (j : ℕ) (x0 : ℕ → ℝ) : ℕ → ℝ :=
  I.ord.foldl (fun x E => if I.dofed E then
    fun d => if dofOff nd E ≤ d ∧ d < dofOff nd (E + 1) then
      buf.getD (offs E + 1 + ⌊buf.getD (offs E) 0⌋₊ * nd E + j * nd E + (d - dofOff nd E)) 0 else x d
    else x) x0

end NgsAMG.Pres
