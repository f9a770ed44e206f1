import Mathlib.Data.List.Sort
import Mathlib.Algebra.Order.Field.Basic
import Mathlib.LinearAlgebra.Matrix.NonsingularInverse

/-!
# Model: prolongation of the H(div) Stokes space (stokes/hdiv/hdiv_stokes_factory_impl.hpp:106-1161), base/coarsening/base_coarse.cpp:16-30

One process, with its ghost vertices; the function does not communicate. `double` is a field `K` with an order. Degrees of freedom of the edges are
pairs of edge and local number instead of the numbers of `MeshDOFs` (a bijection that keeps the order, `NgsAMG.Pres.dofToEdge_correct`), the matrix is
a function from these to rows. The blocks of the cross edges that `vecMap` computed (model `PresVec`) are a parameter. `find_in_sorted_array` is the
position in the list, the arrays searched are sorted: rows of `GetMapC2F`, and sorted by `QuickSort`. `none`: an exception, an index out of range, an
assignment of arrays with different sizes, a division by zero, or inverting a singular matrix.
-/

namespace NgsAMG.HProl

/-- an edge and the local number of a degree of freedom -/
abbrev Dof := ℕ × ℕ

/-- a row of the prolongation -/
abbrev Row (K : Type) := List (Dof × K)

abbrev Mat (K : Type) := Dof → Row K

/-- what the function reads. `none` is -1. -/
structure Inp (K : Type) where
  /-- number of vertices and edges of the fine mesh -/
  nV : ℕ
  nE : ℕ
  /-- `fECon`: neighbours of a vertex, with the edge -/
  con : ℕ → List (ℕ × ℕ)
  /-- `fEdges` -/
  edge : ℕ → ℕ × ℕ
  /-- `fVData[v].vol` -/
  vol : ℕ → K
  /-- `fEData[e].flow[0]` -/
  flow : ℕ → K
  /-- `fMeshDOFs.GetNDOF(e)` -/
  nd : ℕ → ℕ
  /-- `free_fes` -/
  free : ℕ → Bool
  /-- `fgv` -/
  ghost : ℕ → Bool
  /-- `vmap` -/
  vmap : ℕ → Option ℕ
  /-- `emap` -/
  emap : ℕ → Option ℕ
  /-- vertices and edges of the coarse mesh in the order of `ApplyEQ` -/
  cvs : List ℕ
  ces : List ℕ
  /-- `cecon` -/
  ccon : ℕ → List (ℕ × ℕ)
  /-- `cEdges` -/
  cedge : ℕ → ℕ × ℕ
  /-- `cDOFedEdges` -/
  cdofed : ℕ → Bool
  /-- `cMeshDOFs.GetNDOF(E)` -/
  cnd : ℕ → ℕ
  /-- the blocks `ReadProlBlockFromBuffer` -/
  pblk : ℕ → ℕ → ℕ → K
  /-- `cVData[C].vol` -/
  cvol : ℕ → K
  /-- `cEData[E].flow[0]` before -/
  cflow0 : ℕ → K
  /-- rows of `fSPM` -/
  mat : Dof → List (Dof × K)
  /-- column that has not been written -/
  junk : Dof

/-- base_coarse.cpp:16-30, `GetMapC2F`: the fine nodes of a coarse one -/
def c2f (map : ℕ → Option ℕ) (n C : ℕ) : List ℕ := (List.range n).filter fun k => map k = some C

/-- mesh_dofs.hpp:108-120, `SubDOFs`: the degrees of freedom of some edges -/
def dofs (nd : ℕ → ℕ) (L : List ℕ) : List Dof := L.flatMap fun e => (List.range (nd e)).map fun l => (e, l)

variable {K : Type} [Field K] [LinearOrder K]

/-- `v_aggs[C]` -/
def Inp.agg (I : Inp K) (C : ℕ) : List ℕ := c2f I.vmap I.nV C

/-! ### pattern and rows of the edges between agglomerates -/

/-- hdiv_stokes_factory_impl.hpp:319-382: `perow` for the degrees of freedom of edge `e`; `none` are the exceptions of lines 357 and 377 -/
def perow (I : Inp K) (e : ℕ) : Option ℕ :=
  if !I.free e then some 0
  else match I.emap e with
    | some E => some (I.cnd E)
    | none =>
      if I.vmap (I.edge e).1 = I.vmap (I.edge e).2 then (I.vmap (I.edge e).1).map fun C => ((I.ccon C).map fun x => I.cnd x.2).sum
      else none

/-- hdiv_stokes_factory_impl.hpp:315-391: the matrix with rows of these sizes; all values are -42 -/
def alloc (I : Inp K) : Option (Mat K) :=
  if (List.range I.nE).all fun e => (perow I e).isSome then some fun x => List.replicate ((perow I x.1).getD 0) (I.junk, -42) else none

/-- writes a row; the number of entries is fixed -/
def setRow (P : Mat K) (x : Dof × Row K) : Option (Mat K) :=
  if (P x.1).length = x.2.length then some (Function.update P x.1 x.2) else none

/-- hdiv_stokes_factory_impl.hpp:409-463: the rows for a coarse edge; row `countRow` of the block for degree of freedom number `countRow` -/
def crossRows (I : Inp K) (E : ℕ) : List (Dof × Row K) :=
  (dofs I.nd (c2f I.emap I.nE E)).zipIdx.map fun x => (x.1, (List.range (I.cnd E)).map fun q => ((E, q), I.pblk E x.2 q))

/-- hdiv_stokes_factory_impl.hpp:399-497: one coarse edge; `cFlow[0]` is read in line 492 -/
def crossStep (I : Inp K) (P : Mat K) (E : ℕ) : Option (Mat K) :=
  if I.cdofed E then (if I.cnd E = 0 then none else (crossRows I E).foldlM setRow P) else some P

/-- hdiv_stokes_factory_impl.hpp:441, 467: entry of `fFlow` for coarse edge `E` -/
def fFlow (I : Inp K) (E : ℕ) (x : Dof) : K :=
  (if I.vmap (I.edge x.1).1 = some (I.cedge E).1 then 1 else -1) * (if x.2 = 0 then I.flow x.1 else 0)

/-- hdiv_stokes_factory_impl.hpp:484-492: `cEData[E].flow[0]` after the loop; the other components are zero -/
def cflow (I : Inp K) (E : ℕ) : K :=
  if I.cdofed E then ((dofs I.nd (c2f I.emap I.nE E)).zipIdx.map fun x => I.pblk E x.2 0 * fFlow I E x.1).sum else I.cflow0 E

/-! ### the local problem of an agglomerate -/

/-- hdiv_stokes_factory_impl.hpp:518-542, `iterateFineEdges`: the edges, and whether they are interior (`kj != -1`) -/
def facets (I : Inp K) (agg : List ℕ) : List (ℕ × Bool) :=
  agg.flatMap fun vk => (I.con vk).filterMap fun x =>
    if I.vmap x.1 = I.vmap vk then (if vk < x.1 then some (x.2, agg.contains x.1) else none) else some (x.2, false)

/-- hdiv_stokes_factory_impl.hpp:716-732: `fENRsI`, sorted -/
def edgesI (I : Inp K) (agg : List ℕ) : List ℕ := (((facets I agg).filter fun x => x.2).map Prod.fst).insertionSort (· ≤ ·)

/-- hdiv_stokes_factory_impl.hpp:717-733: `fENRsF`, sorted -/
def edgesF (I : Inp K) (agg : List ℕ) : List ℕ := (((facets I agg).filter fun x => !x.2).map Prod.fst).insertionSort (· ≤ ·)

/-- hdiv_stokes_factory_impl.hpp:787-792: `cENRs`, sorted -/
def edgesC (I : Inp K) (C : ℕ) : List ℕ := ((I.ccon C).map Prod.snd).insertionSort (· ≤ ·)

/-- hdiv_stokes_factory_impl.hpp:594-635: what the loop over the row of `fSPM` writes for column `y`; the last entry counts -/
def entryA (I : Inp K) (x y : Dof) : K := (I.mat x).foldl (fun a z => if z.1 = y then z.2 else a) 0

/-- hdiv_stokes_factory_impl.hpp:852-874: entry of `B_I` for the vertex at position `r`; first written for the first vertex of the edge -/
def matBI (I : Inp K) (agg : List ℕ) (r : ℕ) (x : Dof) : K :=
  if r = agg.idxOf (I.edge x.1).2 then (if x.2 = 0 then -I.flow x.1 else 0)
  else if r = agg.idxOf (I.edge x.1).1 then (if x.2 = 0 then I.flow x.1 else 0)
  else 0

/-- hdiv_stokes_factory_impl.hpp:876-901: entry of `B_F` -/
def matBF (I : Inp K) (agg : List ℕ) (r : ℕ) (x : Dof) : K :=
  if agg.contains (I.edge x.1).1 then (if r = agg.idxOf (I.edge x.1).1 then (if x.2 = 0 then I.flow x.1 else 0) else 0)
  else if r = agg.idxOf (I.edge x.1).2 then (if x.2 = 0 then -I.flow x.1 else 0) else 0

/-- hdiv_stokes_factory_impl.hpp:924-946: `BcRow` -/
def bcRow (I : Inp K) (C : ℕ) (x : Dof) : K :=
  1 / I.cvol C * (if (I.cedge x.1).1 = C then 1 else -1) * (if x.2 = 0 then cflow I x.1 else 0)

/-- unknowns: degrees of freedom inside, pressures, and the multiplier for the constant pressure -/
abbrev Unk (I : Inp K) (agg : List ℕ) : Type := Fin (dofs I.nd (edgesI I agg)).length ⊕ (Fin agg.length ⊕ Unit)

/-- coarse degrees of freedom around the agglomerate -/
abbrev Crs (I : Inp K) (C : ℕ) : Type := Fin (dofs I.cnd (edgesC I C)).length

/-- hdiv_stokes_factory_impl.hpp:814-922: `M_II` -/
def matM (I : Inp K) (agg : List ℕ) : Matrix (Unk I agg) (Unk I agg) K := fun p q =>
  match p, q with
  | .inl i, .inl j => entryA I (dofs I.nd (edgesI I agg))[i] (dofs I.nd (edgesI I agg))[j]
  | .inl i, .inr (.inl r) => matBI I agg r (dofs I.nd (edgesI I agg))[i]
  | .inr (.inl r), .inl i => matBI I agg r (dofs I.nd (edgesI I agg))[i]
  | .inr (.inl _), .inr (.inr _) => 1
  | .inr (.inr _), .inr (.inl _) => 1
  | _, _ => 0

/-- hdiv_stokes_factory_impl.hpp:963-981: entry of `P_FC`; the last entry of the row of `P` counts -/
def matPF (P : Mat K) (x c : Dof) : K := (P x).foldl (fun a y => if y.1 = c then y.2 else a) 0

/-- hdiv_stokes_factory_impl.hpp:948-961, 1111: `M_IC - M_IF * P_FC` -/
def rhs (I : Inp K) (P : Mat K) (agg : List ℕ) (C : ℕ) : Matrix (Unk I agg) (Crs I C) K := fun p c =>
  match p with
  | .inl i => -∑ f : Fin (dofs I.nd (edgesF I agg)).length,
      entryA I (dofs I.nd (edgesI I agg))[i] (dofs I.nd (edgesF I agg))[f] * matPF P (dofs I.nd (edgesF I agg))[f] (dofs I.cnd (edgesC I C))[c]
  | .inr (.inl r) => I.vol agg[r] * bcRow I C (dofs I.cnd (edgesC I C))[c] - ∑ f : Fin (dofs I.nd (edgesF I agg)).length,
      matBF I agg r (dofs I.nd (edgesF I agg))[f] * matPF P (dofs I.nd (edgesF I agg))[f] (dofs I.cnd (edgesC I C))[c]
  | .inr (.inr _) => 0

/-- hdiv_stokes_factory_impl.hpp:1122-1123: `P_IC` -/
noncomputable def ext (I : Inp K) (P : Mat K) (agg : List ℕ) (C : ℕ) : Matrix (Unk I agg) (Crs I C) K := (matM I agg)⁻¹ * rhs I P agg C

/-- the indices of lines 859, 868, 884, 894 and 976 are in range -/
def okIdx (I : Inp K) (P : Mat K) (agg : List ℕ) (C : ℕ) : Bool :=
  ((edgesI I agg).all fun e => agg.contains (I.edge e).1 && agg.contains (I.edge e).2) &&
  ((edgesF I agg).all fun e => agg.contains (I.edge e).1 || agg.contains (I.edge e).2) &&
  ((dofs I.nd (edgesF I agg)).all fun x => (P x).all fun y => (dofs I.cnd (edgesC I C)).contains y.1)

/-- hdiv_stokes_factory_impl.hpp:1139-1161: the rows written -/
noncomputable def extRows (I : Inp K) (P : Mat K) (agg : List ℕ) (C : ℕ) : List (Dof × Row K) :=
  (List.finRange (dofs I.nd (edgesI I agg)).length).map fun k =>
    ((dofs I.nd (edgesI I agg))[k], (List.finRange (dofs I.cnd (edgesC I C)).length).map fun c => ((dofs I.cnd (edgesC I C))[c], ext I P agg C (.inl k) c))

open Classical in
/-- hdiv_stokes_factory_impl.hpp:779-1161: the extension for an agglomerate -/
noncomputable def solveAgg (I : Inp K) (P : Mat K) (agg : List ℕ) (C : ℕ) : Option (Mat K) :=
  if (agg.any fun v => decide (I.vol v < 0)) = true then none
  else if I.cvol C = 0 then none
  else if okIdx I P agg C = false then none
  else if IsUnit (matM I agg).det then (extRows I P agg C).foldlM setRow P
  else none

/-- hdiv_stokes_factory_impl.hpp:639-711: one agglomerate. Nothing is done for ghosts (line 652), single vertices (656), without exterior (703) or
interior (710) edges. -/
noncomputable def aggStep (I : Inp K) (P : Mat K) (C : ℕ) : Option (Mat K) :=
  match (I.agg C).head? with
  | none => none
  | some v0 =>
    if I.ghost v0 then some P
    else if (I.agg C).length ≤ 1 then some P
    else if edgesF I (I.agg C) = [] then some P
    else if edgesI I (I.agg C) = [] then some P
    else solveAgg I P (I.agg C) C

/-- hdiv_stokes_factory_impl.hpp:106-1161, `BuildPrimarySpaceProlongation` -/
noncomputable def prol (I : Inp K) : Option (Mat K) :=
  (alloc I).bind fun P => (I.ces.foldlM (crossStep I) P).bind fun P => I.cvs.foldlM (aggStep I) P

end NgsAMG.HProl
