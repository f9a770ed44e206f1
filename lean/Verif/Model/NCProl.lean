import Verif.Model.SparseMM
import Mathlib.Data.List.Sort
import Mathlib.Algebra.Order.Field.Basic
import Mathlib.LinearAlgebra.Matrix.NonsingularInverse

/-!
# Model: prolongation of the nonconforming Stokes space (stokes/ncfes/nc_stokes_factory_impl.hpp:31-796, stokes/ncfes/nc_stokes_mesh_impl.hpp:13-103)

One process, with its ghost vertices; the function does not communicate. `double` is a field `K` with an order. Columns `BS*k+l` of the local
matrices are pairs `(k, l)`. The energy blocks `CalcRMBlock` and the euclidean norm are parameters; `CalcQHh` of this energy is the identity
(h1_energy_impl.hpp:24-28). `find_in_sorted_array` and `Pos` are the position in the list; `QuickSortI`, `ApplyPermutation` and `Pos` of lines
347-355 together give the sorted list and positions in it. `none`: an index out of range, an exception, or inverting a singular matrix.
-/

namespace NgsAMG.NCProl
open NgsAMG.SparseMM

/-- a row of the prolongation: columns and blocks -/
abbrev Row (b : ℕ) (K : Type) := List (ℕ × Mt b b K)

/-- nc_stokes_factory_impl.hpp:70-110: what the function reads. `none` is -1. -/
structure Inp (b : ℕ) (K : Type) where
  /-- `fecon`: neighbours of a vertex, with the edge -/
  con : ℕ → List (ℕ × ℕ)
  /-- `fedges` -/
  edge : ℕ → ℕ × ℕ
  /-- `fvd[v].vol` -/
  vol : ℕ → K
  /-- `fed[e].flow` -/
  flow : ℕ → Fin b → K
  /-- `f_dof2e` -/
  d2e : List ℕ
  /-- `f_e2dof` -/
  e2d : ℕ → Option ℕ
  /-- `free_fes` -/
  free : ℕ → Bool
  /-- `fgv` -/
  ghost : ℕ → Bool
  /-- `vmap` -/
  vmap : ℕ → Option ℕ
  /-- `emap` -/
  emap : ℕ → Option ℕ
  /-- `v_aggs` -/
  aggs : List (List ℕ)
  /-- `cecon` -/
  ccon : ℕ → List (ℕ × ℕ)
  /-- `ced[e].flow` -/
  cflow : ℕ → Fin b → K
  /-- `c_e2dof` -/
  ce2d : ℕ → Option ℕ
  /-- `CalcRMBlock` for vertices `vi`, `vj`, `vk` -/
  rm : ℕ → ℕ → ℕ → Fin 2 → Fin 2 → Mt b b K
  /-- `L2Norm` -/
  norm : (Fin b → K) → K
  /-- column and value of an entry that has not been written -/
  junk : ℕ × Mt b b K

variable {K : Type} [Field K] [LinearOrder K] {b : ℕ}

/-! ### the pattern and the rows of facets between agglomerates -/

/-- nc_stokes_factory_impl.hpp:190-222: `perow` for the degree of freedom of edge `e`; `none` is the exception of line 211 -/
def perow (I : Inp b K) (e : ℕ) : Option ℕ :=
  if !I.free e then some 0
  else match I.emap e with
    | some _ => some 1
    | none =>
      if I.vmap (I.edge e).1 = I.vmap (I.edge e).2 then (I.vmap (I.edge e).1).map fun c => (I.ccon c).length
      else some 0

/-- nc_stokes_factory_impl.hpp:190-228: the matrix with rows of these sizes -/
def alloc (I : Inp b K) : Option (List (Row b K)) := I.d2e.mapM fun e => (perow I e).map fun n => List.replicate n I.junk

/-- nc_stokes_factory_impl.hpp:241-242: writes the first entry of row `d` -/
def setFirst (P : List (Row b K)) (d c : ℕ) : Option (List (Row b K)) :=
  match P[d]? with
  | some (_ :: t) => some (P.set d ((c, 1) :: t))
  | _ => none

/-- nc_stokes_factory_impl.hpp:232-244: one step -/
def facetStep (I : Inp b K) (P : List (Row b K)) (x : ℕ × ℕ) : Option (List (Row b K)) :=
  match I.emap x.1 with
  | none => some P
  | some E => match I.ce2d E with
    | none => none
    | some c => setFirst P x.2 c

/-- nc_stokes_factory_impl.hpp:230-244, "Fill facets" -/
def fillFacets (I : Inp b K) (P : List (Row b K)) : Option (List (Row b K)) := I.d2e.zipIdx.foldlM (facetStep I) P

/-! ### the local problem of an agglomerate -/

/-- nc_stokes_factory_impl.hpp:291-312, `it_f_facets`: the edges, and whether they are interior (`kj != -1`) -/
def facets (I : Inp b K) (agg : List ℕ) (cv : ℕ) : List (ℕ × Bool) :=
  agg.flatMap fun vk => (I.con vk).filterMap fun x =>
    if I.vmap x.1 = some cv then (if vk < x.1 then some (x.2, agg.contains x.1) else none) else some (x.2, false)

/-- nc_stokes_factory_impl.hpp:333-355: `ffacets`, sorted -/
def ffacets (fs : List (ℕ × Bool)) : List ℕ := (fs.map Prod.fst).insertionSort (· ≤ ·)

/-- nc_stokes_factory_impl.hpp:334-355: `ffiinds`, positions of the interior edges in `ffacets` -/
def ffiinds (fs : List (ℕ × Bool)) : List ℕ := ((fs.filter fun x => x.2).map fun x => (ffacets fs).idxOf x.1).insertionSort (· ≤ ·)

/-- nc_stokes_factory_impl.hpp:334-355: `fffinds`, positions of the others -/
def fffinds (fs : List (ℕ × Bool)) : List ℕ := ((fs.filter fun x => !x.2).map fun x => (ffacets fs).idxOf x.1).insertionSort (· ≤ ·)

/-- nc_stokes_factory_impl.hpp:384-393: the vertices with positive volume -/
def real (I : Inp b K) (agg : List ℕ) : List ℕ := agg.filter fun v => decide (0 < I.vol v)

/-- nc_stokes_factory_impl.hpp:396-397: `has_outflow` -/
def outflow (I : Inp b K) (agg : List ℕ) : Bool := agg.any fun v => decide (I.vol v < 0)

/-- nc_stokes_factory_impl.hpp:398-399: `cvol` -/
def cvol (I : Inp b K) (agg : List ℕ) : K := ((real I agg).map I.vol).sum

/-- nc_stokes_factory_impl.hpp:404: `lock_const_pressure` -/
def lockP (I : Inp b K) (agg : List ℕ) : Bool := !outflow I agg && decide (1 < (real I agg).length)

/-- nc_stokes_factory_impl.hpp:399-406: `HB` -/
def hB (I : Inp b K) (agg : List ℕ) : ℕ := (real I agg).length + if lockP I agg then 1 else 0

/-- nc_stokes_factory_impl.hpp:360-378, `it_f_edges`: `((vi, vj, vk), (fij, fik))` -/
def contribs (I : Inp b K) (agg : List ℕ) : List ((ℕ × ℕ × ℕ) × (ℕ × ℕ)) :=
  agg.flatMap fun vi => (I.con vi).zipIdx.flatMap fun k => ((I.con vi).take k.2).map fun j => ((vi, j.1, k.1.1), (j.2, k.1.2))

/-- nc_stokes_factory_impl.hpp:433-436: the position of facet `i` of a pair -/
def posOf (ff : List ℕ) (fj fk : ℕ) (i : Fin 2) : ℕ := ff.idxOf (if i = 0 then fj else fk)

/-- nc_stokes_factory_impl.hpp:421-441: what one pair adds to `A` -/
def addA (I : Inp b K) (ff : List ℕ) (c : (ℕ × ℕ × ℕ) × (ℕ × ℕ)) (p q : ℕ × Fin b) : K :=
  if I.vmap c.1.2.1 ≠ none ∧ I.vmap c.1.2.2 ≠ none then
    ∑ i, ∑ j, if p.1 = posOf ff c.2.1 c.2.2 i ∧ q.1 = posOf ff c.2.1 c.2.2 j then I.rm c.1.1 c.1.2.1 c.1.2.2 i j p.2 q.2 else 0
  else 0

/-- nc_stokes_factory_impl.hpp:413-441: `A` -/
def matA (I : Inp b K) (agg : List ℕ) (ff : List ℕ) (p q : ℕ × Fin b) : K := ((contribs I agg).map fun c => addA I ff c p q).sum

/-- nc_stokes_factory_impl.hpp:459-462: `avg_da` -/
def avgDa (I : Inp b K) (agg : List ℕ) (ff : List ℕ) : K :=
  (∑ k : Fin ff.length, ∑ l : Fin b, matA I agg ff (k, l) (k, l)) / (ff.length * b : ℕ)

/-- nc_stokes_factory_impl.hpp:313-322: `avg_flow` -/
def avgFlow (I : Inp b K) (fs : List (ℕ × Bool)) : K := (fs.map fun x => I.norm (I.flow x.1)).sum / (fs.length : ℕ)

/-- nc_stokes_factory_impl.hpp:500, 598: `avg_da / avg_flow` -/
def scal (I : Inp b K) (agg : List ℕ) (fs : List (ℕ × Bool)) : K := avgDa I agg (ffacets fs) / avgFlow I fs

/-- nc_stokes_factory_impl.hpp:488: the sign -/
def sgn (v w : ℕ) : K := if v < w then 1 else -1

/-- nc_stokes_factory_impl.hpp:468-493: the row of `Bf` for vertex `v`, before scaling -/
def bfRow (I : Inp b K) (ff : List ℕ) (v : ℕ) : ℕ × Fin b → K :=
  (I.con v).foldl (fun f x p => if p.1 = ff.idxOf x.2 then sgn v x.1 * I.flow x.2 p.2 else f p) fun _ => 0

/-- nc_stokes_factory_impl.hpp:465-501: row `r` of `Bf`; a last row for the constant pressure stays zero -/
def matB (I : Inp b K) (agg : List ℕ) (fs : List (ℕ × Bool)) (r : ℕ) (p : ℕ × Fin b) : K :=
  match (real I agg)[r]? with
  | some v => scal I agg fs * (1 / cvol I agg) * bfRow I (ffacets fs) v p
  | none => 0

/-- nc_stokes_factory_impl.hpp:504-518: `bcbase` -/
def bcBase (I : Inp b K) (agg : List ℕ) (fs : List (ℕ × Bool)) (cv : ℕ) (x : ℕ × ℕ) (l : Fin b) : K :=
  scal I agg fs * sgn cv x.1 * I.cflow x.2 l

/-- nc_stokes_factory_impl.hpp:525-527: `cvinv` -/
def cvinv (I : Inp b K) (agg : List ℕ) : K := if outflow I agg then 0 else if lockP I agg then 0 else 1 / cvol I agg

/-- nc_stokes_factory_impl.hpp:528-537: `Bc` -/
def matBc (I : Inp b K) (agg : List ℕ) (fs : List (ℕ × Bool)) (cv : ℕ) (r : ℕ) (x : ℕ × ℕ) (l : Fin b) : K :=
  match (real I agg)[r]? with
  | some v => cvinv I agg * I.vol v * bcBase I agg fs cv x l
  | none => 0

/-- nc_stokes_factory_impl.hpp:597-600: the entry of the constant pressure for row `k` -/
def lockW (I : Inp b K) (agg : List ℕ) (fs : List (ℕ × Bool)) (k : ℕ) : K :=
  scal I agg fs * (1 / cvol I agg) * I.vol (agg.getD k 0)

/-- nc_stokes_factory_impl.hpp:590-603: the lower right block of `M` -/
def matLock (I : Inp b K) (agg : List ℕ) (fs : List (ℕ × Bool)) (r r' : ℕ) : K :=
  if !lockP I agg then 0
  else if r = hB I agg - 1 ∧ r' < hB I agg - 1 then lockW I agg fs r'
  else if r < hB I agg - 1 ∧ r' = hB I agg - 1 then lockW I agg fs r
  else 0

/-- the unknowns: interior edges and pressures -/
abbrev Unk (I : Inp b K) (agg : List ℕ) (fs : List (ℕ × Bool)) : Type := (Fin (ffiinds fs).length × Fin b) ⊕ Fin (hB I agg)

/-- the coarse degrees of freedom around the agglomerate -/
abbrev Crs (I : Inp b K) (cv : ℕ) : Type := Fin (I.ccon cv).length × Fin b

/-- nc_stokes_factory_impl.hpp:541-549, 628-629: `Mii` -/
def matM (I : Inp b K) (agg : List ℕ) (fs : List (ℕ × Bool)) : Matrix (Unk I agg fs) (Unk I agg fs) K := fun p q =>
  match p, q with
  | .inl i, .inl j => matA I agg (ffacets fs) ((ffiinds fs)[i.1], i.2) ((ffiinds fs)[j.1], j.2)
  | .inl i, .inr r => matB I agg fs r ((ffiinds fs)[i.1], i.2)
  | .inr r, .inl i => matB I agg fs r ((ffiinds fs)[i.1], i.2)
  | .inr r, .inr r' => matLock I agg fs r r'

/-- `SparseMatrix::operator() const`: the entry of a row, zero if there is none -/
def entryOf (r : Row b K) (c : ℕ) : Mt b b K := ((r.find? fun x => x.1 == c).map Prod.snd).getD 0

/-- nc_stokes_factory_impl.hpp:564-569: `Pf` for the edge at position `f`; the degrees of freedom exist by `okIdx` -/
def matPf (I : Inp b K) (P : List (Row b K)) (cv : ℕ) (fs : List (ℕ × Bool)) (f : ℕ × Fin b) (c : Crs I cv) : K :=
  entryOf (P.getD ((I.e2d ((ffacets fs).getD f.1 0)).getD 0) []) ((I.ce2d ((I.ccon cv)[c.1]).2).getD 0) f.2 c.2

/-- nc_stokes_factory_impl.hpp:577-583, 602: `rhs` -/
def rhs (I : Inp b K) (P : List (Row b K)) (agg : List ℕ) (fs : List (ℕ × Bool)) (cv : ℕ) : Matrix (Unk I agg fs) (Crs I cv) K := fun p c =>
  match p with
  | .inl i => -∑ f : Fin (fffinds fs).length, ∑ m : Fin b,
      matA I agg (ffacets fs) ((ffiinds fs)[i.1], i.2) ((fffinds fs)[f], m) * matPf I P cv fs ((fffinds fs)[f], m) c
  | .inr r =>
      if lockP I agg && decide (r.val = hB I agg - 1) then scal I agg fs * (1 / cvol I agg) * cvol I agg
      else (-∑ f : Fin (fffinds fs).length, ∑ m : Fin b, matB I agg fs r ((fffinds fs)[f], m) * matPf I P cv fs ((fffinds fs)[f], m) c) +
        matBc I agg fs cv r ((I.ccon cv)[c.1]) c.2

/-- nc_stokes_factory_impl.hpp:646, 697-698: `Pext` -/
noncomputable def pext (I : Inp b K) (P : List (Row b K)) (agg : List ℕ) (fs : List (ℕ × Bool)) (cv : ℕ) : Matrix (Unk I agg fs) (Crs I cv) K :=
  (matM I agg fs)⁻¹ * rhs I P agg fs cv

/-! ### writing the rows -/

/-- nc_stokes_factory_impl.hpp:717-718: the columns before sorting -/
def cols (I : Inp b K) (cv : ℕ) : List ℕ := (I.ccon cv).map fun x => (I.ce2d x.2).getD 0

/-- nc_stokes_factory_impl.hpp:717-723: the row of an interior edge, `X j` the block for coarse edge `j` -/
def extRow (I : Inp b K) (cv : ℕ) (X : Fin (I.ccon cv).length → Mt b b K) : Row b K :=
  let ris := (cols I cv).insertionSort (· ≤ ·)
  ris.zip ((List.finRange (I.ccon cv).length).foldl (fun rvs (j : Fin (I.ccon cv).length) => rvs.set (ris.idxOf ((cols I cv).getD j.1 0)) (X j)) (ris.map fun _ => I.junk.2))

/-- nc_stokes_factory_impl.hpp:709-724: one interior edge; a row of another size than the number of coarse edges is written out of range -/
def writeRow (I : Inp b K) (cv : ℕ) (P : List (Row b K)) (e : ℕ) (X : Fin (I.ccon cv).length → Mt b b K) : Option (List (Row b K)) :=
  match I.e2d e with
  | none => none
  | some d => match P[d]? with
    | some r => if r.length = (I.ccon cv).length then some (P.set d (extRow I cv X)) else none
    | none => none

/-- all indices of the local problem are in range: edges of the vertices are among the facets (lines 369-373, 481), and facets and coarse
facets have degrees of freedom (line 568) -/
def okIdx (I : Inp b K) (P : List (Row b K)) (agg : List ℕ) (fs : List (ℕ × Bool)) (cv : ℕ) : Bool :=
  (agg.all fun v => (I.con v).all fun x => (ffacets fs).contains x.2) &&
  ((ffacets fs).all fun e => match I.e2d e with | some d => decide (d < P.length) | none => false) &&
  ((I.ccon cv).all fun x => (I.ce2d x.2).isSome)

open Classical in
/-- nc_stokes_factory_impl.hpp:324-724: the extension for one agglomerate with interior and exterior edges `fs` -/
noncomputable def solveAgg (I : Inp b K) (P : List (Row b K)) (agg : List ℕ) (fs : List (ℕ × Bool)) (cv : ℕ) : Option (List (Row b K)) :=
  if okIdx I P agg fs cv = false then none
  else if IsUnit (matM I agg fs).det then
    (List.finRange (ffiinds fs).length).foldlM (fun Q k =>
      writeRow I cv Q ((ffacets fs).getD ((ffiinds fs)[k]) 0) fun j => fun l m => pext I P agg fs cv (.inl (k, l)) (j, m)) P
  else none

/-- nc_stokes_factory_impl.hpp:256-331: one agglomerate. Nothing is done for ghosts (line 263), single vertices (267), without exterior (326) or
interior (330) edges. -/
noncomputable def aggStep (I : Inp b K) (P : List (Row b K)) (agg : List ℕ) : Option (List (Row b K)) :=
  match agg with
  | [] => some P
  | v0 :: _ =>
    if I.ghost v0 then some P
    else if agg.length ≤ 1 then some P
    else match I.vmap v0 with
      | none => none
      | some cv =>
        if ((facets I agg cv).filter fun x => !x.2).length = 0 then some P
        else if ((facets I agg cv).filter fun x => x.2).length = 0 then some P
        else solveAgg I P agg (facets I agg cv) cv

/-- nc_stokes_factory_impl.hpp:31-796, `BuildPrimarySpaceProlongation` -/
noncomputable def prol (I : Inp b K) : Option (List (Row b K)) :=
  (alloc I).bind fun P => (fillFacets I P).bind fun P => I.aggs.foldlM (aggStep I) P

/-! ### flows of the coarse edges -/

/-- nc_stokes_mesh_impl.hpp:69-77: `fac` for edge `e` mapped to the coarse edge `ce` -/
def mapFac (I : Inp b K) (e : ℕ) (ce : ℕ × ℕ) : K := if I.vmap (I.edge e).1 = some ce.1 then 1 else -1

/-- nc_stokes_mesh_impl.hpp:59-87: flow and `absflow` of the coarse edges; one process, so that every edge is visited; `QHh` is the identity -/
def sumFlow (I : Inp b K) (edges : List ℕ) (cedge : ℕ → ℕ × ℕ) : ℕ → (Fin b → K) × K :=
  edges.foldl (fun f e => match I.emap e with
    | none => f
    | some E => Function.update f E (fun l => (f E).1 l + mapFac I e (cedge E) * I.flow e l, (f E).2 + I.norm (I.flow e))) fun _ => (fun _ => 0, 0)

/-- nc_stokes_mesh_impl.hpp:97-103: small flows are set to zero -/
def mapFlow (I : Inp b K) (eps : K) (edges : List ℕ) (cedge : ℕ → ℕ × ℕ) (E : ℕ) : Fin b → K :=
  if I.norm (sumFlow I edges cedge E).1 < eps * (sumFlow I edges cedge E).2 then fun _ => 0 else (sumFlow I edges cedge E).1

/-- stokes_mesh_impl.hpp:396-409: the volume of a coarse vertex; one process -/
def mapVol (I : Inp b K) (vs : List ℕ) : ℕ → K :=
  vs.foldl (fun f v => match I.vmap v with
    | none => f
    | some cv => if 0 ≤ f cv then Function.update f cv (if 0 < I.vol v then f cv + I.vol v else I.vol v) else f) fun _ => 0

end NgsAMG.NCProl
