import Mathlib.Data.List.Sort
import Mathlib.Data.List.Dedup
import Mathlib.Algebra.Order.Field.Basic

/-!
# Model of the successive pairwise aggregation (SPW), the default coarsening algorithm

Sources: `/repo/src/base/coarsening/spw_agg_impl.hpp`, `/repo/src/base/coarsening/base_coarse.cpp`,
`/repo/src/base/coarsening/agglomerator.{hpp,cpp}`, `/repo/src/base/distributed/eqchierarchy.hpp`.

Conventions.
* A vertex map entry `-1` is `none`. Arrays are functions on `ℕ`; an array that the code does not initialize is an
  arbitrary function.
* The strength-of-connection (SOC) computations read only data that is constant during one round (`aggData`, `fAggData`,
  `currAggs`), so they are a parameter `SOC` of every round.
* `QuickSort` (NGCore, not stable) is a parameter: any function that returns a sorted permutation.
* One rank of the parallel program is modelled; the EQC hierarchy is a parameter (`Par`).
-/

namespace NgsAMG.SPW

variable {K : Type}

/-- spw_agg_impl.hpp:768-849, 878-930: the four SOC computations handed to `FindNeib3Step`; first argument: the vertex,
second: the index of the neighbour in the row of the vertex. `checkRob`/`checkBig` get the threshold first. -/
structure SOC (K : Type) where
  init : ℕ → ℕ → K
  rob : ℕ → ℕ → K
  checkRob : K → ℕ → ℕ → Bool
  checkBig : K → ℕ → ℕ → Bool

/-- spw_agg.hpp (`SPWConfig`), set in spw_agg_impl.hpp:1372-1406 -/
structure Cfg (K : Type) where
  numRounds : ℕ
  orphanRound : Bool
  robustPick : Bool
  checkBigSOC : Bool
  scalRelThresh : K
  absRobThresh : K
  absBigThresh : K

section find
variable [Field K] [LinearOrder K]

/-- spw_agg_impl.hpp:669-685: the maximum over all neighbours (also forbidden ones), at least `0` -/
def maxScal (soc : SOC K) (v : ℕ) (deg : ℕ) : K := (List.range deg).foldl (fun m j => max m (soc.init v j)) 0

/-- spw_agg_impl.hpp:669-711: the weights after the scalar and (optional) robust filter -/
def weights (soc : SOC K) (cfg : Cfg K) (allowed : ℕ → Bool) (v : ℕ) (neibs : List ℕ) (j : ℕ) : K :=
  let w1 := if allowed (neibs.getD j 0) then soc.init v j else -1
  if cfg.robustPick then
    if cfg.scalRelThresh * maxScal soc v neibs.length ≤ w1 then soc.rob v j else -1
  else w1

/-- spw_agg_impl.hpp:728-772: take the first viable neighbour in the order of the sorted weights -/
def pick (soc : SOC K) (robustPick doBig : Bool) (robWt bigWt wThresh : K) (w : ℕ → K) (v : ℕ) (neibs : List ℕ) :
    List ℕ → Option ℕ
  | [] => none
  | idx :: rest =>
    if w idx < wThresh then none
    else
      let v1 := robustPick || soc.checkRob robWt v idx
      let v2 := v1 && (!doBig || soc.checkBig bigWt v idx)
      if v2 then some (neibs.getD idx 0) else pick soc robustPick doBig robWt bigWt wThresh w v neibs rest

/-- spw_agg_impl.hpp:632-776, `FindNeib3Step`. `srt w l`: `QuickSortI` by descending weight. -/
def findNeib3Step (soc : SOC K) (cfg : Cfg K) (doBig : Bool) (srt : (ℕ → K) → List ℕ → List ℕ) (allowed : ℕ → Bool)
    (v : ℕ) (neibs : List ℕ) : Option ℕ :=
  let w := weights soc cfg allowed v neibs
  let scalWt := cfg.scalRelThresh * maxScal soc v neibs.length
  let robWt := min scalWt cfg.absRobThresh
  let bigWt := min robWt cfg.absBigThresh
  let wThresh := if cfg.robustPick then robWt else scalWt
  pick soc cfg.robustPick doBig robWt bigWt wThresh w v neibs (srt w (List.range neibs.length))

end find

/-- eqchierarchy.hpp:59-112: what the algorithm asks the EQC hierarchy; `solid`: the optional solid-vertex marks
(agglomerator.hpp, `GetSolidVerts`) -/
structure Par where
  trulyParallel : Bool
  leq : ℕ → ℕ → Bool
  isMaster : ℕ → Bool
  solid : Option (ℕ → Bool)

/-- the arrays written by one pairing/joining round: vertex map, handled marks, number of coarse vertices -/
structure PSt where
  vmap : ℕ → Option ℕ
  handled : ℕ → Bool
  cnt : ℕ

/-- spw_agg_impl.hpp:1000-1002, 1007-1011: call `lam` unless the vertex has been handled in the meantime -/
def visit (lam : PSt → ℕ → PSt) (s : PSt) (v : ℕ) : PSt := if s.handled v then s else lam s v

/-- spw_agg_impl.hpp:936-1014: the body of `IterateVertsRev` for one vertex. `srtDeg`: `QuickSort` of the neighbours of
lower degree by degree. -/
def visitLD (prefer : Bool) (adj : ℕ → List ℕ) (srtDeg : List ℕ → List ℕ) (lam : PSt → ℕ → PSt) (s : PSt) (v : ℕ) : PSt :=
  if s.handled v then s
  else
    let s1 := if prefer then
        (srtDeg ((adj v).filter fun w => !s.handled w && decide ((adj w).length < (adj v).length))).foldl (visit lam) s
      else s
    visit lam s1 v

/-- spw_agg_impl.hpp:936-1014, `IterateVertsRev` over the vertices `verts` in reverse order.
`IterateVertsReverseParOrder` (1017-1049) runs it EQC by EQC from the last to the first; as `BlockTM` numbers vertices by
EQC this is the reverse order of all vertices, as in `IterateVertsSimpleReverse` (1052-1066). -/
def iterateRev (prefer : Bool) (adj : ℕ → List ℕ) (srtDeg : List ℕ → List ℕ) (lam : PSt → ℕ → PSt) (n : ℕ) (s : PSt) :
    PSt :=
  (List.range n).reverse.foldl (visitLD prefer adj srtDeg lam) s

/-- spw_agg_impl.hpp:1148-1253: which neighbours may be matched with `v` (three variants: parallel with solid vertices,
parallel, serial) -/
def allowedPair (par : Par) (v2eq : ℕ → ℕ) (s : PSt) (v neib : ℕ) : Bool :=
  if par.trulyParallel then
    match par.solid with
    | some solid =>
      !s.handled neib && solid neib &&
        (decide (v2eq v = 0) || decide (v2eq neib = 0) || par.leq (v2eq v) (v2eq neib) || par.leq (v2eq neib) (v2eq v))
    | none =>
      if s.handled neib then false
      else if v2eq neib = 0 then true
      else if v2eq v = 0 then par.isMaster (v2eq neib)
      else par.isMaster (v2eq neib) && (par.leq (v2eq v) (v2eq neib) || par.leq (v2eq neib) (v2eq v))
  else !s.handled neib

section rounds
variable [Field K] [LinearOrder K]

/-- the data of a round: graph, EQCs of the vertices, SOC computations, sort algorithms -/
structure Round (K : Type) where
  n : ℕ
  adj : ℕ → List ℕ
  v2eq : ℕ → ℕ
  soc : SOC K
  srt : (ℕ → K) → List ℕ → List ℕ
  srtDeg : List ℕ → List ℕ

/-- spw_agg_impl.hpp:1094-1120, `createPair` -/
def createPair (par : Par) (cfg : Cfg K) (doBig : Bool) (R : Round K) (s : PSt) (v : ℕ) : PSt :=
  match findNeib3Step R.soc cfg doBig R.srt (allowedPair par R.v2eq s v) v (R.adj v) with
  | some nb =>
    ⟨Function.update (Function.update s.vmap nb (some s.cnt)) v (some s.cnt),
      Function.update (Function.update s.handled nb true) v true, s.cnt + 1⟩
  | none => ⟨Function.update s.vmap v (some s.cnt), Function.update s.handled v true, s.cnt + 1⟩

/-- spw_agg_impl.hpp:1069-1263, `PairingIteration`. `first`: round 0 (`BlockTM` mesh: prefer low degrees; no aggregate-wide
check, 813-838), otherwise simple reverse order and, if switched on, the aggregate-wide check. -/
def pairing (first : Bool) (par : Par) (cfg : Cfg K) (R : Round K) (vmap0 : ℕ → Option ℕ) (handled0 : ℕ → Bool) : PSt :=
  iterateRev first R.adj R.srtDeg (createPair par cfg (cfg.checkBigSOC && !first) R) R.n ⟨vmap0, handled0, 0⟩

/-- spw_agg_impl.hpp:1284-1290: number the real aggregates -/
def numberAggs (isAgg : ℕ → Bool) (n : ℕ) (vmap0 : ℕ → Option ℕ) : (ℕ → Option ℕ) × ℕ :=
  (List.range n).foldl (fun p k => if isAgg k then (Function.update p.1 k (some p.2), p.2 + 1) else p) (vmap0, 0)

/-- spw_agg_impl.hpp:1325-1351: which neighbours an orphan may join -/
def allowedJoin (par : Par) (v2eq : ℕ → ℕ) (isJoinable : ℕ → Bool) (v neib : ℕ) : Bool :=
  if par.trulyParallel then
    isJoinable neib && (par.isMaster (v2eq neib) &&
      (par.leq (v2eq v) (v2eq neib) || par.leq (v2eq neib) (v2eq v)))
  else isJoinable neib

/-- spw_agg_impl.hpp:1292-1323: treatment of one orphan -/
def joinOne (par : Par) (cfg : Cfg K) (R : Round K) (isJoinable : ℕ → Bool) (s : PSt) (v : ℕ) : PSt :=
  match findNeib3Step R.soc cfg false R.srt (allowedJoin par R.v2eq isJoinable v) v (R.adj v) with
  | some a => ⟨Function.update s.vmap v (s.vmap a), Function.update s.handled v true, s.cnt⟩
  | none => ⟨Function.update s.vmap v (some s.cnt), Function.update s.handled v true, s.cnt + 1⟩

/-- spw_agg_impl.hpp:1266-1355, `JoiningIteration` -/
def joining (par : Par) (cfg : Cfg K) (R : Round K) (vmap0 : ℕ → Option ℕ) (isAgg : ℕ → Bool) : PSt :=
  let p := numberAggs isAgg R.n vmap0
  iterateRev false R.adj R.srtDeg (joinOne par cfg R isAgg) R.n ⟨p.1, isAgg, p.2⟩

end rounds

/-! ### the maps between the levels -/

/-- the parts of a `LocCoarseMap` (spw_agg_impl.hpp:26-378) the vertex aggregation uses: sizes, vertex map, reverse vertex
table (`rev_node_maps`, empty if not set up), connectivity of the mapped mesh, EQC of the coarse vertices -/
structure LMap where
  nf : ℕ
  nc : ℕ
  vmap : ℕ → Option ℕ
  rev : List (List ℕ)
  cadj : ℕ → List ℕ
  cEq : ℕ → ℕ

/-- base_coarse.cpp:16-30, the table built by `GetMapC2F` (entries out of range would be written out of bounds by the code;
`pairing_spec` shows there are none) -/
def c2fTable (nf nc : ℕ) (vmap : ℕ → Option ℕ) : List (List ℕ) :=
  (List.range nc).map fun c => (List.range nf).filter fun k => vmap k = some c

/-- base_coarse.cpp:16-30, `GetMapC2F`: the table is set up only if its size does not fit -/
def LMap.c2f (m : LMap) : List (List ℕ) := if m.rev.length ≠ m.nc then c2fTable m.nf m.nc m.vmap else m.rev

/-- spw_agg_impl.hpp:101-161, `itCoarseGraph`: the coarse neighbours with a larger number. A coarse vertex with ONE fine
vertex lists the coarse number of every fine neighbour (sorted, not made unique), otherwise a `std::set` is used. -/
def coarseCols (fadj : ℕ → List ℕ) (vmap : ℕ → Option ℕ) (c : ℕ) (fverts : List ℕ) : List ℕ :=
  let cand := fun v => (fadj v).filterMap fun w => (vmap w).filter fun cJ => decide (c < cJ)
  if fverts.length = 1 then (cand (fverts.headD 0)).insertionSort (· ≤ ·)
  else ((fverts.flatMap cand).dedup).insertionSort (· ≤ ·)

/-- spw_agg_impl.hpp:163-214: the coarse edges, numbered in this order -/
def coarseEdges (fadj : ℕ → List ℕ) (vmap : ℕ → Option ℕ) (c2f : List (List ℕ)) : List (ℕ × ℕ) :=
  (List.range c2f.length).flatMap fun c => (coarseCols fadj vmap c (c2f.getD c [])).map fun d => (c, d)

/-- spw_agg_impl.hpp:186-214: row `u` of the coarse edge connectivity: (neighbour, edge number) in the order of insertion -/
def econRow (edges : List (ℕ × ℕ)) (u : ℕ) : List (ℕ × ℕ) :=
  edges.zipIdx.filterMap fun e => if e.1.1 = u then some (e.1.2, e.2) else if e.1.2 = u then some (e.1.1, e.2) else none

/-- spw_agg_impl.hpp:219-236: the edge map. `pos row col`: the edge number NGSolve's `SparseMatrix::operator()` returns for
column `col` of a row (external, any entry of that column; `0` if there is none). -/
def edgeMap (pos : List (ℕ × ℕ) → ℕ → ℕ) (edges : List (ℕ × ℕ)) (vmap : ℕ → Option ℕ) (fe : ℕ × ℕ) : Option ℕ :=
  match vmap fe.1, vmap fe.2 with
  | some c0, some c1 => if c0 ≠ c1 then some (pos (econRow edges c0) c1) else none
  | _, _ => none

/-- spw_agg_impl.hpp:70-95: EQC of the coarse vertices of the first map (vertices of EQC 0 are skipped) -/
def firstEq (leq : ℕ → ℕ → Bool) (eqc : ℕ → ℕ) (nf : ℕ) (vmap : ℕ → Option ℕ) (c : ℕ) : ℕ :=
  ((List.range nf).filter fun v => eqc v ≠ 0 ∧ vmap v = some c).foldl
    (fun cur v => if cur = 0 then eqc v else if leq (eqc v) cur then cur else eqc v) 0

/-- spw_agg_impl.hpp:52-245, `FinishUp`: sets up the reverse table, the coarse connectivity and (for the first map:
`base = some eqc`) the EQC of the coarse vertices -/
def LMap.finishUp (leq : ℕ → ℕ → Bool) (fadj : ℕ → List ℕ) (base : Option (ℕ → ℕ)) (m : LMap) : LMap :=
  let t := m.c2f
  let edges := coarseEdges fadj m.vmap t
  let eq' := match base with | some eqc => firstEq leq eqc m.nf m.vmap | none => m.cEq
  { m with rev := t, cadj := fun u => (econRow edges u).map Prod.fst, cEq := eq' }

/-- base_coarse.cpp:63-83, `SetConcedMap`, for the vertices -/
def concVMap (l r : ℕ → Option ℕ) (v : ℕ) : Option ℕ := (l v).bind r

/-- spw_agg_impl.hpp:274-293: EQC of a concatenated aggregate -/
def concEq (leq : ℕ → ℕ → Bool) (cEq : ℕ → ℕ) (agg : List ℕ) : ℕ :=
  (agg.drop 1).foldl (fun cur v => if leq cur (cEq v) then cEq v else cur) (cEq (agg.headD 0))

/-- spw_agg_impl.hpp:247-305, `ConcatenateProper` -/
def LMap.concProper (leq : ℕ → ℕ → Bool) (l r : LMap) : LMap :=
  let a1 := l.c2f
  let a2 := r.c2f
  ⟨l.nf, r.nc, concVMap l.vmap r.vmap, a2.map fun row => row.flatMap fun v => a1.getD v [], r.cadj,
    fun c => concEq leq l.cEq (a2.getD c [])⟩

/-- spw_agg_impl.hpp:307-373, `ConcatenateVMap` (uses the reverse table as it is) -/
def LMap.concVM (l : LMap) (ncv : ℕ) (rvmap : ℕ → Option ℕ) : LMap :=
  { l with
    nc := ncv
    vmap := concVMap l.vmap rvmap
    rev := (List.range ncv).map fun c => ((List.range l.rev.length).filter fun k => rvmap k = some c).flatMap
      fun k => l.rev.getD k [] }

/-! ### the whole algorithm -/

/-- agglomerator.hpp (`Agglomerate`): center and members -/
structure Agg where
  ctr : ℕ
  mems : List ℕ
deriving DecidableEq

/-- the input of the algorithm: the mesh (with the EQCs of its vertices), free vertices, fixed aggregates, the marks of
vertices with dominating L2 weight (computed only if `vert_thresh > 0`, spw_agg_impl.hpp:1541-1586). `allowedEdges`: the edges
that are not locked (agglomerator.hpp:94-117); the algorithm stores them (spw_agg_impl.hpp:1489), maps them to the coarse levels
(247-256, 322-323) and never reads them in a decision. -/
structure Input where
  n : ℕ
  adj : ℕ → List ℕ
  eqc : ℕ → ℕ
  par : Par
  free : ℕ → Bool
  fixed : List (List ℕ)
  l2dominant : ℕ → Bool
  allowedEdges : Option (ℕ × ℕ → Bool) := none

/-- spw_agg_impl.hpp:1488-1605: the vertices that are taken out before round 0 -/
def handled0 (I : Input) (v : ℕ) : Bool :=
  !I.free v ||
  (I.par.trulyParallel && (match I.par.solid with
    | some solid => decide (I.eqc v ≠ 0) && !solid v
    | none => !I.par.isMaster (I.eqc v))) ||
  I.fixed.any (fun agg => agg.contains v) ||
  I.l2dominant v ||
  (decide (I.eqc v = 0) && (I.adj v).isEmpty)

/-- spw_agg_impl.hpp:1753-1784, `set_agg`: choice of the center (`none`: `vs[0]` of an empty array) -/
def setAgg (leq : ℕ → ℕ → Bool) (eqc : ℕ → ℕ) : List ℕ → Option Agg
  | [] => none
  | v0 :: vs =>
    let ctr := (v0 :: vs).foldl (fun (c : ℕ) (v : ℕ) =>
      if eqc v ≠ 0 ∧ eqc c ≠ eqc v ∧ leq (eqc c) (eqc v) = true then v else c) v0
    some ⟨ctr, v0 :: vs⟩

/-- spw_agg_impl.hpp:1768: `v_to_agg`, written by the calls of `set_agg` one after the other (later calls overwrite) -/
def vToAgg (aggs : List Agg) (v : ℕ) : Option ℕ :=
  aggs.zipIdx.foldl (fun cur a => if a.1.mems.contains v then some a.2 else cur) none

/-- everything the rounds `1, 2, ..` do not determine themselves: SOC computations, sort algorithms, initial contents of
the vertex map -/
structure Oracle (K : Type) where
  soc : ℕ → SOC K
  srt : ℕ → (ℕ → K) → List ℕ → List ℕ
  srtDeg : ℕ → List ℕ → List ℕ
  garbage : ℕ → ℕ → Option ℕ
  srtFin : List ℕ → List ℕ

section form
variable [Field K] [LinearOrder K]

/-- spw_agg_impl.hpp:1479-1628: round 0 -/
def round0 (I : Input) (cfg : Cfg K) (O : Oracle K) : LMap :=
  let s := pairing true I.par cfg ⟨I.n, I.adj, I.eqc, O.soc 0, O.srt 0, O.srtDeg 0⟩ (fun _ => none) (handled0 I)
  ⟨I.n, s.cnt, s.vmap, [], fun _ => [], fun _ => 0⟩

/-- spw_agg_impl.hpp:1641-1738: the loop over the further rounds. `conc`: map to the current level (finished up),
`todo`: number of remaining rounds; `round`: number of this round. -/
def laterRounds (I : Input) (cfg : Cfg K) (O : Oracle K) (total : ℕ) : ℕ → ℕ → LMap → LMap
  | 0, _, conc => conc
  | todo + 1, round, conc =>
    let R : Round K := ⟨conc.nc, conc.cadj, conc.cEq, O.soc round, O.srt round, O.srtDeg round⟩
    if round < cfg.numRounds then
      let s := pairing false I.par cfg R (O.garbage round) (fun _ => false)
      if round + 1 = total then
        laterRounds I cfg O total todo (round + 1) (conc.concVM s.cnt s.vmap)
      else
        let loc : LMap := ⟨conc.nc, s.cnt, s.vmap, [], fun _ => [], fun _ => 0⟩
        let conc' := conc.concProper I.par.leq (loc.finishUp I.par.leq conc.cadj none)
        laterRounds I cfg O total todo (round + 1) conc'
    else
      let isAgg := fun c => decide (1 < (conc.c2f.getD c []).length)
      if (List.range conc.nc).all isAgg then laterRounds I cfg O total todo (round + 1) conc
      else
        let s := joining I.par cfg R (O.garbage round) isAgg
        if s.cnt < conc.nc then laterRounds I cfg O total todo (round + 1) (conc.concVM s.cnt s.vmap)
        else laterRounds I cfg O total todo (round + 1) conc

/-- spw_agg_impl.hpp:1470-1738: all rounds, giving the vertex map from the mesh to the aggregates -/
def allRounds (I : Input) (cfg : Cfg K) (O : Oracle K) : LMap :=
  let total := cfg.numRounds + (if cfg.orphanRound then 1 else 0)
  let m0 := round0 I cfg O
  let m1 := if 1 < cfg.numRounds ∨ cfg.orphanRound = true then m0.finishUp I.par.leq I.adj (some I.eqc) else m0
  laterRounds I cfg O total (total - 1) 1 m1

/-- spw_agg_impl.hpp:1430-1817, `FormAgglomerates_impl`: the aggregates; the entries of `v_to_agg` follow by `vToAgg` -/
def formAgglomerates (I : Input) (cfg : Cfg K) (O : Oracle K) : Option (List Agg) :=
  let m := allRounds I cfg O
  (m.c2f.map O.srtFin ++ I.fixed).mapM (setAgg I.par.leq I.eqc)

end form

end NgsAMG.SPW
