import Verif.Model.CoarseMap
import Mathlib.Data.List.Sort
import Mathlib.Logic.Function.Basic

/-!
# Model of `MISAgglomerator::FormAgglomerates`

Source: `/repo/src/base/coarsening/mis_agg_impl.hpp:87-857`, `agglomerator.hpp:43-68`.

The strength of a connection (`CalcSOC`, 332-405) is a floating point number that depends on everything; the model only has the outcome of the tests `soc > MIN_ECW`: the test number `k` of a run has the outcome
`soc k`, an arbitrary sequence. In the same way the order by the traces of the edge matrices and the choice of the most desirable neighbour are arbitrary (`ord`, `pick`). All that follows holds for every
outcome. Arrays indexed by vertices are functions (all vertices that occur are vertices of the mesh). `iterate_intersection` and `iterate_anotb` of sorted arrays are membership tests (C02),
`insert_into_sorted_array` is insertion (C01).
-/

namespace NgsAMG.MIS
open NgsAMG.CMap

/-- the input of one process, and the outcomes of floating point computations -/
structure Env where
  nv : ℕ
  /-- neighbours of a vertex: `econ.GetRowIndices(v)` -/
  nb : ℕ → List ℕ
  /-- `GetEQCOfNode<NT_VERTEX>` -/
  eq : ℕ → ℕ
  /-- `IsLEQ` -/
  leq : ℕ → ℕ → Bool
  /-- `IsMasterOfEQC` -/
  master : ℕ → Bool
  /-- `GetSolidVerts()` -/
  solid : Option (ℕ → Bool)
  /-- `GetFreeVerts()` (null pointer: all) -/
  free : ℕ → Bool
  /-- `GetFixedAggs()` -/
  fixed : List (List ℕ)
  dist2 : Bool
  /-- the vertices class by class, `ApplyEQ` -/
  verts : List ℕ
  soc : ℕ → Bool
  /-- `QuickSortI(ntraces, ...)`, mis_agg_impl.hpp:496-500, in run number `k` -/
  ord : ℕ → List ℕ → List ℕ
  /-- `QuickSort(qsis, ...)` by `neib_ecnt`, mis_agg_impl.hpp:547, 568 -/
  srt : (ℕ → ℤ) → List ℕ → List ℕ
  /-- `ind_of_max(na_soc)`, mis_agg_impl.hpp:809 -/
  pick : ℕ → ℕ → ℕ

/-- `agglomerates`, `v_to_agg`, `dist2agg`, `marked`, and the number of tests so far -/
structure St where
  aggs : List Agg
  v2a : ℕ → Option ℕ
  dist : ℕ → ℤ
  marked : ℕ → Bool
  k : ℕ

variable (E : Env)

/-- `is_mine`, mis_agg_impl.hpp:169-173 -/
def mine (v : ℕ) : Bool := match E.solid with
  | some s => s v
  | none => E.master (E.eq v)

/-- the marks at the beginning: fixed agglomerates, vertices of others, Dirichlet vertices, mis_agg_impl.hpp:184-206, 627-636 -/
def marked0 (v : ℕ) : Bool :=
  E.fixed.any (fun f => f.contains v) || (match E.solid with
    | some s => decide (0 < E.eq v) && !s v
    | none => !E.master (E.eq v)) || !E.free v

/-- mis_agg_impl.hpp:157-160 -/
def st0 : St := ⟨[], fun _ => none, fun _ => -1, marked0 E, 0⟩

/-- `marked.SetBit(v); v_to_agg[v] = a; dist2agg[v] = d; add_v_to_agg(agg, v)` in the orders of mis_agg_impl.hpp:508-511, 559-562, 762-765, 780-783, 811-818; 420-462 -/
def addTo (s : St) (a v : ℕ) (d : ℤ) : St :=
  { s with
    aggs := s.aggs.modify a fun g => { g with mems := g.mems.orderedInsert (· ≤ ·) v }
    v2a := Function.update s.v2a v (some a)
    dist := Function.update s.dist v d
    marked := Function.update s.marked v true }

/-- a new agglomerate with one vertex, mis_agg_impl.hpp:467-472 -/
def start (s : St) (v : ℕ) : St :=
  { s with
    aggs := s.aggs ++ [⟨v, [v]⟩]
    v2a := Function.update s.v2a v (some s.aggs.length)
    dist := Function.update s.dist v 0
    marked := Function.update s.marked v true }

/-- `may_check_neib`, mis_agg_impl.hpp:477-478 -/
def mayCheck (s : St) (veq n : ℕ) : Bool := !s.marked n && E.leq (E.eq n) veq

/-- the next test `soc > MIN_ECW` -/
def tested (s : St) : St := { s with k := s.k + 1 }

/-- the first neighbour that can be added, mis_agg_impl.hpp:491-515 -/
def firstNeib (a veq : ℕ) : List ℕ → St → St × Option ℕ
  | [], s => (s, none)
  | n :: l, s =>
    if mayCheck E s veq n then
      if E.soc s.k then (addTo (tested s) a n 1, some n) else firstNeib a veq l (tested s)
    else firstNeib a veq l s

/-- the greedy loop, mis_agg_impl.hpp:550-570; `q`: the part of `qsis` that is left, `ec`: `neib_ecnt` -/
def greedy (a v : ℕ) : ℕ → List ℕ → (ℕ → ℤ) → St → St
  | 0, _, _, s => s
  | f + 1, q, ec, s =>
    match q.getLast? with
    | none => s
    | some n =>
      let q' := q.dropLast
      let ec := Function.update ec n (-1)
      if E.soc s.k then
        let ec' := fun j => if j ∈ E.nb v ∧ j ∈ E.nb n ∧ ec j ≠ -1 then ec j + 1 else ec j
        greedy a v f (E.srt ec' q') ec' (addTo (tested s) a n 1)
      else greedy a v f q' ec (tested s)

/-- `neib_ecnt` before the neighbours that are not adjacent to the first member are locked out, mis_agg_impl.hpp:523-538 -/
def ecnt (s : St) (v veq n1 j : ℕ) : ℤ :=
  if mayCheck E s veq j then (if j ∈ E.nb n1 ∧ j ∈ E.nb v then 2 else 1) else -1

/-- the neighbours that are locked out, mis_agg_impl.hpp:539-549 -/
def lockout (s : St) (v veq n1 : ℕ) : List ℕ :=
  if E.dist2 then [] else (E.nb v).filter fun j => decide (j ∉ E.nb n1) && decide (ecnt E s v veq n1 j ≠ -1)

/-- the members after the first one, mis_agg_impl.hpp:516-571 -/
def fill (a v veq n1 : ℕ) (s : St) : St :=
  let q := (E.nb v).filter fun n => mayCheck E s veq n
  let out := lockout E s v veq n1
  let ec : ℕ → ℤ := fun j => if j ∈ out then -1 else ecnt E s v veq n1 j
  greedy E a v (q.length - out.length) ((E.srt ec q).drop out.length) ec s

/-- a new agglomerate around `v`, mis_agg_impl.hpp:465-571 -/
def grow (s : St) (v veq : ℕ) : St :=
  let r := firstNeib E s.aggs.length veq (E.ord s.k (E.nb v)) (start s v)
  match r.2 with
    | none => r.1
    | some n1 => fill E s.aggs.length v veq n1 r.1

/-- `init_agglomerate`, mis_agg_impl.hpp:465-592 -/
def initAgg (s : St) (v veq : ℕ) (force : Bool) : St × Bool :=
  let a := s.aggs.length
  let s2 := grow E s v veq
  let mems := (s2.aggs[a]?).elim [] Agg.mems
  if force || decide (2 ≤ mems.length) then (s2, true)
  else
    ({ s2 with
      aggs := s2.aggs.take a
      v2a := fun w => if w ∈ mems then none else s2.v2a w
      dist := fun w => if w ∈ mems then -1 else s2.dist w
      marked := fun w => if w ∈ mems then false else s2.marked w }, false)

/-- `check_v`, mis_agg_impl.hpp:596-610 -/
def checkV (s : St) (v : ℕ) : St :=
  if s.marked v then s
  else if (E.nb v).any fun n => s.marked n && E.leq (E.eq v) (E.eq n) && (s.v2a n).isSome then s
  else (initAgg E s v (E.eq v) false).1

/-- the first loop: vertices by ascending number of edges, mis_agg_impl.hpp:706-719 -/
def order : List ℕ :=
  (List.range (1 + (List.range E.nv).foldl (fun m v => max m (E.nb v).length) 0)).flatMap fun d => (List.range E.nv).reverse.filter fun v => (E.nb v).length = d

/-- the largest distance of a neighbour, mis_agg_impl.hpp:791 -/
def maxDist : ℤ := if E.dist2 then 2 else 1

/-- the agglomerates a vertex could be added to, mis_agg_impl.hpp:792-829 -/
def neibAggs (v : ℕ) : List ℕ → St × List ℕ × List ℕ → St × List ℕ × List ℕ
  | [], r => r
  | n :: l, (s, take, no) =>
    neibAggs v l
      (match s.v2a n with
        | some a =>
          if s.marked n && decide (s.dist n ≤ maxDist E) && E.leq (E.eq v) (E.eq ((s.aggs[a]?).elim 0 Agg.center)) && !no.contains a && !take.contains a then
            if E.soc s.k then (tested s, take ++ [a], no) else (tested s, take, no ++ [a])
          else (s, take, no)
        | none => (s, take, no))

/-- the body of the second loop, mis_agg_impl.hpp:744-841 (`none`: `ind_of_max` of the model is out of range) -/
def finishV (s : St) (v : ℕ) : Option St :=
  if s.marked v then some s
  else if E.solid.isSome && !mine E v then some s
  else match E.nb v with
    | [N] =>
      match s.v2a N with
      | some a =>
        if E.leq (E.eq v) (E.eq N) then
          if E.soc s.k then some (addTo (tested s) a v (1 + s.dist N)) else some (initAgg E (tested s) v (E.eq v) true).1
        else some (initAgg E s v (E.eq v) true).1
      | none =>
        if mine E N && E.leq (E.eq v) (E.eq N) then
          let s1 := (initAgg E s N (E.eq N) true).1
          if s1.marked v then some s1 else (s1.v2a N).map fun a => addTo s1 a v 1
        else some (initAgg E s v (E.eq v) true).1
    | nbs =>
      let r := neibAggs E v nbs (s, [], [])
      if r.2.1.isEmpty then some (initAgg E r.1 v (E.eq v) true).1
      else (r.2.1[E.pick r.1.k r.2.1.length]?).map fun a =>
        let mems := ((r.1.aggs[a]?).elim [] Agg.mems)
        let md := (mems.filter fun w => w ∈ nbs).foldl (fun m w => min m (r.1.dist w)) 1000
        addTo r.1 a v (1 + md)

/-- the fixed agglomerates, mis_agg_impl.hpp:847-862 (`none`: `fagg[0]` of an empty row) -/
def addFixed (s : St) (f : List ℕ) : Option St :=
  f.head?.map fun c =>
    { s with
      aggs := s.aggs ++ [⟨c, f.tail.foldl (fun m v => m.orderedInsert (· ≤ ·) v) [c]⟩]
      v2a := fun v => if v ∈ f then some s.aggs.length else s.v2a v }

/-- `FormAgglomerates_impl`, mis_agg_impl.hpp:87-857 -/
def form : Option St :=
  ((E.verts.filter fun v => E.solid.isSome || E.master (E.eq v)).foldlM (finishV E) ((order E).foldl (checkV E) (st0 E))).bind fun s => E.fixed.foldlM addFixed s

end NgsAMG.MIS
