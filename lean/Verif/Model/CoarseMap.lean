import Verif.Model.BTM

/-!
# Model of the map from a distributed mesh to the mesh of its agglomerates: vertices

Source: `/repo/src/base/coarsening/agglomerate_map.cpp:105-283` (`BaseAgglomerateCoarseMap::MapVerts`).

Conventions: `none` in an array is the code's `-1`; `none` of a function is an access out of range. The context `Ctx` (`Verif.Model.BTM`) has the
classes, identifiers and offsets of the fine vertices. The counters `exrow[1]`, `exrow[2]` (`cnt_same`, `cnt_change`) are sent but never
used; they are left out.
-/

namespace NgsAMG.CMap

open NgsAMG.EQC NgsAMG.RedTab NgsAMG.Exch NgsAMG.BTM

/-- `Agglomerate`: center and members -/
structure Agg where
  center : ℕ
  mems : List ℕ
  deriving DecidableEq, Inhabited

/-- `GetENodes<NT_VERTEX>(k)` -/
def vertsOf (C : Ctx) (k : ℕ) : List ℕ := List.range' (C.disp.getD k 0) (C.disp.getD (k + 1) 0 - C.disp.getD k 0)

/-- agglomerate_map.cpp:141-144: `cnt_vs`; `agg_map` with `agg_eqc` -/
structure VSt where
  cnt : List ℕ
  agg : List (Option (ℕ × ℕ))
  deriving DecidableEq

/-- the entry of a vertex in `loc_map`: number of the coarse vertex within its class and identifier of the class -/
abbrev VEntry := Option (ℕ × ℕ)

/-- agglomerate_map.cpp:172-194, the loop body for the vertex `v` -/
def visitV (C : Ctx) (aggs : List Agg) (v2agg : List (Option ℕ)) (st : VSt) (v : ℕ) : Option (VSt × VEntry) :=
  (v2agg[v]?).bind fun o =>
    match o with
    | none => some (st, none)
    | some a => (st.agg[a]?).bind fun x =>
      match x with
      | some x => (C.ids[x.2]?).map fun id => (st, some (x.1, id))
      | none => (aggs[a]?).bind fun g => (C.eqcV g.center).bind fun k => (st.cnt[k]?).bind fun c =>
          (C.ids[k]?).map fun id => (⟨st.cnt.set k (c + 1), st.agg.set a (some (c, k))⟩, some (c, id))

/-- agglomerate_map.cpp:171-195, the vertices of a class -/
def visits (C : Ctx) (aggs : List Agg) (v2agg : List (Option ℕ)) : VSt → List ℕ → Option (VSt × List VEntry)
  | st, [] => some (st, [])
  | st, v :: vs => (visitV C aggs v2agg st v).bind fun r => (visits C aggs v2agg r.1 vs).map fun s => (s.1, r.2 :: s.2)

/-- agglomerate_map.cpp:161-197: the rows of the classes `ks`; rows of classes of which this process is not the master are only allocated -/
def exLoop (C : Ctx) (rank : ℕ) (aggs : List Agg) (v2agg : List (Option ℕ)) : VSt → List ℕ → Option (VSt × List (List VEntry))
  | st, [] => some (st, [])
  | st, k :: ks =>
    if isMaster rank (C.T.getD k []) = true then
      (visits C aggs v2agg st (vertsOf C k)).bind fun r => (exLoop C rank aggs v2agg r.1 ks).map fun s => (s.1, r.2 :: s.2)
    else (exLoop C rank aggs v2agg st ks).map fun s => (s.1, (List.replicate (vertsOf C k).length none) :: s.2)

/-- a row of `exdata` -/
abbrev VRow := ℕ × List VEntry

/-- agglomerate_map.cpp:139-201: what is sent; the row 0 is empty -/
def exData (C : Ctx) (rank : ℕ) (aggs : List Agg) (v2agg : List (Option ℕ)) : Option (VSt × List VRow) :=
  (exLoop C rank aggs v2agg ⟨List.replicate C.T.length 0, List.replicate aggs.length none⟩ (List.range' 1 (C.T.length - 1))).map fun r =>
    (r.1, if C.T.length = 0 then [] else (0, []) :: (r.2.zipIdx 1).map fun x => (r.1.cnt.getD x.2 0, x.1))

/-- agglomerate_map.cpp:205: `ScatterEQCData`; rows have to be of the same size -/
def vertProg (C : ℕ → Ctx) : List (DPhase (Option (List VRow)) (List VRow)) :=
  [eqcScatter (fun p => (C p).T) fun x y => x.2.length == y.2.length]

/-- `for (auto m : agg.members()) { vmap[m] = cid; }` -/
def setAll (vm : List (Option ℕ)) (mems : List ℕ) (cid : ℕ) : Option (List (Option ℕ)) :=
  if ∀ v ∈ mems, v < vm.length then some (mems.foldl (fun a v => a.set v (some cid)) vm) else none

/-- agglomerate_map.cpp:210-217: agglomerates with a local center; `c`: `cnt_vs[0]` -/
def localAggs (C : Ctx) : ℕ → List (Option ℕ) → List Agg → Option (ℕ × List (Option ℕ))
  | c, vm, [] => some (c, vm)
  | c, vm, g :: gs => (C.eqcV g.center).bind fun k =>
      if k = 0 then (setAll vm g.mems c).bind fun vm' => localAggs C (c + 1) vm' gs
      else localAggs C c vm gs

/-- agglomerate_map.cpp:242-262, the loop body for the vertex `v` -/
def finishV (C : Ctx) (aggs : List Agg) (v2agg : List (Option ℕ)) (disps : List ℕ) (vm : List (Option ℕ)) (v : ℕ) (e : VEntry) :
    Option (List (Option ℕ)) :=
  match e with
  | none => some vm
  | some (c, id) => (C.eqcOfID id).bind fun k => (disps[k]?).bind fun d =>
      if v < vm.length then
        (v2agg[v]?).bind fun o =>
          match o with
          | none => some (vm.set v (some (d + c)))
          | some a => (aggs[a]?).bind fun g =>
              if g.center = v then setAll (vm.set v (some (d + c))) g.mems (d + c) else some (vm.set v (some (d + c)))
      else none

/-- agglomerate_map.cpp:235-263; the list has the vertices with their entries -/
def finishVs (C : Ctx) (aggs : List Agg) (v2agg : List (Option ℕ)) (disps : List ℕ) : List (Option ℕ) → List (ℕ × VEntry) → Option (List (Option ℕ))
  | vm, [] => some vm
  | vm, x :: xs => (finishV C aggs v2agg disps vm x.1 x.2).bind fun vm' => finishVs C aggs v2agg disps vm' xs

/-- agglomerate_map.cpp:236-245: the vertices of the class `k` with their entries -/
def rowTodo (C : Ctx) (rows : List VRow) (k : ℕ) : Option (List (ℕ × VEntry)) :=
  (rows[k]?).bind fun row => if (vertsOf C k).length ≤ row.2.length then some ((vertsOf C k).zip row.2) else none

/-- agglomerate_map.cpp:133-137 and 208-269: local agglomerates, offsets of the coarse vertices, the map. `st`: what `exData` ends with, `rows`:
what `ScatterEQCData` ends with. Result: `disp_eqc[NT_VERTEX]` of the coarse mesh and `vmap` -/
def mapVertsAfter (C : Ctx) (aggs : List Agg) (v2agg : List (Option ℕ)) (st : VSt) (rows : List VRow) : Option (List ℕ × List (Option ℕ)) :=
  (localAggs C (st.cnt.getD 0 0) (List.replicate (C.disp.getLastD 0) none) aggs).bind fun l =>
    let cnts := (List.range C.T.length).map fun k => if k = 0 then l.1 else (rows.getD k (0, [])).1
    let disps := 0 :: partialSum 0 cnts
    ((List.range' 1 (C.T.length - 1)).mapM (rowTodo C rows)).bind fun todo =>
      (finishVs C aggs v2agg disps l.2 todo.flatten).map fun vm => (disps, vm)

/-- the context of the coarse vertices: the hierarchy is that of the fine mesh -/
def coarseCtx (C : Ctx) (disps : List ℕ) : Ctx := ⟨C.T, C.ids, C.ind, disps⟩

end NgsAMG.CMap
