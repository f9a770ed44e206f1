import Verif.Model.CoarseMap

/-!
# Model of the map from a distributed mesh to the mesh of its agglomerates, version for solid vertices: vertices

Source: `/repo/src/base/coarsening/agglomerate_map.cpp:286-467` (`BaseAgglomerateCoarseMap::MapVerts_sv`). Unlike in `MapVerts`
(`Verif.Model.CoarseMap`) the process that has an agglomerate need not be the smallest process of the class of its center.

Conventions: those of `Verif.Model.CoarseMap`. The two calls of `ReduceTable` are two runs of `RedTab.prog`, one after the other.
-/

namespace NgsAMG.CMap

open NgsAMG.EQC NgsAMG.RedTab NgsAMG.Exch NgsAMG.BTM

/-- agglomerate_map.cpp:323-331: `tent_cnts` (one number per class) from the classes of the centers -/
def tentCnts (C : Ctx) (aggs : List Agg) : Option (List (List ℕ)) :=
  (aggs.mapM fun g => C.eqcV g.center).bind fun ks =>
    if ∀ k ∈ ks, k < C.T.length then
      some (ks.foldl (fun t k => t.modify k fun row => row.map (· + 1)) (List.replicate C.T.length [0]))
    else none

/-- agglomerate_map.cpp:332-337: the first `ReduceTable`; the reduced row of a class has the counts of its processes -/
def cntProg (np : ℕ) (C : ℕ → Ctx) (tc : ℕ → List (List ℕ)) :=
  prog np (fun p => (C p).T) tc fun _ _ ins => ins.map fun row => row.headD 0

/-- agglomerate_map.cpp:350-355, the inner loop of the prefix sums: the new row and `sum` after it -/
def prefixRow : ℕ → List ℕ → List ℕ × ℕ
  | s, [] => ([], s)
  | s, x :: xs => (s :: (prefixRow (s + x) xs).1, (prefixRow (s + x) xs).2)

/-- agglomerate_map.cpp:347-358: the table of offsets (`red_cnts` afterwards) and `disp_eqc[NT_VERTEX]` of the coarse mesh -/
def prefixRows : ℕ → List (List ℕ) → List (List ℕ) × List ℕ
  | s, [] => ([], [s])
  | s, r :: rs => ((prefixRow s r).1 :: (prefixRows (prefixRow s r).2 rs).1, s :: (prefixRows (prefixRow s r).2 rs).2)

/-- agglomerate_map.cpp:332-358: what the first `ReduceTable` ends with, turned into offsets. (A row that was not set has size `-1`.) -/
def offsetsSV (out : List (Option (List ℕ))) : Option (List (List ℕ) × List ℕ) := (out.mapM id).map (prefixRows 0)

/-- the entry of a vertex in `exv_map`: identifier of the class of the coarse vertex, position of the process within the class, number within the block of
the process -/
abbrev SVEntry := Option (ℕ × ℕ × ℕ)

/-- agglomerate_map.cpp:363-371: `rc2`, `vmap`, `exv_map` -/
structure SVSt where
  rc : List (List ℕ)
  vm : List (Option ℕ)
  ex : List (List SVEntry)
  deriving DecidableEq

/-- agglomerate_map.cpp:377: `merge_pos_in_sorted_array(rank, GetDistantProcs(eqc))` -/
def kpOf (rank : ℕ) (d : List ℕ) : Option ℕ :=
  match SortedArray.mergePos rank d with
  | some (.pos k) => some k
  | _ => none

/-- write an entry of a table -/
def putTab {α : Type} (t : List (List α)) (k l : ℕ) (x : α) : Option (List (List α)) :=
  (t[k]?).bind fun row => if l < row.length then some (t.set k (row.set l x)) else none

/-- agglomerate_map.cpp:388-397, the loop body for the member `v` of an agglomerate that is not local -/
def memSV (C : Ctx) (nr : ℕ) (e : ℕ × ℕ × ℕ) (s : List (Option ℕ) × List (List SVEntry)) (v : ℕ) : Option (List (Option ℕ) × List (List SVEntry)) :=
  if v < s.1.length then
    if v < C.disp.getD 1 0 - C.disp.getD 0 0 then some (s.1.set v (some nr), s.2)
    else (C.eqcV v).bind fun k => (C.locV v).bind fun l => (putTab s.2 k l (some e)).map fun ex => (s.1.set v (some nr), ex)
  else none

/-- agglomerate_map.cpp:372-400, the loop body for an agglomerate; `red`: the offsets -/
def aggSV (C : Ctx) (rank : ℕ) (red : List (List ℕ)) (st : SVSt) (g : Agg) : Option SVSt :=
  (C.eqcV g.center).bind fun k => (C.ids[k]?).bind fun id => (kpOf rank (C.T.getD k [])).bind fun kp =>
    ((st.rc[k]?).bind fun row => row[kp]?).bind fun c => ((red[k]?).bind fun row => row[kp]?).bind fun o =>
      (putTab st.rc k kp (c + 1)).bind fun rc =>
        if k = 0 then (setAll st.vm g.mems (o + c)).map fun vm => ⟨rc, vm, st.ex⟩
        else (g.mems.foldlM (memSV C (o + c) (id, kp, c)) (st.vm, st.ex)).map fun r => ⟨rc, r.1, r.2⟩

/-- agglomerate_map.cpp:360-371: all vertices without image, all entries `-1` -/
def initSV (C : Ctx) (red : List (List ℕ)) : SVSt :=
  ⟨red.map fun row => List.replicate row.length 0, List.replicate (C.disp.getLastD 0) none,
    (List.range C.T.length).map fun k => if 0 < k then List.replicate (vertsOf C k).length none else []⟩

/-- agglomerate_map.cpp:360-402 -/
def exvSV (C : Ctx) (rank : ℕ) (aggs : List Agg) (red : List (List ℕ)) : Option SVSt := aggs.foldlM (aggSV C rank red) (initSV C red)

/-- agglomerate_map.cpp:415-429: the lambda of the second `ReduceTable`: the last entry that is not `-1`. (All rows have the same size, see
`exvSV`; a shorter row would be read behind its end.) -/
def lastSet (ins : List (List SVEntry)) : List SVEntry :=
  match ins with
  | [] => []
  | r :: rs => rs.foldl (fun out row => out.zipWith (fun o x => if x.isSome then x else o) row) r

/-- agglomerate_map.cpp:412-430: the second `ReduceTable` -/
def exProg (np : ℕ) (C : ℕ → Ctx) (ex : ℕ → List (List SVEntry)) := prog np (fun p => (C p).T) ex fun _ _ ins => lastSet ins

/-- agglomerate_map.cpp:437-442, the loop body for the vertex `x.1` with the entry `x.2` -/
def finSV (C : Ctx) (red : List (List ℕ)) (vm : List (Option ℕ)) (x : ℕ × SVEntry) : Option (List (Option ℕ)) :=
  match x.2 with
  | none => some vm
  | some (id, kp, c) => (C.eqcOfID id).bind fun k => ((red[k]?).bind fun row => row[kp]?).bind fun o =>
      if x.1 < vm.length then some (vm.set x.1 (some (o + c))) else none

/-- agglomerate_map.cpp:434-436: the vertices of the class `k` with their entries -/
def rowSV (C : Ctx) (k : ℕ) (row : List SVEntry) : Option (List (ℕ × SVEntry)) :=
  if row.length ≤ (vertsOf C k).length then some ((vertsOf C k).zip row) else none

/-- agglomerate_map.cpp:433-448: the images of the shared vertices; `out`: what the second `ReduceTable` ends with -/
def finishSV (C : Ctx) (red : List (List ℕ)) (vm : List (Option ℕ)) (out : List (Option (List SVEntry))) : Option (List (Option ℕ)) :=
  (out.mapM id).bind fun rows => (rows.zipIdx.mapM fun x => rowSV C x.2 x.1).bind fun todo => todo.flatten.foldlM (finSV C red) vm

end NgsAMG.CMap
