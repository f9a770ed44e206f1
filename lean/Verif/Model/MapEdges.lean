import Verif.Model.CoarseMap
import Verif.Model.SProl
import Verif.Model.Traversal

/-!
# Model of the map from a distributed mesh to the mesh of its agglomerates: edges

Source: `/repo/src/base/coarsening/agglomerate_map.cpp:470-982` (`BaseAgglomerateCoarseMap::MapEdges`).

Conventions: `none` in an array is the code's `-1` (or an edge that is not written); `none` of a function is an access out of range. The counters of
the code are `int`; here a counter that would become negative is a failure as well. `edge.id` is the position of the edge. `BitArray`s are functions:
the numbers that are set come from the connectivity, which has only numbers of edges.
-/

namespace NgsAMG.CMap

open NgsAMG.EQC NgsAMG.RedTab NgsAMG.Exch NgsAMG.BTM

/-- the edges of the fine mesh: offsets `disp_eqc[NT_EDGE]`, `disp_cross[NT_EDGE]` and the edges -/
structure FEdges where
  dE : List ℕ
  dC : List ℕ
  nodes : List (ℕ × ℕ)
  deriving DecidableEq

/-- `GetENodes<NT_EDGE>(k)`, numbers -/
def eNodes (E : FEdges) (k : ℕ) : List ℕ := List.range' (E.dE.getD k 0) (E.dE.getD (k + 1) 0 - E.dE.getD k 0)

/-- `GetCNodes<NT_EDGE>(k)`, numbers -/
def cNodes (E : FEdges) (k : ℕ) : List ℕ := List.range' (E.dE.getLastD 0 + E.dC.getD k 0) (E.dC.getD (k + 1) 0 - E.dC.getD k 0)

/-- agglomerate_map.cpp:619-631, `it_es_u` (`doloc` is true in all calls): the order of the visits, class and number of the edge -/
def order (n : ℕ) (E : FEdges) : List (ℕ × ℕ) := (List.range n).flatMap fun k => (eNodes E k ++ cNodes E k).map fun e => (k, e)

/-- base_coarse.cpp:16-29, `GetMapC2F`: the row `x` -/
def mapC2F (map : List (Option ℕ)) (x : ℕ) : List ℕ := (List.range map.length).filter fun k => map[k]? == some (some x)

/-- what `MapEdges` uses: contexts of the fine and of the coarse vertices, fine edges, map of the vertices, connectivity (`GetEdgeCM`), table `c2fv` -/
structure Env where
  C : Ctx
  CC : Ctx
  E : FEdges
  vmap : List (Option ℕ)
  econ : ℕ → List (ℕ × ℕ)
  c2f : ℕ → List ℕ

/-- agglomerate_map.cpp:536-546: coarse vertices of a fine edge, their classes, class of the coarse edge, `c_cross` -/
structure CInfo where
  cv0 : ℕ
  cv1 : ℕ
  q0 : ℕ
  q1 : ℕ
  cls : ℕ
  cross : Bool
  deriving DecidableEq

/-- agglomerate_map.cpp:534-546; the inner `none`: there is no coarse edge -/
def cinfo (V : Env) (e : ℕ × ℕ) : Option (Option CInfo) :=
  (V.vmap[e.1]?).bind fun a => (V.vmap[e.2]?).bind fun b =>
    match a, b with
    | some x, some y =>
      if x = y then some none
      else (V.CC.eqcV x).bind fun q0 => (V.CC.eqcV y).bind fun q1 =>
        (if q0 = q1 then some q0 else commonEQC V.CC.T q0 q1).map fun q => some ⟨x, y, q0, q1, q, decide (q0 ≠ q1)⟩
    | _, _ => some none

/-- agglomerate_map.cpp:553-571, `it_feids`: the fine edges between the vertices of the coarse vertices `x` and `y` -/
def feids (V : Env) (x y : ℕ) : List ℕ :=
  (V.c2f x).flatMap fun v => (Traversal.iterInter 0 ((V.econ v).map Prod.fst) 0 (V.c2f y)).map fun ij => ((V.econ v).getD ij.1 (0, 0)).2

/-- `mark.SetBit` for all of a list -/
def markAll (m : ℕ → Bool) (l : List ℕ) : ℕ → Bool := fun e => m e || l.contains e

/-- agglomerate_map.cpp:588-606: `max_eq` and `spec_feid` after the loop over the edges `fs` -/
def specOf (V : Env) : ℕ × ℕ → List ℕ → Option (ℕ × ℕ)
  | s, [] => some s
  | s, f :: fs => (eqcOf V.E.dE V.E.dC f).bind fun q =>
      if q = s.1 then specOf V (s.1, min s.2 f) fs
      else if isLEQ V.C.T s.1 q then specOf V (q, f) fs
      else specOf V s fs

/-- the state of a round: `mark`, `desig` and what the round counts or writes -/
structure ISt (σ : Type) where
  mark : ℕ → Bool
  desig : ℕ → Bool
  st : σ

/-- agglomerate_map.cpp:610: `cv0 < cv1` -/
def ordered (i : CInfo) : CInfo := if i.cv1 < i.cv0 then ⟨i.cv1, i.cv0, i.q1, i.q0, i.cls, i.cross⟩ else i

/-- agglomerate_map.cpp:528-615, `wrap_elam`: the loop body for the edge `ke.2` of the class `ke.1`. All callbacks call `it_feids`, which marks the edges,
at their end; this is done here -/
def wrapE {σ : Type} (V : Env) (om : Bool) (check : σ → ℕ → Bool) (lam : σ → ℕ → ℕ → CInfo → List ℕ → Option σ) (s : ISt σ) (ke : ℕ × ℕ) : Option (ISt σ) :=
  if !s.mark ke.2 && check s.st ke.2 then
    (V.E.nodes[ke.2]?).bind fun e => (cinfo V e).bind fun o =>
      match o with
      | none => some s
      | some i =>
        let look := om && decide (0 < i.cls) && !s.desig ke.2
        (if look then specOf V ke (feids V i.cv0 i.cv1) else some ke).bind fun sp =>
          let mark := if look then markAll s.mark (feids V i.cv0 i.cv1) else s.mark
          if sp.2 ≠ ke.2 then some ⟨mark, fun f => s.desig f || f == sp.2, s.st⟩
          else
            let fs := feids V (ordered i).cv0 (ordered i).cv1
            (lam s.st sp.2 sp.1 (ordered i) fs).map fun st => ⟨markAll mark fs, s.desig, st⟩
  else some s

/-- agglomerate_map.cpp:619-631, `it_es_u` -/
def itEs {σ : Type} (V : Env) (om : Bool) (check : σ → ℕ → Bool) (lam : σ → ℕ → ℕ → CInfo → List ℕ → Option σ) (s : ISt σ) (l : List (ℕ × ℕ)) : Option (ISt σ) :=
  l.foldlM (wrapE V om check lam) s

/-- `cnt[k]++` -/
def incr (l : List ℕ) (k : ℕ) : Option (List ℕ) := (l[k]?).map fun c => l.set k (c + 1)

/-- `cnt[k]--` -/
def decr (l : List ℕ) (k : ℕ) : Option (List ℕ) := (l[k]?).bind fun c => if 0 < c then some (l.set k (c - 1)) else none

/-- agglomerate_map.cpp:650-656: `cnt_eq`, `cnt_cr`, `cnt_add_ce` -/
structure Cnts where
  eq : List ℕ
  cr : List ℕ
  add : List ℕ
  deriving DecidableEq

/-- agglomerate_map.cpp:665-683, the callback of the first round -/
def lam1 (s : Cnts) (_spec fq : ℕ) (i : CInfo) (_fs : List ℕ) : Option Cnts :=
  (if i.cls ≠ fq then incr s.add i.cls else some s.add).bind fun add =>
    if i.cross then (incr s.cr i.cls).map fun c => ⟨s.eq, c, add⟩ else (incr s.eq i.cls).map fun c => ⟨c, s.cr, add⟩

/-- agglomerate_map.cpp:633-636, `sort_tup` -/
def sortTup (t : CNode) : CNode :=
  if t.e0 = t.e1 then (if t.v1 < t.v0 then ⟨t.e0, t.e1, t.v1, t.v0⟩ else t)
  else if t.e1 < t.e0 then ⟨t.e1, t.e0, t.v1, t.v0⟩ else t

/-- agglomerate_map.cpp:637-646, `less_tup` -/
def lessTup (a b : CNode) : Bool :=
  if a.e0 == a.e1 && !(b.e0 == b.e1) then true
  else if b.e0 == b.e1 && !(a.e0 == a.e1) then false
  else if a.e0 < b.e0 then true else if b.e0 < a.e0 then false
  else if a.e1 < b.e1 then true else if b.e1 < a.e1 then false
  else if a.v0 < b.v0 then true else if b.v0 < a.v0 then false
  else if a.v1 < b.v1 then true else if b.v1 < a.v1 then false
  else false

/-- agglomerate_map.cpp:704-717: the name of a coarse edge -/
def tupOf (CC : Ctx) (i : CInfo) : Option CNode :=
  (CC.ids[i.q0]?).bind fun a => (CC.ids[i.q1]?).bind fun b => (CC.disp[i.q0]?).bind fun d => (CC.disp[i.q1]?).map fun d' =>
    sortTup ⟨a, b, i.cv0 - d, i.cv1 - d'⟩

/-- agglomerate_map.cpp:700-722, the callback of the second round; `cnt`: the sizes of the rows of the table -/
def lam2 (CC : Ctx) (cnt : List ℕ) (s : List (List CNode)) (_spec fq : ℕ) (i : CInfo) (_fs : List ℕ) : Option (List (List CNode)) :=
  if i.cls ≠ fq then
    (tupOf CC i).bind fun t => (s[i.cls]?).bind fun row =>
      if row.length < cnt.getD i.cls 0 then some (s.set i.cls (row ++ [t])) else none
  else some s

/-- agglomerate_map.cpp:648-731: the first two rounds: counts and the table of the coarse edges that are not in the class of their first fine edge. With
less than two classes the table is not filled: it must have no entries -/
def tentCE (V : Env) : Option (Cnts × List (List CNode)) :=
  let n := V.C.T.length
  (itEs V false (fun _ _ => true) lam1 ⟨fun _ => false, fun _ => false, ⟨List.replicate n 0, List.replicate n 0, List.replicate n 0⟩⟩ (order n V.E)).bind fun r =>
    if 1 < n then
      (itEs V false (fun _ _ => true) (lam2 V.CC r.st.add) ⟨fun _ => false, r.desig, List.replicate n []⟩ (order n V.E)).map fun r2 =>
        (r.st, r2.st.map fun row => row.insertionSort fun a b => lessTup b a = false)
    else if r.st.add.all (· == 0) then some (r.st, List.replicate n []) else none

/-- agglomerate_map.cpp:736-743: `ReduceTable` with `merge_arrays` -/
def ceProg (np : ℕ) (C : ℕ → Ctx) (tab : ℕ → List (List CNode)) :=
  RedTab.prog np (fun p => (C p).T) tab fun _ _ ins => (mergeBy lessTup ins).getD []

/-- agglomerate_map.cpp:767-770 and 826-829: the coarse vertices of a name -/
def decodeTup (CC : Ctx) (t : CNode) : Option (ℕ × ℕ) :=
  (CC.eqcOfID t.e0).bind fun k0 => (eFromEQC CC.disp t.v0 k0).bind fun v0 =>
    (if t.e1 ≠ t.e0 then CC.eqcOfID t.e1 else some k0).bind fun k1 => (eFromEQC CC.disp t.v1 k1).map fun v1 => (v0, v1)

/-- counters of agglomerate_map.cpp:753-793 -/
structure Cnts2 where
  eq : List ℕ
  cr : List ℕ
  aeq : List ℕ
  acr : List ℕ
  deriving DecidableEq

/-- agglomerate_map.cpp:764-791, the loop body: the entry `t` of the row `k` -/
def adjust (V : Env) (k : ℕ) (s : Cnts2) (t : CNode) : Option Cnts2 :=
  (decodeTup V.CC t).bind fun v =>
    let has := (V.c2f v.1).any fun x => !Traversal.isIntersectEmpty ((V.econ x).map Prod.fst) (V.c2f v.2)
    if t.e1 ≠ t.e0 then
      (incr s.acr k).bind fun acr => if has then (decr s.cr k).map fun cr => ⟨s.eq, cr, s.aeq, acr⟩ else some ⟨s.eq, s.cr, s.aeq, acr⟩
    else
      (incr s.aeq k).bind fun aeq => if has then (decr s.eq k).map fun eq => ⟨eq, s.cr, aeq, s.acr⟩ else some ⟨s.eq, s.cr, aeq, s.acr⟩

/-- agglomerate_map.cpp:759-793 -/
def adjusts (V : Env) (s : Cnts2) (rows : List (List CNode)) : Option Cnts2 :=
  rows.zipIdx.foldlM (fun s r => r.1.foldlM (adjust V r.2) s) s

/-- agglomerate_map.cpp:796-806 -/
def offsets (a b : List ℕ) : List ℕ := 0 :: partialSum 0 (List.zipWith (· + ·) a b)

/-- the arrays `cedges` and `emap` -/
structure Wr where
  cedges : List (Option (ℕ × ℕ))
  emap : List (Option ℕ)
  deriving DecidableEq

/-- `emap[feid] = id` for all `feid` -/
def setEmap (emap : List (Option ℕ)) (fs : List ℕ) (id : ℕ) : Option (List (Option ℕ)) :=
  if ∀ f ∈ fs, f < emap.length then some (fs.foldl (fun m f => m.set f (some id)) emap) else none

/-- `cedges[id].v = {a, b}` and the map of the fine edges `fs` -/
def putCE (w : Wr) (id : ℕ) (e : ℕ × ℕ) (fs : List ℕ) : Option Wr :=
  if id < w.cedges.length then (setEmap w.emap fs id).map fun m => ⟨w.cedges.set id (some e), m⟩ else none

/-- agglomerate_map.cpp:824-848, `set_cedge`. The bits `mark` that it sets are those of edges with a value in `emap`, which the last round leaves out anyway:
they are not kept -/
def setCedge (V : Env) (w : Wr) (id : ℕ) (t : CNode) : Option Wr :=
  (decodeTup V.CC t).bind fun v => putCE w id (if v.1 < v.2 then (v.1, v.2) else (v.2, v.1)) (feids V v.1 v.2)

/-- agglomerate_map.cpp:850-870: the entries of the rows `1, 2, ...`, with the numbers of the coarse edges -/
def setRow (V : Env) (osE osC : List ℕ) (neq : ℕ) (c : Cnts2) (w : Wr) (k : ℕ) (row : List CNode) : Option Wr :=
  row.zipIdx.foldlM (fun w (t : CNode × ℕ) =>
    if t.2 < c.aeq.getD k 0 then setCedge V w (osE.getD k 0 + c.eq.getD k 0 + t.2) t.1
    else setCedge V w (neq + osC.getD k 0 + c.cr.getD k 0 + (t.2 - c.aeq.getD k 0)) t.1) w

/-- state of the last round: `cnt_eq`, `cnt_cr` (from 0 again), arrays -/
structure St3 where
  eq : List ℕ
  cr : List ℕ
  w : Wr
  deriving DecidableEq

/-- agglomerate_map.cpp:879-895, the callback of the last round -/
def lam3 (osE osC : List ℕ) (neq : ℕ) (s : St3) (_spec _fq : ℕ) (i : CInfo) (fs : List ℕ) : Option St3 :=
  if i.cross then
    (s.cr[i.cls]?).bind fun l => (osC[i.cls]?).bind fun o => (putCE s.w (neq + o + l) (i.cv0, i.cv1) fs).map fun w => ⟨s.eq, s.cr.set i.cls (l + 1), w⟩
  else
    (s.eq[i.cls]?).bind fun l => (osE[i.cls]?).bind fun o => (putCE s.w (o + l) (i.cv0, i.cv1) fs).map fun w => ⟨s.eq.set i.cls (l + 1), s.cr, w⟩

/-- the edges of the coarse mesh (`disp_eqc`, `disp_cross`, `edges`, `nnodes_eqc`, `nnodes_cross`) and the map of the edges -/
structure CEdges where
  dE : List ℕ
  dC : List ℕ
  nodes : List (Option (ℕ × ℕ))
  emap : List (Option ℕ)
  nE : List ℕ
  nC : List ℕ
  deriving DecidableEq

/-- agglomerate_map.cpp:748-945: from the merged table to the coarse mesh -/
def finishCE (V : Env) (c : Cnts) (rows : List (List CNode)) : Option CEdges :=
  let n := V.C.T.length
  (adjusts V ⟨c.eq, c.cr, List.replicate n 0, List.replicate n 0⟩ rows).bind fun a =>
    let osE := offsets a.eq a.aeq
    let osC := offsets a.cr a.acr
    let neq := osE.getLastD 0
    let w0 : Wr := ⟨List.replicate (neq + osC.getLastD 0) none, List.replicate V.E.nodes.length none⟩
    ((rows.tail.zipIdx 1).foldlM (fun w r => setRow V osE osC neq a w r.2 r.1) w0).bind fun w =>
      (itEs V true (fun s e => s.w.emap[e]? == some none) (lam3 osE osC neq) ⟨fun _ => false, fun _ => false, ⟨List.replicate n 0, List.replicate n 0, w⟩⟩
        (order n V.E)).map fun r =>
          ⟨osE, osC, r.st.w.cedges, r.st.w.emap, List.zipWith (· + ·) r.st.eq a.aeq, List.zipWith (· + ·) r.st.cr a.acr⟩

/-- what process `p` does with the result of `ReduceTable` -/
def afterCE (V : Env) (c : Cnts) (out : List (Option (List CNode))) : Option CEdges := (out.mapM id).bind (finishCE V c)

end NgsAMG.CMap
