import Verif.Props.MapEdges10

/-!
# C76: an example
-/

namespace NgsAMG.CMap

open NgsAMG.EQC NgsAMG.RedTab NgsAMG.Exch NgsAMG.BTM

/-- **C76 (last part).** There is a complete schedule. -/
theorem mapEdges_total {np : ℕ} {C : ℕ → Ctx} {disps : ℕ → List ℕ} {vmap : ℕ → List (Option ℕ)} (hv : VMaps np C disps vmap)
    {E : ℕ → FEdges} {B : ℕ → Bool → List (List (ℕ × ℕ))} (hE : EMesh np C E B)
    {cnt : ℕ → Cnts} {tab : ℕ → List (List CNode)} (ht : ∀ p < np, tentCE (envOf C disps E vmap p) = some (cnt p, tab p)) :
    ∃ n s, DReach np (ceProg np C tab) (fun _ => {}) n s ∧ DFinal np (ceProg np C tab) s := by
  have htab : ∀ p < np, (tab p).length = (C p).T.length := by
    intro p hp
    obtain ⟨c, t, h1, -, -, -, h5, -⟩ := tentCE_spec (cnt_ok hv hE hp)
    rw [ht p hp] at h1; cases h1
    exact h5
  exact dexists_final (matched (rows_of_tables hv.fine.tabs) tab _ htab)

/-- `v` is a vertex of the class `i` -/
def inCls (C : Ctx) (i v : ℕ) : Bool := decide (i < C.T.length) && decide (C.disp.getD i 0 ≤ v) && decide (v < C.disp.getD (i + 1) 0)

theorem inCls_vert {np : ℕ} {C : ℕ → Ctx} (hM : Mesh np C) {p i v : ℕ} (hp : p < np) (h : inCls (C p) i v = true) :
    IsVert p (C p) v (members p ((C p).T.getD i [])) (v - (C p).disp.getD i 0) := by
  unfold inCls at h
  rw [Bool.and_eq_true, Bool.and_eq_true, decide_eq_true_iff, decide_eq_true_iff, decide_eq_true_iff] at h
  obtain ⟨⟨h1, h2⟩, h3⟩ := h
  have hl := hM.dl p hp
  have e1 : (C p).disp[i]? = some ((C p).disp.getD i 0) := by
    rw [List.getD_eq_getElem?_getD, List.getElem?_eq_getElem (by omega)]; rfl
  have e2 : (C p).disp[i + 1]? = some ((C p).disp.getD (i + 1) 0) := by
    rw [List.getD_eq_getElem?_getD, List.getElem?_eq_getElem (by omega)]; rfl
  have e3 : (C p).T[i]? = some ((C p).T.getD i []) := by
    rw [List.getD_eq_getElem?_getD, List.getElem?_eq_getElem h1]; rfl
  exact ⟨i, _, _, _, e3, rfl, e1, e2, by omega, h3⟩

/-- the same vertex on two processes -/
def SameV (C : ℕ → Ctx) (p q v w : ℕ) : Prop := ∃ i < (C p).T.length, ∃ j < (C q).T.length, inCls (C p) i v = true ∧ inCls (C q) j w = true ∧
  members p ((C p).T.getD i []) = members q ((C q).T.getD j []) ∧ v - (C p).disp.getD i 0 = w - (C q).disp.getD j 0

instance (C : ℕ → Ctx) (p q v w : ℕ) : Decidable (SameV C p q v w) := by unfold SameV; infer_instance

theorem sameV_vert {np : ℕ} {C : ℕ → Ctx} (hM : Mesh np C) {p q v w : ℕ} (hp : p < np) (hq : q < np) (h : SameV C p q v w) :
    ∃ S r, IsVert p (C p) v S r ∧ IsVert q (C q) w S r := by
  obtain ⟨i, -, j, -, a1, a2, a3, a4⟩ := h
  exact ⟨_, _, inCls_vert hM hp a1, by rw [a3, a4]; exact inCls_vert hM hq a2⟩

/-- a check of `EMesh` -/
theorem emesh_of_check {np : ℕ} {C : ℕ → Ctx} (hM : Mesh np C) {E : ℕ → FEdges} {B : ℕ → Bool → List (List (ℕ × ℕ))}
    (h1 : ∀ p < np, ∀ t, (B p t).length = (C p).T.length)
    (h2 : ∀ p < np, (E p).dE = (List.range ((C p).T.length + 1)).map (off (B p true)))
    (h3 : ∀ p < np, (E p).dC = (List.range ((C p).T.length + 1)).map (off (B p false)))
    (h4 : ∀ p < np, (E p).nodes = (B p true).flatten ++ (B p false).flatten)
    (h5 : ∀ p < np, ∀ t, ∀ b ∈ B p t, b.Nodup)
    (h6 : ∀ p < np, ∀ t, ∀ k < (C p).T.length, ∀ e ∈ (B p t).getD k [], e.1 < e.2 ∧ ∃ i < (C p).T.length, ∃ j < (C p).T.length, inCls (C p) i e.1 = true ∧ inCls (C p) j e.2 = true ∧
      members p ((C p).T.getD i []) ∩ members p ((C p).T.getD j []) = members p ((C p).T.getD k []) ∧ (t = true ↔ i = j))
    (h7 : ∀ p < np, ∀ q < np, ∀ t, ∀ k < (C p).T.length, ∀ l < (C q).T.length, members p ((C p).T.getD k []) = members q ((C q).T.getD l []) →
      ((B p t).getD k []).length = ((B q t).getD l []).length ∧ ∀ n < ((B p t).getD k []).length,
        SameV C p q (((B p t).getD k []).getD n (0, 0)).1 (((B q t).getD l []).getD n (0, 0)).1 ∧
        SameV C p q (((B p t).getD k []).getD n (0, 0)).2 (((B q t).getD l []).getD n (0, 0)).2) : EMesh np C E B := by
  have gd : ∀ {α : Type} {l : List α} {k : ℕ} {x d : α}, l[k]? = some x → l.getD k d = x := by
    intro α l k x d h
    rw [List.getD_eq_getElem?_getD, h]; rfl
  refine ⟨h1, h2, h3, h4, fun p hp t k b hb => h5 p hp t b (List.mem_of_getElem? hb), ?_, ?_⟩
  · intro p hp t k b d hb hd e he
    obtain ⟨e1, i, hi, j, hj, a1, a2, a3, a4⟩ := h6 p hp t k (List.getElem?_eq_some_iff.mp hd).1 e (by rw [gd hb]; exact he)
    refine ⟨e1, _, _, _, _, ⟨inCls_vert hM hp a1, inCls_vert hM hp a2⟩, by rw [a3, gd hd], ?_⟩
    rw [a4]
    constructor
    · rintro rfl; rfl
    · intro h
      have g : ∀ {i : ℕ}, i < (C p).T.length → (C p).T[i]? = some ((C p).T.getD i []) := fun h => by
        rw [List.getD_eq_getElem?_getD, List.getElem?_eq_getElem h]; rfl
      exact cls_eq (hM.tabs.ok p hp) (g hi) (g hj) h
  · intro p hp q hq t k l b b' d d' hb hb' hd hd' hm
    obtain ⟨n1, n2⟩ := h7 p hp q hq t k (List.getElem?_eq_some_iff.mp hd).1 l (List.getElem?_eq_some_iff.mp hd').1 (by rw [gd hd, gd hd', hm])
    rw [gd hb, gd hb'] at n1
    rw [gd hb, gd hb'] at n2
    rw [List.forall₂_iff_get]
    refine ⟨n1, fun n hn hn' => ?_⟩
    obtain ⟨a1, a2⟩ := n2 n hn
    rw [gd (List.getElem?_eq_getElem hn), gd (List.getElem?_eq_getElem hn')] at a1 a2
    obtain ⟨S, r, b1, b2⟩ := sameV_vert hM hp hq a1
    obtain ⟨S', s, c1, c2⟩ := sameV_vert hM hp hq a2
    exact ⟨S, r, S', s, ⟨b1, c1⟩, ⟨b2, c2⟩⟩

/-- the blocks of the edges of the example: process 0 has (0,1) and (1,3), process 0 and 1 share the edge between their shared vertex and that of all
processes, process 1 has an edge of its own between its own vertex and the one it shares with 0, process 2 an edge with a Dirichlet vertex -/
def exB : ℕ → Bool → List (List (ℕ × ℕ))
  | 0, true => [[(0, 1)], [], []]
  | 0, false => [[(1, 3)], [(2, 3)], []]
  | 1, true => [[], [], [], []]
  | 1, false => [[(0, 1)], [(1, 3)], [], []]
  | 2, true => [[], [], []]
  | 2, false => [[(0, 1)], [], []]
  | _, _ => []

def exE : ℕ → FEdges
  | 0 => ⟨[0, 1, 1, 1], [0, 1, 2, 2], [(0, 1), (1, 3), (2, 3)]⟩
  | 1 => ⟨[0, 0, 0, 0, 0], [0, 1, 2, 2, 2], [(0, 1), (1, 3)]⟩
  | 2 => ⟨[0, 0, 0, 0], [0, 1, 1, 1], [(0, 1)]⟩
  | _ => ⟨[0], [0], []⟩

set_option synthInstance.maxHeartbeats 400000 in
set_option synthInstance.maxSize 1000 in
theorem exE_mesh : EMesh 3 exC exE exB :=
  emesh_of_check exC_mesh (by decide) (by decide) (by decide) (by decide) (by decide) (by decide) (by decide +kernel)

def exDisps : ℕ → List ℕ
  | 0 => [0, 1, 1, 2]
  | 1 => [0, 0, 0, 1, 2]
  | 2 => [0, 0, 1, 2]
  | _ => [0]

def exVmap : ℕ → List (Option ℕ)
  | 0 => [some 1, some 0, some 1, some 1]
  | 1 => [some 0, some 1, some 0, some 1]
  | 2 => [none, some 0, some 1]
  | _ => []

theorem mesh_congr {np : ℕ} {C C' : ℕ → Ctx} (h : ∀ p < np, C p = C' p) (hM : Mesh np C) : Mesh np C' := by
  have ht : Tables np fun p => (C' p).T := by
    refine ⟨fun p hp => ?_, fun p hp => ?_, ?_⟩
    · have := hM.tabs.ok p hp; rw [h p hp] at this; exact this
    · have := hM.tabs.sorted p hp; rw [h p hp] at this; exact this
    · intro p hp d hd q hq
      have hd' : d ∈ (C p).T := by rw [h p hp]; exact hd
      have hqn : q < np := ((hM.tabs.ok p hp).2 d hd').range q hq
      obtain ⟨e, he, hm⟩ := hM.tabs.cons p hp d hd' q hq
      exact ⟨e, by show e ∈ (C' q).T; rw [← h q hqn]; exact he, hm⟩
  refine ⟨ht, fun p hp => ?_, fun p hp => ?_, fun p hp => ?_, fun p hp q hq => ?_, fun p hp q hq => ?_, fun p hp => ?_, fun p hp => ?_, fun p hp => ?_, fun p hp q hq => ?_⟩
  · rw [← h p hp]; exact hM.inter p hp
  · rw [← h p hp]; exact hM.loc p hp
  · rw [← h p hp]; exact hM.idl p hp
  · rw [← h p hp, ← h q hq]; exact hM.ids p hp q hq
  · rw [← h p hp, ← h q hq]; exact hM.ind p hp q hq
  · rw [← h p hp]; exact hM.dl p hp
  · rw [← h p hp]; exact hM.d0 p hp
  · rw [← h p hp]; exact hM.offs p hp
  · rw [← h p hp, ← h q hq]; exact hM.sizes p hp q hq

def exSt (p : ℕ) : VSt := ((exData (exC p) p (exAggs p) (exV2 p)).map Prod.fst).getD ⟨[], []⟩

def exVRows (p : ℕ) : List VRow := ((exData (exC p) p (exAggs p) (exV2 p)).map Prod.snd).getD []

set_option synthInstance.maxHeartbeats 400000 in
set_option synthInstance.maxSize 1000 in
/-- the vertices of the example: what `MapVerts` ends with -/
theorem exVmaps : VMaps 3 exC exDisps exVmap := by
  have hex : ∀ p < 3, exData (exC p) p (exAggs p) (exV2 p) = some (exSt p, exVRows p) := by decide +kernel
  have hmat := scatter_matched (rows_of_tables exC_mesh.tabs) exVRows (fun a b : VRow => a.2.length == b.2.length)
  obtain ⟨n, s, h1, h2⟩ := dexists_final hmat
  obtain ⟨-, disps, vmap, num, h3, h4⟩ := (mapVerts_correct exC_mesh exAggs_ok hex h1).2 h2
  have hv := vmaps_of exC_mesh exAggs_ok h4
  have hfin := (dfinal_state hmat h1 h2).1
  have heval : ∀ p < 3, (drun (vertProg exC) (fun q => some (exVRows q)) p).bind (mapVertsAfter (exC p) (exAggs p) (exV2 p) (exSt p)) =
      some (exDisps p, exVmap p) := by decide +kernel
  have heq : ∀ p < 3, disps p = exDisps p ∧ vmap p = exVmap p := by
    intro p hp
    have a := h3 p hp
    rw [hfin p hp] at a
    have := a.symm.trans (heval p hp)
    simpa using this
  have hcc : ∀ p < 3, coarseCtx (exC p) (disps p) = coarseCtx (exC p) (exDisps p) := fun p hp => by rw [(heq p hp).1]
  refine ⟨exC_mesh, mesh_congr hcc hv.mesh, fun p hp => ?_, fun p hp q hq => ?_⟩
  · rw [← (heq p hp).2]; exact hv.len p hp
  · rw [← (heq p hp).2, ← (heq q hq).2, ← (heq p hp).1, ← (heq q hq).1]; exact hv.copies p hp q hq

/-- the hypotheses of C76 are met and there is a complete schedule -/
example : ∃ (cnt : ℕ → Cnts) (tab : ℕ → List (List CNode)) (n : ℕ) (s : St (Loc CNode CNode) (Msg CNode CNode)),
    (∀ p < 3, tentCE (envOf exC exDisps exE exVmap p) = some (cnt p, tab p)) ∧ DReach 3 (ceProg 3 exC tab) (fun _ => {}) n s ∧ DFinal 3 (ceProg 3 exC tab) s := by
  obtain ⟨cnt, tab, h⟩ := mapEdges_tent exVmaps exE_mesh
  obtain ⟨n, s, h1, h2⟩ := mapEdges_total exVmaps exE_mesh h
  exact ⟨cnt, tab, n, s, h, h1, h2⟩

def exTabE (p : ℕ) : List (List CNode) := ((tentCE (envOf exC exDisps exE exVmap p)).map Prod.snd).getD []

/-- the result of a schedule: the coarse edge of process 1 is in the class of 1 and 2, so process 2, that has no fine edge of it, has it, too -/
example : (List.range 3).map (fun p => (tentCE (envOf exC exDisps exE exVmap p)).bind fun r =>
    afterCE (envOf exC exDisps exE exVmap p) r.1 (drun (ceProg 3 exC exTabE) (fun _ => {}) p).out) =
    [some ⟨[0, 0, 0, 0], [0, 1, 1, 1], [some (0, 1)], [some 0, some 0, none], [0, 0, 0], [1, 0, 0]⟩,
     some ⟨[0, 0, 0, 0, 0], [0, 0, 0, 1, 1], [some (0, 1)], [some 0, none], [0, 0, 0, 0], [0, 0, 1, 0]⟩,
     some ⟨[0, 0, 0, 0], [0, 0, 1, 1], [some (0, 1)], [none], [0, 0, 0], [0, 1, 0]⟩] := by
  decide +kernel

end NgsAMG.CMap
