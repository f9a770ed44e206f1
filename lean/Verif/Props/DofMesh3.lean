import Verif.Props.DofMesh2
import Verif.Props.BTM10

/-!
# C95: the finest mesh from the matrix (`BTM_Alg`)
-/

namespace NgsAMG.DofM
open NgsAMG.Spec NgsAMG.EQC NgsAMG.BTM NgsAMG.DCC NgsAMG.HybSm NgsAMG.Exch NgsAMG.RedTab

/-- `d` is the first degree of freedom of the vertex `v` -/
def IsFirst (nv : ℕ) (bs D : List ℕ) (v d : ℕ) : Prop := ∃ k, D[k]? = some d ∧ slot nv bs k = some (v, 0)

/-- what one process has before `BTM_Alg`: chosen degrees of freedom in ascending order, maps as after `SetUpMaps` (C94), the first degrees of freedom of the vertices; the pattern of its matrix is stored
in full, with diagonal entries -/
structure Local (ndof nv : ℕ) (bs D : List ℕ) (first : ℕ → ℕ) (m : Maps) (g : List (List ℕ)) : Prop where
  pos : 0 < bs.sum
  count : D.length = nv * bs.sum
  asc : D.Pairwise (· < ·)
  lt : ∀ d ∈ D, d < ndof
  maps : Numbering ndof nv bs D id m.d2v m.v2d
  isFirst : ∀ v < nv, IsFirst nv bs D v (first v)
  len : g.length = ndof
  rows : ∀ ri ∈ g, ri.Pairwise (· < ·) ∧ ∀ c ∈ ri, c < ndof
  diag : ∀ v < nv, first v ∈ g.getD (first v) []
  symm : ∀ v < nv, ∀ w < nv, first w ∈ g.getD (first v) [] → first v ∈ g.getD (first w) []

/-- the lookup of the vertex of a column: `v2d_table` or, with one degree of freedom per vertex, `v2d_array` -/
def IsLookup (bs : List ℕ) (m : Maps) (vt : ℕ → Option (Option ℕ)) : Prop := vt = vertTab m bs.sum ∨ (bs = [1] ∧ vt = vertArr m)

section
variable {ndof nv : ℕ} {bs D : List ℕ} {first : ℕ → ℕ} {m : Maps} {g : List (List ℕ)} (h : Local ndof nv bs D first m g)
include h

theorem local_dofs : ∃ dof, Dofs nv bs D dof ∧ ∀ v < nv, dof v 0 = first v := by
  obtain ⟨dof, hD⟩ := dofs_exist h.count h.asc
  refine ⟨dof, hD, fun v hv => ?_⟩
  obtain ⟨k, h1, h2⟩ := h.isFirst v hv
  exact (hD.of k _ v 0 h1 h2).symm

theorem local_pattern {dof : ℕ → ℕ → ℕ} (hf : ∀ v < nv, dof v 0 = first v) : Pattern ndof nv dof g := by
  refine ⟨h.len, h.rows, fun v hv => ?_, fun v hv w hw => ?_⟩
  · rw [hf v hv]; exact h.diag v hv
  · rw [hf v hv, hf w hw]; exact h.symm v hv w hw

theorem local_finds {dof : ℕ → ℕ → ℕ} (hD : Dofs nv bs D dof) {vt : ℕ → Option (Option ℕ)} (hvt : IsLookup bs m vt) : FindsVert ndof nv dof vt := by
  rcases hvt with rfl | ⟨rfl, rfl⟩
  · exact vertTab_finds hD h.pos h.maps
  · exact vertArr_finds hD h.maps

/-- **C95** (maps): after `BTM_Alg` the maps are those for the new numbers of the vertices (`v2d_table`). -/
theorem maps_renumbered {sort : List ℕ} (hsort : sort.Perm (List.range nv)) :
    ∃ m', updateTab m bs.sum nv sort = some m' ∧ Numbering ndof nv bs D (fun v => sort.getD v 0) m'.d2v m'.v2d := by
  obtain ⟨dof, hD, -⟩ := local_dofs h
  exact updateTab_correct hD h.lt h.maps hsort

/-- **C95** (free vertices): a vertex is free exactly if its first degree of freedom is. -/
theorem free_verts_correct {sort : List ℕ} (hsort : sort.Perm (List.range nv)) {free : List Bool} (hf : free.length = ndof) :
    ∃ fv, freeVerts m bs.sum nv sort (some free) = some fv ∧ fv.length = nv ∧ ∀ v < nv, fv[sort.getD v 0]? = free[first v]? := by
  obtain ⟨dof, hD, hdf⟩ := local_dofs h
  obtain ⟨fv, h1, h2, h3⟩ := freeVerts_spec hD h.lt h.pos h.maps hsort hf
  exact ⟨fv, h1, h2, fun v hv => by rw [h3 v hv, hdf v hv]⟩

/-- **C95** (edges of one process): `SetNodes` is given an edge for every pair of vertices whose first degrees of freedom are coupled in the matrix, once, with the ends in ascending order. -/
theorem edges_correct {sort : List ℕ} (hsort : sort.Perm (List.range nv)) {vt : ℕ → Option (Option ℕ)} (hvt : IsLookup bs m vt) :
    ∃ L, edgePairs g m bs.sum nv vt sort = some L ∧ L.Nodup ∧
      ∀ e : ℕ × ℕ, e ∈ L ↔ e.1 < e.2 ∧ ∃ v < nv, ∃ w < nv, e = (sort.getD v 0, sort.getD w 0) ∧ first w ∈ g.getD (first v) [] := by
  obtain ⟨dof, hD, hdf⟩ := local_dofs h
  obtain ⟨L, h1, h2, h3⟩ := edgePairs_spec hD h.lt h.pos h.maps hsort (local_pattern h hdf) (local_finds h hD hvt)
  refine ⟨L, h1, h2, fun e => ?_⟩
  rw [h3 e]
  refine and_congr_right fun _ => ?_
  constructor
  · rintro ⟨v, hv, w, hw, h4, h5⟩
    rw [hdf v hv, hdf w hw] at h5
    exact ⟨v, hv, w, hw, h4, h5⟩
  · rintro ⟨v, hv, w, hw, h4, h5⟩
    rw [← hdf v hv, ← hdf w hw] at h5
    exact ⟨v, hv, w, hw, h4, h5⟩

theorem first_lt {v : ℕ} (hv : v < nv) : first v < ndof := by
  obtain ⟨k, h1, -⟩ := h.isFirst v hv
  exact h.lt _ (List.mem_of_getElem? h1)

/-- first degrees of freedom are in the order of the vertices -/
theorem first_mono {v w : ℕ} (hw : w < nv) (hvw : v < w) : first v < first w := by
  obtain ⟨k, h1, h2⟩ := h.isFirst v (by omega)
  obtain ⟨k', h3, h4⟩ := h.isFirst w hw
  obtain ⟨t, b, j, a1, a2, a3, a4, a5⟩ := slot_iff.mp h2
  obtain ⟨t', b', j', b1, b2, b3, b4, b5⟩ := slot_iff.mp h4
  have htt : t = t' := by
    rcases locate_comp a1 b1 a3 b3 (by omega) with q | q
    · rcases locate_comp b1 a1 b3 a3 (by omega) with q' | q'
      · omega
      · exact q'.1.symm
    · exact q.1
  subst htt
  rw [a1] at b1; cases b1
  have hk : k < k' := by
    have : v * b < w * b := Nat.mul_lt_mul_of_pos_right hvw (by omega)
    omega
  obtain ⟨g1, g2⟩ := List.getElem?_eq_some_iff.mp h1
  obtain ⟨g3, g4⟩ := List.getElem?_eq_some_iff.mp h3
  rw [← g2, ← g4]
  exact List.pairwise_iff_getElem.mp h.asc k k' g1 g3 hk

end

/-! ### all processes -/

/-- the vertices of the processes; copies of a vertex are the vertices whose first degrees of freedom are copies of each other -/
def vertPD (Q : PD) (nv : ℕ → ℕ) (first : ℕ → ℕ → ℕ) : PD := ⟨Q.np, nv, fun p v => Q.glob p (first p v)⟩

section
variable {Q : PD} (hQ : Q.WF) {nv : ℕ → ℕ} {bs : List ℕ} {D : ℕ → List ℕ} {first : ℕ → ℕ → ℕ} {m : ℕ → Maps} {g : ℕ → List (List ℕ)}
  (h : ∀ p < Q.np, Local (Q.ndof p) (nv p) bs (D p) (first p) (m p) (g p))
  (hc : ∀ p < Q.np, ∀ q < Q.np, ∀ v < nv p, ∀ e < Q.ndof q, Q.glob p (first p v) = Q.glob q e → ∃ w < nv q, first q w = e)

include hQ h in
theorem vertPD_WF : (vertPD Q nv first).WF := by
  have hle : ∀ p < Q.np, ∀ v < nv p, ∀ w < nv p, first p v = first p w → v = w := by
    intro p hp v hv w hw he
    rcases Nat.lt_trichotomy v w with q | q | q
    · have := first_mono (h p hp) hw q; omega
    · exact q
    · have := first_mono (h p hp) hv q; omega
  constructor
  · intro p hp d hd e he heq
    exact hle p hp d hd e he (hQ.inj p hp _ (first_lt (h p hp) hd) _ (first_lt (h p hp) he) heq)
  · intro p hp q hq d hd d' hd' e he e' he' h1 h2 hlt
    have := hQ.mono p hp q hq _ (first_lt (h p hp) hd) _ (first_lt (h p hp) hd') _ (first_lt (h q hq) he) _ (first_lt (h q hq) he') h1 h2 (first_mono (h p hp) hd' hlt)
    by_contra hge
    rcases Nat.lt_or_ge e' e with q1 | q1
    · have := first_mono (h q hq) he q1; omega
    · have : e = e' := by omega
      subst this; omega

include h hc in
theorem vertPD_dps {p v : ℕ} (hp : p < Q.np) (hv : v < nv p) : (vertPD Q nv first).dps p v = Q.dps p (first p v) := by
  unfold PD.dps
  refine List.filter_congr fun q hq => ?_
  rw [List.mem_range] at hq
  have hq : q < Q.np := hq
  congr 1
  rw [Bool.eq_iff_iff, DCC.shares_iff, DCC.shares_iff]
  constructor
  · rintro ⟨w, hw, he⟩
    exact ⟨first q w, first_lt (h q hq) hw, he⟩
  · rintro ⟨e, he, heq⟩
    obtain ⟨w, hw, rfl⟩ := hc p hp q hq v hv e he heq.symm
    exact ⟨w, hw, heq⟩

include h hc in
/-- **C95** (vertices): `SetVs` is called with the distant processes of the vertices. -/
theorem vert_dps_correct {p : ℕ} (hp : p < Q.np) : vertDps (m p) bs.sum (nv p) (Q.dps p) = some (vdps (vertPD Q nv first) p) := by
  obtain ⟨dof, hD, hdf⟩ := local_dofs (h p hp)
  rw [vertDps_eq hD (h p hp).pos (h p hp).maps]
  unfold vdps
  refine congrArg some (List.map_congr_left fun v hv => ?_)
  have hv : v < nv p := List.mem_range.mp hv
  rw [vertPD_dps h hc hp hv, hdf v hv]

include h hc in
/-- **C95** (hierarchy): whatever the interleaving, the hierarchy of the classes of the degrees of freedom below `maxNd` that are selected, together with `SetVs`, is as the numbering of the mesh needs
it, if the selection is the same for copies and has the first degrees of freedom of all vertices. -/
theorem setUp_of_dofs {maxNd : ℕ → ℕ} {sel : ℕ → ℕ → Bool} (hs : SelOK Q maxNd sel) (hsel : ∀ p < Q.np, ∀ v < nv p, first p v < maxNd p ∧ sel p (first p v) = true)
    {fuel : ℕ} (hf : 2 ^ Q.np + 1 ≤ fuel) {n : ℕ} {s : St LSt (List ℕ)}
    (hr : Reach Q.np (setupProg Q.np fuel fun p => classesOfDofs Q maxNd sel p) (initState fuel fun p => classesOfDofs Q maxNd sel p) n s)
    (hfin : Final Q.np (setupProg Q.np fuel fun p => classesOfDofs Q maxNd sel p) s) :
    ∃ C M, SetUp (vertPD Q nv first) (fun p => classesOfDofs Q maxNd sel p) C M ∧ ∀ p < Q.np, (s.vec p).fam = some (C p).T ∧ (s.vec p).ids = some (C p).ids := by
  obtain ⟨-, -, hh⟩ := setup_closed (fun p hp => (classes_eq hs hp).1) (classes_consistent hs) hf hr
  obtain ⟨T, hcl, hcons, hg⟩ := hh hfin
  have hfam := fun p (hp : p < Q.np) => (classes_eq hs hp).2
  have hcov1 : ∀ p < Q.np, ∀ v < nv p, (vertPD Q nv first).dps p v ∈ classesOfDofs Q maxNd sel p := by
    intro p hp v hv
    rw [vertPD_dps h hc hp hv, hfam p hp]
    by_cases he : Q.dps p (first p v) = []
    · exact Or.inl ⟨he, by have := first_lt (h p hp) hv; omega⟩
    · exact Or.inr ⟨he, first p v, (hsel p hp v hv).1, (hsel p hp v hv).2, rfl⟩
  have hne : ∀ p < Q.np, classesOfDofs Q maxNd sel p ≠ [] → [] ∈ classesOfDofs Q maxNd sel p := by
    intro p hp he
    obtain ⟨v, hv⟩ := List.exists_mem_of_ne_nil _ he
    rw [hfam p hp]
    rcases (hfam p hp v).mp hv with ⟨-, he⟩ | ⟨-, x, hx, -⟩
    · exact Or.inl ⟨rfl, he⟩
    · exact Or.inl ⟨rfl, by have := hs.le p hp; omega⟩
  have hcov : ∀ p < Q.np, ∀ d ∈ vdps (vertPD Q nv first) p, d ∈ T p := by
    intro p hp d hd
    unfold vdps at hd
    obtain ⟨v, hv, rfl⟩ := List.mem_map.mp hd
    exact (hcl p hp).given _ (hcov1 p hp v (List.mem_range.mp hv))
  obtain ⟨ids, i1, i2, i3⟩ := hg.ids
  have key : ∀ p, ∃ (tab : List (Option ℕ)) (M : Verts), p < Q.np → idToInd (idTableSize Q.np p (s.vec p).nb (T p)) (ids p) = some tab ∧
      setVs (T p) false (vdps (vertPD Q nv first) p) = some M := by
    intro p
    by_cases hp : p < Q.np
    · obtain ⟨tab, t1, -⟩ := i3 p hp
      obtain ⟨M, m1, -⟩ := setVs_numbered (hcl p hp).ok (vdps (vertPD Q nv first) p) (hcov p hp)
      exact ⟨tab, M, fun _ => ⟨t1, m1⟩⟩
    · exact ⟨[], ⟨0, [], []⟩, fun h => absurd h hp⟩
  choose tab M hk using key
  exact ⟨fun p => ⟨T p, ids p, tab p, (M p).disp⟩, M, ⟨⟨s, hg, fun p hp => ⟨(i1 p hp).1, (hk p hp).1⟩⟩, hcl, hcons, hcov1, hne,
    fun p hp => ⟨(hk p hp).2, rfl⟩⟩, fun p hp => ⟨hg.fam p hp, (i1 p hp).1⟩⟩

variable {V : ℕ → List (List ℕ)} {C : ℕ → Ctx} {M : ℕ → Verts} (hS : SetUp (vertPD Q nv first) V C M)

include hS in
theorem sort_perm {p : ℕ} (hp : p < Q.np) : (M p).sort.Perm (List.range (nv p)) := by
  have := (setUp_numbered hS p hp).perm
  rwa [vdps_length] at this

include h hS in
/-- **C95** (edges can be numbered): on every process the edges are computed without access out of range, and `SetNodes` can classify them. -/
theorem edges_total (hQ : Q.WF) {vt : ℕ → ℕ → Option (Option ℕ)} (hvt : ∀ p < Q.np, IsLookup bs (m p) (vt p)) :
    ∃ (edges : ℕ → List (ℕ × ℕ)) (items : ℕ → List Item), ∀ p < Q.np, edgePairs (g p) (m p) bs.sum (nv p) (vt p) (M p).sort = some (edges p) ∧
      (edges p).mapM (classify (C p)) = some (items p) := by
  have key : ∀ p, ∃ L, p < Q.np → edgePairs (g p) (m p) bs.sum (nv p) (vt p) (M p).sort = some L := by
    intro p
    by_cases hp : p < Q.np
    · obtain ⟨L, h1, -⟩ := edges_correct (h p hp) (sort_perm hS hp) (hvt p hp)
      exact ⟨L, fun _ => h1⟩
    · exact ⟨[], fun h => absurd h hp⟩
  choose edges he using key
  have hG : ∀ p < (vertPD Q nv first).np, (edges p).Nodup ∧ ∀ e ∈ edges p, e.1 < e.2 ∧ e.2 < (vertPD Q nv first).ndof p := by
    intro p hp
    have hp : p < Q.np := hp
    obtain ⟨L, h1, h2, h3⟩ := edges_correct (h p hp) (sort_perm hS hp) (hvt p hp)
    rw [he p hp] at h1; cases h1
    refine ⟨h2, fun e hem => ?_⟩
    obtain ⟨a1, v, hv, w, hw, rfl, -⟩ := (h3 e).mp hem
    exact ⟨a1, (sort_get (sort_perm hS hp) hw).2⟩
  have key2 : ∀ p, ∃ its, p < Q.np → (edges p).mapM (classify (C p)) = some its := by
    intro p
    by_cases hp : p < Q.np
    · obtain ⟨its, h1⟩ := classify_total (vertPD_WF hQ h) hS hG p hp
      exact ⟨its, fun _ => h1⟩
    · exact ⟨[], fun h => absurd h hp⟩
  choose items hi using key2
  exact ⟨edges, items, fun p hp => ⟨he p hp, hi p hp⟩⟩

include h hQ hS in
/-- **C95** (finest mesh). Whatever the interleaving of the processes and the network: the numbering of the edges does not block and ends; at its end there are no messages left, no access was
out of range and the edges are numbered consistently (C72). The mesh of a process has the edge between two of its vertices exactly if on some process the first degrees of freedom of (copies of) both
vertices are coupled in the matrix of this process. -/
theorem alg_mesh_correct {vt : ℕ → ℕ → Option (Option ℕ)} (hvt : ∀ p < Q.np, IsLookup bs (m p) (vt p)) {edges : ℕ → List (ℕ × ℕ)} {items : ℕ → List Item}
    (he : ∀ p < Q.np, edgePairs (g p) (m p) bs.sum (nv p) (vt p) (M p).sort = some (edges p) ∧ (edges p).mapM (classify (C p)) = some (items p))
    {n : ℕ} {s : St (Loc CNode CNode) (Msg CNode CNode)} (hr : DReach Q.np (edgeProg Q.np C items) (fun _ => {}) n s) :
    n ≤ 16 * Q.np ∧ (¬ DFinal Q.np (edgeProg Q.np C items) s → ∃ t, DStep Q.np (edgeProg Q.np C items) s t) ∧
    (DFinal Q.np (edgeProg Q.np C items) s → (∀ i, ∀ p < Q.np, ∀ q < Q.np, s.chan i p q = none) ∧
      ∃ E : ℕ → Edges, (∀ p < Q.np, (C p).T ≠ [] → afterReduce (C p) (items p) (s.vec p).out = some (E p)) ∧ EdgesNumbered (vertPD Q nv first) C M edges E ∧
        ∀ p < Q.np, (C p).T ≠ [] → ∀ v < nv p, ∀ w < nv p, some ((M p).sort.getD v 0, (M p).sort.getD w 0) ∈ (E p).nodes ↔ (M p).sort.getD v 0 < (M p).sort.getD w 0 ∧
          ∃ q < Q.np, ∃ v' < nv q, ∃ w' < nv q, Q.glob q (first q v') = Q.glob p (first p v) ∧ Q.glob q (first q w') = Q.glob p (first p w) ∧
            first q w' ∈ (g q).getD (first q v') []) := by
  have hW := vertPD_WF hQ h
  have hE : ∀ p < Q.np, (edges p).Nodup ∧ ∀ e : ℕ × ℕ, e ∈ edges p ↔ e.1 < e.2 ∧ ∃ v < nv p, ∃ w < nv p, e = ((M p).sort.getD v 0, (M p).sort.getD w 0) ∧
      first p w ∈ (g p).getD (first p v) [] := by
    intro p hp
    obtain ⟨L, h1, h2, h3⟩ := edges_correct (h p hp) (sort_perm hS hp) (hvt p hp)
    rw [(he p hp).1] at h1; cases h1
    exact ⟨h2, h3⟩
  have hG : ∀ p < (vertPD Q nv first).np, (edges p).Nodup ∧ ∀ e ∈ edges p, e.1 < e.2 ∧ e.2 < (vertPD Q nv first).ndof p := by
    intro p hp
    have hp : p < Q.np := hp
    refine ⟨(hE p hp).1, fun e hem => ?_⟩
    obtain ⟨a1, v, hv, w, hw, rfl, -⟩ := ((hE p hp).2 e).mp hem
    exact ⟨a1, (sort_get (sort_perm hS hp) hw).2⟩
  obtain ⟨b1, b2, b3⟩ := setEdges_correct hW hS hG (fun p hp => (he p hp).2) hr
  refine ⟨b1, b2, fun hfin => ?_⟩
  obtain ⟨c1, E, c2, c3⟩ := b3 hfin
  refine ⟨c1, E, c2, c3, ?_⟩
  intro p hp hT v hv w hw
  obtain ⟨L, l1, l2, l3⟩ := c3.nodes p hp hT
  have hname : ∀ {p v : ℕ} (_ : p < Q.np) (_ : v < nv p), vname (vertPD Q nv first) M p ((M p).sort.getD v 0) = Q.glob p (first p v) := by
    intro p v hp hv
    exact vname_new hS hp (sort_get (sort_perm hS hp) hv).1
  have hmem : some ((M p).sort.getD v 0, (M p).sort.getD w 0) ∈ (E p).nodes ↔ ((M p).sort.getD v 0, (M p).sort.getD w 0) ∈ L := by
    rw [l1, List.mem_map]
    constructor
    · rintro ⟨a, ha, hae⟩; cases hae; exact ha
    · intro ha; exact ⟨_, ha, rfl⟩
  constructor
  · intro hin
    refine ⟨(c3.ends p hp hT _ hin).1, ?_⟩
    obtain ⟨-, -, q, hq, f, hf, hne⟩ := (l3 _).mp (hmem.mp hin)
    have hq : q < Q.np := hq
    obtain ⟨-, v', hv', w', hw', rfl, hcp⟩ := ((hE q hq).2 f).mp hf
    unfold ename at hne
    dsimp only at hne
    rw [hname hp hv, hname hp hw, hname hq hv', hname hq hw', Prod.mk.injEq] at hne
    exact ⟨q, hq, v', hv', w', hw', hne.1.symm, hne.2.symm, hcp⟩
  · rintro ⟨hlt, q, hq, v', hv', w', hw', hn1, hn2, hcp⟩
    rw [hmem, l3]
    have sv := (sort_get (sort_perm hS hp) hv).2
    have sw := (sort_get (sort_perm hS hp) hw).2
    have sv' := (sort_get (sort_perm hS hq) hv').2
    have sw' := (sort_get (sort_perm hS hq) hw').2
    have hlt' : (M q).sort.getD v' 0 < (M q).sort.getD w' 0 := by
      have hnv := fun {p : ℕ} (hp : p < Q.np) => setUp_nv hS (p := p) hp
      obtain ⟨S, r, i1, i2⟩ := (vname_iff hW hS (p := p) (q := q) (n := (M p).sort.getD v 0) (m := (M q).sort.getD v' 0) hp hq (by rw [hnv hp]; exact sv) (by rw [hnv hq]; exact sv')).mp
        (by rw [hname hp hv, hname hq hv', hn1])
      obtain ⟨S', r', j1, j2⟩ := (vname_iff hW hS (p := p) (q := q) (n := (M p).sort.getD w 0) (m := (M q).sort.getD w' 0) hp hq (by rw [hnv hp]; exact sw) (by rw [hnv hq]; exact sw')).mp
        (by rw [hname hp hw, hname hq hw', hn2])
      exact (vert_lt (mesh_of_setup hW hS) hp hq i1 j1 i2 j2).mp hlt
    refine ⟨sv, sw, q, hq, ((M q).sort.getD v' 0, (M q).sort.getD w' 0), ((hE q hq).2 _).mpr ⟨hlt', v', hv', w', hw', rfl, hcp⟩, ?_⟩
    unfold ename
    dsimp only
    rw [hname hp hv, hname hp hw, hname hq hv', hname hq hw', hn1, hn2]

end

/-- **C95** (maps), `v2d_array` -/
theorem maps_renumbered_arr {ndof nv : ℕ} {D : List ℕ} {first : ℕ → ℕ} {m : Maps} {g : List (List ℕ)} (h : Local ndof nv [1] D first m g) {sort : List ℕ}
    (hsort : sort.Perm (List.range nv)) : ∃ m', updateArr m nv sort = some m' ∧ Numbering ndof nv [1] D (fun v => sort.getD v 0) m'.d2v m'.v2d := by
  obtain ⟨dof, hD, -⟩ := local_dofs h
  exact updateArr_correct hD h.lt h.maps hsort

end NgsAMG.DofM
