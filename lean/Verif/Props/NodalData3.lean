import Verif.Props.NodalData2

/-!
# C73: vertices and edges of a mesh meet the assumptions on nodes
-/

namespace NgsAMG.Nodal

open NgsAMG.EQC NgsAMG.RedTab NgsAMG.Exch NgsAMG.BTM NgsAMG.DCC

theorem flat_blocks (d : ℕ → ℕ) (a n : ℕ) (h0 : d 0 = 0) (hm : ∀ k < n, d k ≤ d (k + 1)) :
    (List.range n).flatMap (fun k => List.range' (a + d k) (d (k + 1) - d k)) = List.range' a (d n) := by
  induction n with
  | zero => simp [h0]
  | succ n ih =>
    rw [List.range_succ, List.flatMap_append, ih (fun k hk => hm k (by omega)), List.flatMap_singleton]
    have := hm n (by omega)
    rw [List.range'_append_1]
    congr 1
    omega

/-- the part of the mesh that belongs to the vertices -/
def vertMesh (C : Ctx) : NMesh := ⟨C.T, C.disp, List.replicate (C.T.length + 1) 0⟩

theorem vertMesh_nodes (C : Ctx) (k : ℕ) (hk : k < C.T.length) :
    (vertMesh C).nodesOf k = List.range' (C.disp.getD k 0) (C.disp.getD (k + 1) 0 - C.disp.getD k 0) := by
  unfold NMesh.nodesOf vertMesh
  have h : ∀ i < C.T.length + 1, (List.replicate (C.T.length + 1) 0).getD i 0 = 0 := by
    intro i hi
    rw [List.getD_eq_getElem?_getD, List.getElem?_replicate, if_pos hi]; rfl
  simp only [h k (by omega), h (k + 1) (by omega)]
  simp

section
variable {P : PD} (hP : P.WF) {V : ℕ → List (List ℕ)} {C : ℕ → Ctx} {M : ℕ → Verts} (hS : SetUp P V C M)
include hP hS

/-- C73: vertices (C71) are as assumed -/
theorem nodes_verts : Nodes P.np (fun p => vertMesh (C p)) P.ndof (vname P M) := by
  have hM := mesh_of_setup hP hS
  have hnv := fun p (hp : p < P.np) => setUp_nv hS hp
  have hdisp : ∀ p < P.np, ∀ k ≤ (C p).T.length, (C p).disp[k]? = some ((C p).disp.getD k 0) := by
    intro p hp k hk
    have : k < (C p).disp.length := by rw [hM.dl p hp]; omega
    rw [List.getD_eq_getElem?_getD, List.getElem?_eq_getElem this]; rfl
  have hmono : ∀ p < P.np, ∀ k < (C p).T.length, (C p).disp.getD k 0 ≤ (C p).disp.getD (k + 1) 0 := by
    intro p hp k hk
    exact offsets_le (hM.offs p hp) (by omega) (hdisp p hp k (by omega)) (hdisp p hp (k + 1) (by omega))
  have hlast : ∀ p < P.np, (C p).disp.getD (C p).T.length 0 = P.ndof p := by
    intro p hp
    rw [← hnv p hp]
    exact (getLastD_of_get (hM.dl p hp) (hdisp p hp _ le_rfl)).symm
  have hd0 : ∀ p < P.np, (C p).disp.getD 0 0 = 0 := by
    intro p hp
    rw [List.getD_eq_getElem?_getD, hM.d0 p hp]; rfl
  have hcover : ∀ p < P.np, (List.range (C p).T.length).flatMap (vertMesh (C p)).nodesOf = List.range (P.ndof p) := by
    intro p hp
    have h := flat_blocks (fun k => (C p).disp.getD k 0) 0 (C p).T.length (hd0 p hp) (hmono p hp)
    rw [hlast p hp, ← List.range_eq_range'] at h
    rw [← h, List.flatMap_def, List.flatMap_def]
    congr 1
    apply List.map_congr_left
    intro k hk
    rw [vertMesh_nodes _ _ (List.mem_range.mp hk), Nat.zero_add]
  -- the name of the node number `j` of the class `k`
  have hname : ∀ p < P.np, ∀ (k j n : ℕ) (d : List ℕ), (C p).T[k]? = some d → ((vertMesh (C p)).nodesOf k)[j]? = some n →
      n < P.ndof p ∧ IsVert p (C p) n (members p d) j := by
    intro p hp k j n d hk hj
    have hkl := (List.getElem?_eq_some_iff.mp hk).1
    rw [vertMesh_nodes _ _ hkl] at hj
    have hjl := (List.getElem?_eq_some_iff.mp hj).1
    rw [List.length_range'] at hjl
    rw [List.getElem?_range' hjl] at hj
    simp only [Option.some.injEq, Nat.one_mul] at hj
    have hb : n < (C p).disp.getD (k + 1) 0 := by omega
    refine ⟨?_, k, _, _, d, hk, rfl, hdisp p hp k (by omega), hdisp p hp (k + 1) (by omega), by omega, hb⟩
    rw [← hlast p hp]
    have := offsets_le (hM.offs p hp) (show k + 1 ≤ (C p).T.length by omega) (hdisp p hp (k + 1) (by omega)) (hdisp p hp _ le_rfl)
    omega
  refine ⟨hM.tabs, hM.loc, fun p hp => by rw [show ((fun p => vertMesh (C p)) p).T = (C p).T from rfl, hcover p hp], ?_, ?_, ?_⟩
  · intro p hp q hq k l d e hk hl hm
    have hkl := (List.getElem?_eq_some_iff.mp hk).1
    have hll := (List.getElem?_eq_some_iff.mp hl).1
    have hsz := hM.sizes p hp q hq k l _ _ _ _ d e hk hl hm (hdisp p hp k (Nat.le_of_lt hkl)) (hdisp p hp (k + 1) hkl)
      (hdisp q hq l (Nat.le_of_lt hll)) (hdisp q hq (l + 1) hll)
    have hlen : ((vertMesh (C p)).nodesOf k).length = ((vertMesh (C q)).nodesOf l).length := by
      rw [vertMesh_nodes _ _ hkl, vertMesh_nodes _ _ hll, List.length_range', List.length_range', hsz]
    apply List.ext_getElem (by simpa using hlen)
    intro j h1 h2
    rw [List.length_map] at h1 h2
    rw [List.getElem_map, List.getElem_map]
    obtain ⟨a1, a2⟩ := hname p hp k j _ d hk (List.getElem?_eq_getElem h1)
    obtain ⟨b1, b2⟩ := hname q hq l j _ e hl (List.getElem?_eq_getElem h2)
    rw [← hm] at b2
    exact (vname_iff hP hS hp hq (by rw [hnv p hp]; exact a1) (by rw [hnv q hq]; exact b1)).mpr ⟨_, _, a2, b2⟩
  · intro p hp n hn m hm h
    obtain ⟨S, r, h1, h2⟩ := (vname_iff hP hS hp hp (by rw [hnv p hp]; exact hn) (by rw [hnv p hp]; exact hm)).mp h
    exact isVert_inj hM hp h1 h2
  · intro p hp q hq k n m d hk hn hm h
    obtain ⟨j, hj⟩ := List.mem_iff_getElem?.mp hn
    obtain ⟨a1, a2⟩ := hname p hp k j n d hk hj
    obtain ⟨S, r, h1, h2⟩ := (vname_iff hP hS hp hq (by rw [hnv p hp]; exact a1) (by rw [hnv q hq]; exact hm)).mp h
    obtain ⟨rfl, rfl⟩ := isVert_unique hM hp a2 h1
    exact isVert_self h2

end

/-! ### edges -/

/-- the part of the mesh that belongs to the edges -/
def edgeMesh (C : Ctx) (E : Edges) : NMesh := ⟨C.T, E.dE, E.dC⟩

/-- the name of the edge number `n` of process `p` -/
def edgeName (P : PD) (M : ℕ → Verts) (E : ℕ → Edges) (p n : ℕ) : Option (ℕ × ℕ) := ((E p).nodes.getD n none).map (ename P M p)

section
variable {P : PD} (hP : P.WF) {V : ℕ → List (List ℕ)} {C : ℕ → Ctx} {M : ℕ → Verts} (hS : SetUp P V C M)
  {edges : ℕ → List (ℕ × ℕ)} (hG : ∀ p < P.np, (edges p).Nodup ∧ ∀ e ∈ edges p, e.1 < e.2 ∧ e.2 < P.ndof p)
  {items : ℕ → List Item} (hI : ∀ p < P.np, (edges p).mapM (classify (C p)) = some (items p))
include hP hS hG hI

/-- C73: edges (C72) are as assumed. (Processes without classes keep the empty arrays of the constructor.) -/
theorem nodes_edges {ex : ℕ → List (List CNode)} {E : ℕ → Edges}
    (hB : ∀ p < P.np, (C p).T ≠ [] → Built P.np C edges items p (ex p) (E p)) (hE : ∀ p < P.np, (C p).T = [] → E p = ⟨[0], [0], [], []⟩) :
    Nodes P.np (fun p => edgeMesh (C p) (E p)) (fun p => (E p).nodes.length) (edgeName P M E) := by
  have hM := mesh_of_setup hP hS
  have hGv := given_of hS hG
  have hEN := edgesNumbered hP hS hG hI hB
  -- the nodes of a class are the two blocks
  have hoffs : ∀ p < P.np, (C p).T ≠ [] → ∀ k ≤ (C p).T.length,
      (E p).dE.getD k 0 = off (blk (items p) (ex p) (C p) true) k ∧ (E p).dC.getD k 0 = off (blk (items p) (ex p) (C p) false) k := by
    intro p hp hne k hk
    rw [(hB p hp hne).dE, (hB p hp hne).dC, List.getD_eq_getElem?_getD, (built_offs hM hGv hI hp hne (hB p hp hne) true).2.1 k hk,
      List.getD_eq_getElem?_getD, (built_offs hM hGv hI hp hne (hB p hp hne) false).2.1 k hk]
    exact ⟨rfl, rfl⟩
  have hlast : ∀ p < P.np, (C p).T ≠ [] → (E p).dE.getLastD 0 = (blk (items p) (ex p) (C p) true).flatten.length := by
    intro p hp hne
    rw [(hB p hp hne).dE]
    exact (built_offs hM hGv hI hp hne (hB p hp hne) true).2.2
  have hnodes : ∀ p < P.np, ∀ (k : ℕ) (d : List ℕ), (C p).T[k]? = some d → ∃ b b', (blk (items p) (ex p) (C p) true)[k]? = some b ∧
      (blk (items p) (ex p) (C p) false)[k]? = some b' ∧ IsBlock P.np C edges p (members p d) true b ∧
      IsBlock P.np C edges p (members p d) false b' ∧
      (edgeMesh (C p) (E p)).nodesOf k = List.range' (off (blk (items p) (ex p) (C p) true) k) b.length ++
        List.range' ((blk (items p) (ex p) (C p) true).flatten.length + off (blk (items p) (ex p) (C p) false) k) b'.length ∧
      ((edgeMesh (C p) (E p)).nodesOf k).map (edgeName P M E p) = (b ++ b').map fun e => some (ename P M p e) := by
    intro p hp k d hk
    have hkl := (List.getElem?_eq_some_iff.mp hk).1
    have hne : (C p).T ≠ [] := by intro h; rw [h] at hkl; simp at hkl
    obtain ⟨b, b1, b2⟩ := blocks hM hGv hI hp (hB p hp hne).rows hk true
    obtain ⟨b', c1, c2⟩ := blocks hM hGv hI hp (hB p hp hne).rows hk false
    have hno : (edgeMesh (C p) (E p)).nodesOf k = List.range' (off (blk (items p) (ex p) (C p) true) k) b.length ++
        List.range' ((blk (items p) (ex p) (C p) true).flatten.length + off (blk (items p) (ex p) (C p) false) k) b'.length := by
      unfold NMesh.nodesOf edgeMesh
      simp only
      rw [(hoffs p hp hne k hkl.le).1, (hoffs p hp hne k hkl.le).2, (hoffs p hp hne (k + 1) hkl).1, (hoffs p hp hne (k + 1) hkl).2,
        off_succ _ b1, off_succ _ c1, hlast p hp hne, Nat.add_sub_cancel_left, Nat.add_sub_cancel_left]
    refine ⟨b, b', b1, c1, b2, c2, hno, ?_⟩
    rw [hno, List.map_append, List.map_append]
    have one : ∀ (t : Bool) (b : List (ℕ × ℕ)), (blk (items p) (ex p) (C p) t)[k]? = some b →
        (List.range' (if t then off (blk (items p) (ex p) (C p) true) k else (blk (items p) (ex p) (C p) true).flatten.length +
          off (blk (items p) (ex p) (C p) false) k) b.length).map (edgeName P M E p) = b.map fun e => some (ename P M p e) := by
      intro t b hb
      apply List.ext_getElem (by simp)
      intro j h1 h2
      rw [List.length_map] at h2
      obtain ⟨q1, -⟩ := built_query hM hGv hI hp hne (hB p hp hne) hb h2
      rw [List.getElem_map, List.getElem_map, List.getElem_range']
      unfold edgeName
      rw [List.getElem?_eq_getElem h2] at q1
      unfold num at q1
      rw [Nat.one_mul, List.getD_eq_getElem?_getD]
      have : (E p).nodes[(if t then off (blk (items p) (ex p) (C p) true) k else (blk (items p) (ex p) (C p) true).flatten.length +
          off (blk (items p) (ex p) (C p) false) k) + j]? = some (some b[j]) := by
        rw [← q1]
        cases t <;> rfl
      rw [this]
      rfl
    exact congrArg₂ (· ++ ·) (one true b b1) (one false b' c1)
  -- the edge behind a node
  have hedge : ∀ p < P.np, ∀ n < (E p).nodes.length, ∃ e, (C p).T ≠ [] ∧ (E p).nodes[n]? = some (some e) ∧
      edgeName P M E p n = some (ename P M p e) := by
    intro p hp n hn
    have hne : (C p).T ≠ [] := by intro h; rw [hE p hp h] at hn; simp at hn
    obtain ⟨L, l1, -⟩ := hEN.nodes p hp hne
    have hnl : n < L.length := by rw [l1] at hn; simpa using hn
    have : (E p).nodes[n]? = some (some L[n]) := by rw [l1, List.getElem?_map, List.getElem?_eq_getElem hnl]; rfl
    refine ⟨L[n], hne, this, ?_⟩
    unfold edgeName
    rw [List.getD_eq_getElem?_getD, this]; rfl
  refine ⟨hM.tabs, hM.loc, ?_, ?_, ?_, ?_⟩
  · intro p hp
    show ((List.range (C p).T.length).flatMap (edgeMesh (C p) (E p)).nodesOf).Perm (List.range (E p).nodes.length)
    by_cases hne : (C p).T = []
    · rw [hne, hE p hp hne]; exact List.Perm.nil
    · have hlen : (E p).nodes.length = (blk (items p) (ex p) (C p) true).flatten.length + (blk (items p) (ex p) (C p) false).flatten.length := by
        rw [(hB p hp hne).nodes, List.length_map, List.length_append]
      have hsplit : (List.range (C p).T.length).flatMap (edgeMesh (C p) (E p)).nodesOf = (List.range (C p).T.length).flatMap fun k =>
          List.range' (0 + off (blk (items p) (ex p) (C p) true) k) (off (blk (items p) (ex p) (C p) true) (k + 1) - off (blk (items p) (ex p) (C p) true) k) ++
          List.range' ((blk (items p) (ex p) (C p) true).flatten.length + off (blk (items p) (ex p) (C p) false) k)
            (off (blk (items p) (ex p) (C p) false) (k + 1) - off (blk (items p) (ex p) (C p) false) k) := by
        rw [List.flatMap_def, List.flatMap_def]
        congr 1
        apply List.map_congr_left
        intro k hk
        obtain ⟨b, b', b1, b2, -, -, h, -⟩ := hnodes p hp k _ (List.getElem?_eq_getElem (List.mem_range.mp hk))
        rw [h, off_succ _ b1, off_succ _ b2, Nat.add_sub_cancel_left, Nat.add_sub_cancel_left, Nat.zero_add]
      rw [hsplit]
      refine (List.flatMap_append_perm _ _ _).symm.trans ?_
      have hz : ∀ t, off (blk (items p) (ex p) (C p) t) 0 = 0 := fun t => by simp [off]
      rw [flat_blocks _ 0 _ (hz true) (fun k _ => off_le _ (Nat.le_succ k)), flat_blocks _ _ _ (hz false) (fun k _ => off_le _ (Nat.le_succ k))]
      have e1 := off_all (blk (items p) (ex p) (C p) true)
      have e2 := off_all (blk (items p) (ex p) (C p) false)
      rw [blk_length hM hGv hI hp hne (hB p hp hne).rows] at e1 e2
      rw [e1, e2, hlen, List.range_eq_range']
      have := List.range'_append_1 (s := 0) (m := (blk (items p) (ex p) (C p) true).flatten.length) (n := (blk (items p) (ex p) (C p) false).flatten.length)
      rw [Nat.zero_add] at this
      rw [this]
  · intro p hp q hq k l d e hk hl hm
    replace hk : (C p).T[k]? = some d := hk
    replace hl : (C q).T[l]? = some e := hl
    obtain ⟨b, b', b1, b2, b3, b4, -, b5⟩ := hnodes p hp k d hk
    obtain ⟨c, c', c1, c2, c3, c4, -, c5⟩ := hnodes q hq l e hl
    show ((edgeMesh (C p) (E p)).nodesOf k).map (edgeName P M E p) = ((edgeMesh (C q) (E q)).nodesOf l).map (edgeName P M E q)
    by_cases h0 : k = 0
    · -- a local class is on one process
      have hl0 := (cls_pos hM hp hq hk hl hm).mp h0
      subst h0 hl0
      have hp0 := hM.loc p hp (by intro h; rw [h] at hk; simp at hk)
      have hq0 := hM.loc q hq (by intro h; rw [h] at hl; simp at hl)
      rw [hk] at hp0; cases hp0
      rw [hl] at hq0; cases hq0
      have : q = p := by
        have : q ∈ members p [] := by rw [hm, mem_members]; exact Or.inl rfl
        simpa [mem_members] using this
      subst this
      rfl
    · have hnep : (C p).T ≠ [] := by intro h; rw [h] at hk; simp at hk
      have hneq : (C q).T ≠ [] := by intro h; rw [h] at hl; simp at hl
      have hag := fun t {x y} h h' => blk_agree (items := items) hM hGv hp hq (hB p hp hnep).rows (hB q hq hneq).rows hk hl hm t (b := x) (b' := y) h h' h0
      have one : ∀ (t : Bool) (x y : List (ℕ × ℕ)), (blk (items p) (ex p) (C p) t)[k]? = some x → (blk (items q) (ex q) (C q) t)[l]? = some y →
          (x.map fun e => some (ename P M p e)) = y.map fun e => some (ename P M q e) := by
        intro t x y hx hy
        obtain ⟨g1, g2⟩ := hag t hx hy
        apply List.ext_getElem (by simpa using g1)
        intro j h1 h2
        rw [List.length_map] at h1 h2
        rw [List.getElem_map, List.getElem_map]
        obtain ⟨S, r, S', s, f1, f2⟩ := g2 j _ _ (List.getElem?_eq_getElem h1) (List.getElem?_eq_getElem h2)
        have hx1 : GivenAnywhere P.np C edges p x[j] := by
          cases t
          · rw [b2] at hx; cases hx; exact ((b4.2 _).mp (List.getElem_mem h1)).1
          · rw [b1] at hx; cases hx; exact ((b3.2 _).mp (List.getElem_mem h1)).1
        have hy1 : GivenAnywhere P.np C edges q y[j] := by
          cases t
          · rw [c2] at hy; cases hy; exact ((c4.2 _).mp (List.getElem_mem h2)).1
          · rw [c1] at hy; cases hy; exact ((c3.2 _).mp (List.getElem_mem h2)).1
        obtain ⟨x2, x3⟩ := given_lt hM hGv hp hx1
        obtain ⟨y2, y3⟩ := given_lt hM hGv hq hy1
        congr 1
        unfold ename
        rw [Prod.mk.injEq]
        exact ⟨(vname_iff hP hS hp hq (by omega) (by omega)).mpr ⟨_, _, f1.1, f2.1⟩,
          (vname_iff hP hS hp hq x3 y3).mpr ⟨_, _, f1.2, f2.2⟩⟩
      rw [b5, c5, List.map_append, List.map_append, one true b c b1 c1, one false b' c' b2 c2]
  · intro p hp n hn m hm h
    obtain ⟨e, hne, e1, e2⟩ := hedge p hp n hn
    obtain ⟨f, -, f1, f2⟩ := hedge p hp m hm
    rw [e2, f2, Option.some.injEq] at h
    obtain ⟨L, l1, l2, -⟩ := hEN.nodes p hp hne
    have hcop := (hEN.copies p hp p hp hne hne n m e f e1 f1).mp h
    obtain ⟨k, l, a, d, d', q1, q2, q3, q4, q5, q6, q7, q8⟩ := hcop
    -- the queries determine the number
    obtain ⟨k1, a1, d1, r1, r2, r3, -, -, r6⟩ := hEN.query p hp hne n e e1
    obtain ⟨k2, a2, d2, s1, s2, s3, -, -, s6⟩ := hEN.query p hp hne m f f1
    rw [q1] at r1; cases r1
    rw [q2] at s1; cases s1
    rw [q6] at r2; cases r2
    rw [q7] at s2; cases s2
    have hkl := cls_eq (hM.tabs.ok p hp) q3 q4 q5
    subst hkl
    by_cases hc : n < (E p).dE.getLastD 0
    · rw [if_pos hc] at r6
      rw [if_pos (q8.mp hc), r6] at s6
      exact Option.some.inj s6
    · rw [if_neg hc] at r6
      rw [if_neg (fun h => hc (q8.mpr h)), r6] at s6
      exact Option.some.inj s6
  · intro p hp q hq k n m d hk hn hm h
    obtain ⟨b, b', b1, b2, b3, b4, b6, b5⟩ := hnodes p hp k d hk
    have hmem : edgeName P M E p n ∈ ((edgeMesh (C p) (E p)).nodesOf k).map (edgeName P M E p) := List.mem_map_of_mem hn
    rw [b5] at hmem
    obtain ⟨e, he, hee⟩ := List.mem_map.mp hmem
    obtain ⟨f, hneq, f1, f2⟩ := hedge q hq m hm
    have hgiv : GivenAnywhere P.np C edges p e ∧ ∃ S r S' s, IsEdge p (C p) e S r S' s ∧ S ∩ S' = members p d := by
      rcases List.mem_append.mp he with he | he
      · obtain ⟨g, S, r, S', s, g1, g2, -⟩ := (b3.2 e).mp he
        exact ⟨g, S, r, S', s, g1, g2⟩
      · obtain ⟨g, S, r, S', s, g1, g2, -⟩ := (b4.2 e).mp he
        exact ⟨g, S, r, S', s, g1, g2⟩
    obtain ⟨g, S, r, S', s, g1, g2⟩ := hgiv
    obtain ⟨e1, e2⟩ := given_lt hM hGv hp g
    obtain ⟨f3, f4⟩ := hEN.ends q hq hneq f (List.mem_of_getElem? f1)
    rw [← hee, f2, Option.some.injEq] at h
    unfold ename at h
    rw [Prod.mk.injEq] at h
    have hnvq := setUp_nv hS hq
    obtain ⟨U, u, v1, v2⟩ := (vname_iff hP hS hp hq (by omega) (by rw [hnvq]; omega)).mp h.1
    obtain ⟨U', u', w1, w2⟩ := (vname_iff hP hS hp hq e2 (by rw [hnvq]; exact f4)).mp h.2
    obtain ⟨rfl, rfl⟩ := isVert_unique hM hp g1.1 v1
    obtain ⟨rfl, rfl⟩ := isVert_unique hM hp g1.2 w1
    rw [← g2, Finset.mem_inter]
    exact ⟨isVert_self v2, isVert_self w2⟩

/-- C73: the edges that any run of `SetNodes<NT_EDGE>` (C72) ends with are as assumed -/
theorem nodes_edges_run {n : ℕ} {s : St (Loc CNode CNode) (Msg CNode CNode)}
    (hr : DReach P.np (edgeProg P.np C items) (fun _ => {}) n s) (hf : DFinal P.np (edgeProg P.np C items) s) :
    ∃ E : ℕ → Edges, (∀ p < P.np, (C p).T ≠ [] → afterReduce (C p) (items p) (s.vec p).out = some (E p)) ∧
      Nodes P.np (fun p => edgeMesh (C p) (E p)) (fun p => (E p).nodes.length) (edgeName P M E) := by
  have hM := mesh_of_setup hP hS
  have hGv := given_of hS hG
  have hR := rows_of_tables hM.tabs
  have htab : ∀ p < P.np, ((fun p => tent (C p).T.length (items p)) p).length = ((fun p => (C p).T) p).length := by
    intro p _; simp [tent]
  unfold edgeProg at hr hf
  obtain ⟨h1, -⟩ := reduceTable_correct hR _ _ htab hr hf
  have key : ∀ p, ∃ (ex : List (List CNode)) (E : Edges), p < P.np → ((C p).T ≠ [] →
      afterReduce (C p) (items p) (s.vec p).out = some E ∧ Built P.np C edges items p ex E) ∧ ((C p).T = [] → E = ⟨[0], [0], [], []⟩) := by
    intro p
    by_cases hp : p < P.np
    · by_cases hne : (C p).T = []
      · exact ⟨[], ⟨[0], [0], [], []⟩, fun _ => ⟨fun h => absurd hne h, fun _ => rfl⟩⟩
      · obtain ⟨ex, E, e1, e2⟩ := built hM hGv hI hp hne (h1 p hp).2
        exact ⟨ex, E, fun _ => ⟨fun _ => ⟨e1, e2⟩, fun h => absurd h hne⟩⟩
    · exact ⟨[], ⟨[], [], [], []⟩, fun h => absurd h hp⟩
  choose ex E hE using key
  exact ⟨E, fun p hp hne => ((hE p hp).1 hne).1, nodes_edges hP hS hG hI (fun p hp hne => ((hE p hp).1 hne).2) fun p hp => (hE p hp).2⟩

end

/-! ### the hypotheses are met -/

/-- three processes, vertices `0, 1, 7` / `1, 2, 7` / `2, 3, 7`: vertices and edges -/
theorem exNodes : ∃ (C : ℕ → Ctx) (M : ℕ → Verts) (E : ℕ → Edges), Nodes exPD.np (fun p => vertMesh (C p)) exPD.ndof (vname exPD M) ∧
    Nodes exPD.np (fun p => edgeMesh (C p) (E p)) (fun p => (E p).nodes.length) (edgeName exPD M E) ∧
    (∀ p < exPD.np, ∀ e ∈ exEdges p, ∃ n : ℕ, edgeName exPD M E p n ≠ none) := by
  obtain ⟨n, s, hr, hf⟩ := exists_final (setup_matched (fun p hp => (classes_eq exSel hp).1) (classes_consistent exSel)
    (show 2 ^ exPD.np + 1 ≤ 9 by decide)) (initState 9 fun p => classesOfDofs exPD exPD.ndof (fun _ _ => true) p)
  obtain ⟨C, M, h, -⟩ := setUp_exists (show 2 ^ exPD.np + 1 ≤ 9 by decide) hr hf
  have hG : ∀ p < exPD.np, (exEdges p).Nodup ∧ ∀ e ∈ exEdges p, e.1 < e.2 ∧ e.2 < exPD.ndof p := by decide
  have ht := classify_total exPD_WF h hG
  have : ∀ p, ∃ its, p < exPD.np → (exEdges p).mapM (classify (C p)) = some its := by
    intro p
    by_cases hp : p < exPD.np
    · obtain ⟨i, hi⟩ := ht p hp; exact ⟨i, fun _ => hi⟩
    · exact ⟨[], fun h => absurd h hp⟩
  choose items hI using this
  obtain ⟨n', s', h1, h2⟩ := dexists_final (matched (rows_of_tables (mesh_of_setup exPD_WF h).tabs)
    (fun p => tent (C p).T.length (items p)) (fun _ _ ins => (mergeBy smaller ins).getD []) (by intro p _; simp [tent]))
  have hb : ∀ p < exPD.np, (C p).T ≠ [] → ∀ E, afterReduce (C p) (items p) (s'.vec p).out = some E →
      ∀ e ∈ exEdges p, ∃ n : ℕ, E.nodes[n]? = some (some e) := by
    intro p hp hne E hE e he
    obtain ⟨g1, -⟩ := reduceTable_correct (rows_of_tables (mesh_of_setup exPD_WF h).tabs) _ _ (by intro p _; simp [tent]) h1 h2
    obtain ⟨ex, E', e1, e2⟩ := built (mesh_of_setup exPD_WF h) (given_of h hG) hI hp hne (g1 p hp).2
    rw [hE] at e1; cases e1
    obtain ⟨i, hi⟩ := List.mem_iff_getElem?.mp he
    obtain ⟨m, -, hm⟩ := e2.sort i e hi
    exact ⟨m, hm⟩
  obtain ⟨E, e1, e2⟩ := nodes_edges_run exPD_WF h hG hI h1 h2
  refine ⟨C, M, E, nodes_verts exPD_WF h, e2, fun p hp e he => ?_⟩
  have hne : (C p).T ≠ [] := by
    obtain ⟨i, hi⟩ := List.mem_iff_getElem?.mp he
    intro h0
    have hlt := ((hG p hp).2 e he).2
    have := setUp_cover h p hp ((exPD.dps p e.2)) (by unfold vdps; exact List.mem_map.mpr ⟨e.2, List.mem_range.mpr hlt, rfl⟩)
    rw [h0] at this; simp at this
  obtain ⟨m, hm⟩ := hb p hp hne (E p) (e1 p hp hne) e he
  refine ⟨m, ?_⟩
  unfold edgeName
  rw [List.getD_eq_getElem?_getD, hm]
  simp

/-- `sum_table`, `max_table` -/
example : combine (· + ·) [[1, 2], [10, 20], [100, 200]] = some [111, 222] ∧ combine max [[1, 5], [3, 4]] = some [3, 5] := by decide

end NgsAMG.Nodal
