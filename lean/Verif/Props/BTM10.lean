import Verif.Props.BTM9
import Verif.Props.EQC9

/-!
# C71/C72 from the set-up of the hierarchy to the numbered mesh, for every schedule; examples
-/

namespace NgsAMG.BTM

open NgsAMG.EQC NgsAMG.RedTab NgsAMG.DCC NgsAMG.HybSm NgsAMG.Exch

/-- the offsets `SetVs` sets up -/
theorem setVs_disp {np p : ℕ} {T : List (List ℕ)} (hT : FamOK np p T) (dps : List (List ℕ)) (hd : ∀ d ∈ dps, d ∈ T) {M : Verts}
    (h : setVs T false dps = some M) :
    M.disp.length = T.length + 1 ∧ M.disp[0]? = some 0 ∧ Offsets M.disp ∧ M.disp.getLastD 0 = dps.length := by
  by_cases hne : T = []
  · subst hne
    have : dps = [] := List.eq_nil_iff_forall_not_mem.mpr fun d h => by simpa using hd d h
    subst this
    simp [setVs] at h
    subst h
    simp [Offsets]
  · obtain ⟨cls, h1, h2, h3⟩ := mapM_findEQC hT dps hd
    have hcT : ∀ c ∈ cls, c < T.length := by
      intro c hc
      obtain ⟨v, hv⟩ := List.mem_iff_getElem?.mp hc
      obtain ⟨d, -, hd⟩ := (h3 v c).mp hv
      exact (List.getElem?_eq_some_iff.mp hd).1
    have hlen : T.length ≠ 0 := by simpa using hne
    unfold setVs at h
    rw [if_neg hlen, h1] at h
    simp at h
    subst h
    refine ⟨dispOf_length _ _ hcT, ?_, dispOf_offsets _ _ hcT, ?_⟩
    · rw [dispOf_get _ _ hcT 0 (by omega)]; simp
    · show (dispOf T.length cls).getLastD 0 = dps.length
      rw [getLastD_of_get (dispOf_length _ _ hcT) (dispOf_get _ _ hcT _ le_rfl), ← h2, List.countP_eq_length]
      intro c hc; simpa using hcT c hc

/-- what the set-up of the hierarchy (C57-C59) and `SetVs` (C71) leave on the processes: the sorted closed family of classes with
identifiers, the table of the identifiers, offsets of the vertices; `P` says which vertices are copies of each other, `V` are the classes
the hierarchy is made from (all classes of vertices are among them) -/
structure SetUp (P : PD) (V : ℕ → List (List ℕ)) (C : ℕ → Ctx) (M : ℕ → Verts) : Prop where
  hier : ∃ s : St LSt (List ℕ), GoodIds P.np (fun p => (C p).T) s ∧ ∀ p < P.np, (s.vec p).ids = some (C p).ids ∧
    idToInd (idTableSize P.np p (s.vec p).nb (C p).T) (C p).ids = some (C p).ind
  closed : ∀ p < P.np, Closed P.np (V p) p (C p).T
  cons : Consistent P.np fun p => (C p).T
  cover : ∀ p < P.np, ∀ v < P.ndof p, P.dps p v ∈ V p
  nonempty : ∀ p < P.np, V p ≠ [] → [] ∈ V p
  verts : ∀ p < P.np, setVs (C p).T false (vdps P p) = some (M p) ∧ (C p).disp = (M p).disp

section
variable {P : PD} (hP : P.WF) {V : ℕ → List (List ℕ)} {C : ℕ → Ctx} {M : ℕ → Verts} (hS : SetUp P V C M)
include hS

theorem setUp_cover : ∀ p < P.np, ∀ d ∈ vdps P p, d ∈ (C p).T := by
  intro p hp d hd
  unfold vdps at hd
  obtain ⟨v, hv, rfl⟩ := List.mem_map.mp hd
  rw [List.mem_range] at hv
  exact (hS.closed p hp).given _ (hS.cover p hp v hv)

theorem setUp_numbered : ∀ p < P.np, Numbered (C p).T (vdps P p) (M p) := by
  intro p hp
  obtain ⟨N, h1, h2⟩ := setVs_numbered (hS.closed p hp).ok (vdps P p) (setUp_cover hS p hp)
  rw [(hS.verts p hp).1] at h1
  cases h1
  exact h2

theorem setUp_tables : Tables P.np fun p => (C p).T := by
  obtain ⟨s, hg, -⟩ := hS.hier
  exact ⟨fun p hp => (hS.closed p hp).ok, hg.sorted, hS.cons⟩

theorem setUp_nv {p : ℕ} (hp : p < P.np) : (C p).nv = P.ndof p := by
  have := (setVs_disp (hS.closed p hp).ok _ (setUp_cover hS p hp) (hS.verts p hp).1).2.2.2
  unfold Ctx.nv
  rw [(hS.verts p hp).2, this, vdps_length]

include hP in
/-- the set-up gives a mesh the edges can be numbered on -/
theorem mesh_of_setup : Mesh P.np C := by
  obtain ⟨s, hg, hids⟩ := hS.hier
  obtain ⟨ids, i1, i2, i3⟩ := hg.ids
  have hid : ∀ p < P.np, ids p = (C p).ids := by
    intro p hp
    have := (i1 p hp).1
    rw [(hids p hp).1] at this
    exact (Option.some.inj this).symm
  have hdisp := fun p (hp : p < P.np) => setVs_disp (hS.closed p hp).ok _ (setUp_cover hS p hp) (hS.verts p hp).1
  have hN := setUp_numbered hS
  refine
    { tabs := setUp_tables hS
      inter := fun p hp => (hS.closed p hp).inter
      loc := ?_
      idl := fun p hp => by rw [← hid p hp]; exact (i1 p hp).2
      ids := ?_
      ind := ?_
      dl := fun p hp => by rw [(hS.verts p hp).2]; exact (hdisp p hp).1
      d0 := fun p hp => by rw [(hS.verts p hp).2]; exact (hdisp p hp).2.1
      offs := fun p hp => by rw [(hS.verts p hp).2]; exact (hdisp p hp).2.2.1
      sizes := ?_ }
  · intro p hp hne
    apply local_first (hg.sorted p hp)
    obtain ⟨d, hd⟩ := List.exists_mem_of_ne_nil _ hne
    obtain ⟨v, hv, -⟩ := (hS.closed p hp).below d hd
    exact (hS.closed p hp).given _ (hS.nonempty p hp (List.ne_nil_of_mem hv))
  · intro p hp q hq i j a b d e h1 h2 h3 h4
    rw [← hid p hp] at h1
    rw [← hid q hq] at h2
    exact i2 p hp q hq i j a b d e h1 h2 h3 h4
  · intro p hp q hq j b e h1 h2 i
    obtain ⟨tab, t1, t2⟩ := i3 p hp
    rw [hid p hp, (hids p hp).2] at t1
    cases t1
    rw [← hid q hq] at h1
    exact (t2 q hq j b e h1 h2).2 i
  · intro p hp q hq i j a b a' b' d e h1 h2 h3 h4 h5 h6 h7
    obtain ⟨x, y, x1, x2, x3⟩ := (hN p hp).sizes i d h1
    obtain ⟨x', y', y1, y2, y3⟩ := (hN q hq).sizes j e h2
    rw [(hS.verts p hp).2] at h4 h5
    rw [(hS.verts q hq).2] at h6 h7
    rw [h4] at x1; rw [h5] at x2; rw [h6] at y1; rw [h7] at y2
    cases x1; cases x2; cases y1; cases y2
    have := class_sizes hP hp hq ((hS.closed p hp).ok.2 _ (List.mem_of_getElem? h1)) ((hS.closed q hq).ok.2 _ (List.mem_of_getElem? h2)) h3
    omega

/-- the vertex of the original numbering that has the new number `n` -/
def oldOf (M : Verts) (n : ℕ) : ℕ := M.sort.idxOf n

/-- the global name of the vertex with the new number `n` on process `p` -/
def vname (P : PD) (M : ℕ → Verts) (p n : ℕ) : ℕ := P.glob p (oldOf (M p) n)

theorem oldOf_spec {p n : ℕ} (hp : p < P.np) (hn : n < P.ndof p) : oldOf (M p) n < P.ndof p ∧ (M p).sort[oldOf (M p) n]? = some n := by
  have hN := setUp_numbered hS p hp
  have hm : n ∈ (M p).sort := by rw [hN.perm.mem_iff, List.mem_range, vdps_length]; exact hn
  have hl : oldOf (M p) n < (M p).sort.length := List.idxOf_lt_length_of_mem hm
  refine ⟨?_, ?_⟩
  · rwa [hN.perm.length_eq, List.length_range, vdps_length] at hl
  · rw [List.getElem?_eq_getElem hl]
    exact congrArg some (List.getElem_idxOf hl)

theorem vname_new {p v n : ℕ} (hp : p < P.np) (hv : (M p).sort[v]? = some n) : vname P M p n = P.glob p v := by
  have hN := setUp_numbered hS p hp
  have hnd : (M p).sort.Nodup := hN.perm.nodup_iff.mpr List.nodup_range
  obtain ⟨h1, rfl⟩ := List.getElem?_eq_some_iff.mp hv
  unfold vname oldOf
  rw [hnd.idxOf_getElem]

include hP in
/-- names of vertices: the same exactly for copies -/
theorem vname_iff {p q n m : ℕ} (hp : p < P.np) (hq : q < P.np) (hn : n < (C p).nv) (hm : m < (C q).nv) :
    vname P M p n = vname P M q m ↔ ∃ S r, IsVert p (C p) n S r ∧ IsVert q (C q) m S r := by
  have hMe := mesh_of_setup hP hS
  rw [setUp_nv hS hp] at hn
  rw [setUp_nv hS hq] at hm
  have hN := setUp_numbered hS
  have gen : ∀ {p n : ℕ} (_ : p < P.np) (_ : n < P.ndof p), ∃ v < P.ndof p, vname P M p n = P.glob p v ∧
      IsVert p (C p) n (members p (P.dps p v)) (rankIn P p v) := by
    intro p n hp hn
    obtain ⟨h1, h2⟩ := oldOf_spec hS hp hn
    refine ⟨_, h1, rfl, ?_⟩
    obtain ⟨k, n', k1, k2, -, -, k5⟩ := (hN p hp).query _ _ (vdps_get h1)
    rw [h2] at k2; cases k2
    obtain ⟨a, b, s1, s2, s3⟩ := (hN p hp).sizes k _ k1
    unfold eFromEQC at k5
    rw [s1] at k5
    simp at k5
    have hlt := count_take_lt (vdps P p) _ _ (vdps_get h1)
    refine ⟨k, a, b, _, k1, rfl, by rw [(hS.verts p hp).2]; exact s1, by rw [(hS.verts p hp).2]; exact s2, ?_, by omega⟩
    unfold rankIn
    omega
  obtain ⟨v, v1, v2, v3⟩ := gen hp hn
  obtain ⟨w, w1, w2, w3⟩ := gen hq hm
  rw [v2, w2, glob_eq_iff hP hp hq v1 w1]
  constructor
  · rintro ⟨h1, h2⟩
    exact ⟨_, _, v3, h1 ▸ h2 ▸ w3⟩
  · rintro ⟨S, r, h1, h2⟩
    obtain ⟨a1, a2⟩ := isVert_unique hMe hp v3 h1
    obtain ⟨b1, b2⟩ := isVert_unique hMe hq w3 h2
    exact ⟨a1.trans b1.symm, a2.trans b2.symm⟩

end

/-! ### the edges, for every schedule -/

/-- the name of an edge: the global names of its end points -/
def ename (P : PD) (M : ℕ → Verts) (p : ℕ) (e : ℕ × ℕ) : ℕ × ℕ := (vname P M p e.1, vname P M p e.2)

/-- specification of the numbered edges of all processes. On every process (with classes):
the edges are numbered without gaps and repetitions, and are exactly the edges between own vertices that some process was given; their ends
are own vertices in ascending order; `sort` is the number of a given edge; the queries give the class - the processes that have both
end points - and the number within the class. Copies of an edge have the same class and number, different edges do not. The global
number of edges is right. -/
structure EdgesNumbered (P : PD) (C : ℕ → Ctx) (M : ℕ → Verts) (edges : ℕ → List (ℕ × ℕ)) (E : ℕ → Edges) : Prop where
  nodes : ∀ p < P.np, (C p).T ≠ [] → ∃ L : List (ℕ × ℕ), (E p).nodes = L.map some ∧ L.Nodup ∧
    ∀ e : ℕ × ℕ, e ∈ L ↔ e.1 < P.ndof p ∧ e.2 < P.ndof p ∧ ∃ q < P.np, ∃ f ∈ edges q, ename P M p e = ename P M q f
  ends : ∀ p < P.np, (C p).T ≠ [] → ∀ e, some e ∈ (E p).nodes → e.1 < e.2 ∧ e.2 < P.ndof p
  sort : ∀ p < P.np, (C p).T ≠ [] → ∀ (i : ℕ) (e : ℕ × ℕ), (edges p)[i]? = some e → ∃ n, (E p).sort[i]? = some n ∧ (E p).nodes[n]? = some (some e)
  query : ∀ p < P.np, (C p).T ≠ [] → ∀ (n : ℕ) (e : ℕ × ℕ), (E p).nodes[n]? = some (some e) →
    ∃ (k a : ℕ) (d : List ℕ), eqcOf (E p).dE (E p).dC n = some k ∧ toEQC (E p).dE (E p).dC n = some a ∧ (C p).T[k]? = some d ∧
      (∀ x, x ∈ members p d ↔ x < P.np ∧ P.shares x (vname P M p e.1) = true ∧ P.shares x (vname P M p e.2) = true) ∧
      (n < (E p).dE.getLastD 0 ↔ ∀ x < P.np, P.shares x (vname P M p e.1) = P.shares x (vname P M p e.2)) ∧
      (if n < (E p).dE.getLastD 0 then eFromEQC (E p).dE a k else cFromEQC (E p).dE (E p).dC a k) = some n
  copies : ∀ p < P.np, ∀ q < P.np, (C p).T ≠ [] → (C q).T ≠ [] → ∀ (n m : ℕ) (e f : ℕ × ℕ), (E p).nodes[n]? = some (some e) →
    (E q).nodes[m]? = some (some f) → (ename P M p e = ename P M q f ↔
      ∃ (k l a : ℕ) (d d' : List ℕ), eqcOf (E p).dE (E p).dC n = some k ∧ eqcOf (E q).dE (E q).dC m = some l ∧ (C p).T[k]? = some d ∧
        (C q).T[l]? = some d' ∧ members p d = members q d' ∧ toEQC (E p).dE (E p).dC n = some a ∧ toEQC (E q).dE (E q).dC m = some a ∧
        (n < (E p).dE.getLastD 0 ↔ m < (E q).dE.getLastD 0))
  count : ((List.range P.np).map fun p => nEdgeMaster p (C p).T (E p)).sum =
    ((Finset.range P.np).biUnion fun p => (edges p).toFinset.image (ename P M p)).card

section
variable {P : PD} (hP : P.WF) {V : ℕ → List (List ℕ)} {C : ℕ → Ctx} {M : ℕ → Verts} (hS : SetUp P V C M)
  {edges : ℕ → List (ℕ × ℕ)} (hG : ∀ p < P.np, (edges p).Nodup ∧ ∀ e ∈ edges p, e.1 < e.2 ∧ e.2 < P.ndof p)
  {items : ℕ → List Item} (hI : ∀ p < P.np, (edges p).mapM (classify (C p)) = some (items p))
include hS hG

theorem given_of : ∀ p < P.np, Given (C p) (edges p) := by
  intro p hp
  refine ⟨(hG p hp).1, fun e he => ?_⟩
  rw [setUp_nv hS hp]
  exact (hG p hp).2 e he

include hP in
/-- C72: the edges can be classified: no access out of range, and the intersection of the classes of the end points is a class -/
theorem classify_total : ∀ p < P.np, ∃ its, (edges p).mapM (classify (C p)) = some its := by
  intro p hp
  obtain ⟨its, h, -⟩ := items_exist (mesh_of_setup hP hS) (given_of hS hG) hp
  exact ⟨its, h⟩

include hP hI in
theorem edgesNumbered {ex : ℕ → List (List CNode)} {E : ℕ → Edges}
    (hB : ∀ p < P.np, (C p).T ≠ [] → Built P.np C edges items p (ex p) (E p)) : EdgesNumbered P C M edges E := by
  have hM := mesh_of_setup hP hS
  have hGv := given_of hS hG
  have hnv := fun p hp => setUp_nv hS (p := p) hp
  have hmesh := fun p hp hne => built_mesh hM hGv hI hp hne (hB p hp hne)
  have hname : ∀ p < P.np, ∀ q < P.np, ∀ e f : ℕ × ℕ, e.1 < P.ndof p → e.2 < P.ndof p → f.1 < P.ndof q → f.2 < P.ndof q →
      (ename P M p e = ename P M q f ↔ ∃ S r S' s, IsEdge p (C p) e S r S' s ∧ IsEdge q (C q) f S r S' s) := by
    intro p hp q hq e f h1 h2 h3 h4
    unfold ename
    rw [Prod.mk.injEq, vname_iff hP hS hp hq (by rw [hnv p hp]; exact h1) (by rw [hnv q hq]; exact h3),
      vname_iff hP hS hp hq (by rw [hnv p hp]; exact h2) (by rw [hnv q hq]; exact h4)]
    constructor
    · rintro ⟨⟨S, r, a1, a2⟩, S', s, b1, b2⟩
      exact ⟨S, r, S', s, ⟨a1, b1⟩, a2, b2⟩
    · rintro ⟨S, r, S', s, ⟨a1, b1⟩, a2, b2⟩
      exact ⟨⟨S, r, a1, a2⟩, S', s, b1, b2⟩
  have hends : ∀ p < P.np, (C p).T ≠ [] → ∀ e, some e ∈ (E p).nodes → e.1 < e.2 ∧ e.2 < P.ndof p := by
    intro p hp hne e he
    have := (hmesh p hp hne).ends e he
    rwa [hnv p hp] at this
  -- the processes of a vertex
  have hsh : ∀ p < P.np, ∀ n < P.ndof p, ∀ S r, IsVert p (C p) n S r → ∀ x, x ∈ S ↔ x < P.np ∧ P.shares x (vname P M p n) = true := by
    intro p hp n hn S r hv x
    have hx : x ∈ S ↔ x < P.np ∧ ∃ m, IsVert x (C x) m S r := by
      constructor
      · exact fun h => vert_partner hM hp hv h
      · rintro ⟨hx, m, hm⟩
        exact isVert_self hm
    rw [hx]
    refine and_congr_right fun hxn => ?_
    constructor
    · rintro ⟨m, hm⟩
      have hml : m < (C x).nv := by
        obtain ⟨k, a, b, d, h1, h2, h3, h4, h5, h6⟩ := hm
        have hl := hM.dl x hxn
        have hlast : (C x).disp[(C x).T.length]? = some (C x).nv := by
          have : (C x).T.length < (C x).disp.length := by omega
          rw [List.getElem?_eq_getElem this]
          congr 1
          exact (getLastD_of_get hl (List.getElem?_eq_getElem this)).symm
        have := offsets_le (hM.offs x hxn) (by have := (List.getElem?_eq_some_iff.mp h1).1; omega) h4 hlast
        omega
      have hee : vname P M x m = vname P M p n :=
        (vname_iff hP hS hxn hp hml (by rw [hnv p hp]; exact hn)).mpr ⟨S, r, hm, hv⟩
      rw [hnv x hxn] at hml
      rw [← hee]
      exact DCC.shares_glob (oldOf_spec hS hxn hml).1
    · intro h
      obtain ⟨l1, l2⟩ := loc_spec h
      obtain ⟨k, m, -, k2, -⟩ := (setUp_numbered hS x hxn).query _ _ (vdps_get l1)
      have hml : m < P.ndof x := by
        have := List.mem_of_getElem? k2
        rwa [(setUp_numbered hS x hxn).perm.mem_iff, List.mem_range, vdps_length] at this
      have := (vname_iff hP hS hp hxn (by rw [hnv p hp]; exact hn) (by rw [hnv x hxn]; exact hml)).mp (by
        rw [vname_new hS hxn k2, l2])
      obtain ⟨S', r', a1, a2⟩ := this
      obtain ⟨rfl, rfl⟩ := isVert_unique hM hp hv a1
      exact ⟨m, a2⟩
  refine ⟨?_, hends, fun p hp hne => (hmesh p hp hne).sort, ?_, ?_, ?_⟩
  · intro p hp hne
    obtain ⟨L, l1, l2, l3⟩ := (hmesh p hp hne).nodes
    refine ⟨L, l1, l2, fun e => ?_⟩
    constructor
    · intro he
      obtain ⟨e1, e2⟩ := hends p hp hne e (by rw [l1]; exact List.mem_map_of_mem he)
      refine ⟨by omega, e2, ?_⟩
      obtain ⟨q, hq, f, hf, S, r, S', s, g1, g2⟩ := (l3 e).mp he
      obtain ⟨f1, f2⟩ := (hG q hq).2 f hf
      refine ⟨q, hq, f, hf, (hname p hp q hq e f (by omega) e2 (by omega) f2).mpr ⟨S, r, S', s, ?_, ?_⟩⟩ <;> assumption
    · rintro ⟨e1, e2, q, hq, f, hf, hef⟩
      obtain ⟨f1, f2⟩ := (hG q hq).2 f hf
      obtain ⟨S, r, S', s, g1, g2⟩ := (hname p hp q hq e f e1 e2 (by omega) f2).mp hef
      refine (l3 e).mpr ⟨q, hq, f, hf, S, r, S', s, ?_, ?_⟩ <;> assumption
  · intro p hp hne n e hn
    obtain ⟨e1, e2⟩ := hends p hp hne e (List.mem_of_getElem? hn)
    obtain ⟨k, d, a, S, r, S', s, q1, q2, q3, q4, q5, q6, q7⟩ := (hmesh p hp hne).query n e hn
    have s1 := hsh p hp e.1 (by omega) S r q4.1
    have s2 := hsh p hp e.2 e2 S' s q4.2
    refine ⟨k, a, d, q1, q2, q3, ?_, ?_, q7⟩
    · intro x
      rw [q5, Finset.mem_inter, s1, s2]
      tauto
    · rw [q6]
      constructor
      · rintro rfl x hx
        have := (s1 x).symm.trans (s2 x)
        rw [Bool.eq_iff_iff]
        simpa [hx] using this
      · intro h
        ext x
        rw [s1, s2]
        refine and_congr_right fun hx => ?_
        rw [h x hx]
  · intro p hp q hq hne hne' n m e f hn hm
    obtain ⟨e1, e2⟩ := hends p hp hne e (List.mem_of_getElem? hn)
    obtain ⟨f1, f2⟩ := hends q hq hne' f (List.mem_of_getElem? hm)
    rw [hname p hp q hq e f (by omega) e2 (by omega) f2]
    exact edges_agree hM hGv hI hp hq hne hne' (hB p hp hne) (hB q hq hne') hn hm
  · exact global_edges hM hGv hI (vname P M) (fun p hp q hq n hn m hm => vname_iff hP hS hp hq hn hm) hB

include hP hI in
/-- **C72.** Whatever the interleaving of the processes and the network: `SetNodes<NT_EDGE>` does not block and ends; at its end there
are no messages left, no access was out of range, and the edges are numbered consistently. -/
theorem setEdges_correct {n : ℕ} {s : St (Loc CNode CNode) (Msg CNode CNode)}
    (hr : DReach P.np (edgeProg P.np C items) (fun _ => {}) n s) :
    n ≤ 16 * P.np ∧ (¬ DFinal P.np (edgeProg P.np C items) s → ∃ t, DStep P.np (edgeProg P.np C items) s t) ∧
    (DFinal P.np (edgeProg P.np C items) s → (∀ i, ∀ p < P.np, ∀ q < P.np, s.chan i p q = none) ∧
      ∃ E : ℕ → Edges, (∀ p < P.np, (C p).T ≠ [] → afterReduce (C p) (items p) (s.vec p).out = some (E p)) ∧
        EdgesNumbered P C M edges E) := by
  have hM := mesh_of_setup hP hS
  have hGv := given_of hS hG
  have hR := rows_of_tables hM.tabs
  have htab : ∀ p < P.np, ((fun p => tent (C p).T.length (items p)) p).length = ((fun p => (C p).T) p).length := by
    intro p _; simp [tent]
  unfold edgeProg at hr ⊢
  refine ⟨reduceTable_terminates hR _ _ htab hr, reduceTable_no_deadlock hR _ _ htab hr, fun hf => ?_⟩
  obtain ⟨h1, h2⟩ := reduceTable_correct hR _ _ htab hr hf
  refine ⟨h2, ?_⟩
  have key : ∀ p, ∃ (ex : List (List CNode)) (E : Edges), p < P.np → (C p).T ≠ [] →
      afterReduce (C p) (items p) (s.vec p).out = some E ∧ Built P.np C edges items p ex E := by
    intro p
    by_cases hp : p < P.np
    · by_cases hne : (C p).T = []
      · exact ⟨[], ⟨[], [], [], []⟩, fun _ h => absurd hne h⟩
      · obtain ⟨ex, E, e1, e2⟩ := built hM hGv hI hp hne (h1 p hp).2
        exact ⟨ex, E, fun _ _ => ⟨e1, e2⟩⟩
    · exact ⟨[], ⟨[], [], [], []⟩, fun h => absurd h hp⟩
  choose ex E hE using key
  exact ⟨E, fun p hp hne => (hE p hp hne).1, edgesNumbered hP hS hG hI fun p hp hne => (hE p hp hne).2⟩

end

/-- C72 on one process (`IsDummy`): numbers are not changed, all edges are in the class 0 -/
theorem setEdgesDummy_correct (edges : List (ℕ × ℕ)) : (setEdgesDummy edges).nodes = edges.map some ∧
    ∀ n < edges.length, (setEdgesDummy edges).sort[n]? = some n ∧
      eqcOf (setEdgesDummy edges).dE (setEdgesDummy edges).dC n = some 0 ∧ toEQC (setEdgesDummy edges).dE (setEdgesDummy edges).dC n = some n := by
  refine ⟨rfl, fun n hn => ⟨List.getElem?_range hn, ?_⟩⟩
  have h : eqcOf [0, edges.length] [0, 0] n = some 0 := by
    unfold eqcOf
    rw [if_pos (by simpa using hn)]
    exact eqcOfE_eq (k := 0) (a := 0) (b := edges.length) (by simp [Offsets]) rfl rfl (Nat.zero_le _) hn
  refine ⟨h, ?_⟩
  show toEQC [0, edges.length] [0, 0] n = some n
  unfold toEQC
  rw [h]
  simp [hn]

/-! ### the set-up from the DOFs meets `SetUp` -/

/-- C71/C72: what `EQCHierarchy` sets up from parallel DOFs, whatever the interleaving of the processes, together with `SetVs`, is as
`SetUp` asks for. -/
theorem setUp_exists {P : PD} {fuel : ℕ} (hf : 2 ^ P.np + 1 ≤ fuel) {n : ℕ} {s : St LSt (List ℕ)}
    (hr : Reach P.np (setupProg P.np fuel fun p => classesOfDofs P P.ndof (fun _ _ => true) p)
      (initState fuel fun p => classesOfDofs P P.ndof (fun _ _ => true) p) n s)
    (hfin : Final P.np (setupProg P.np fuel fun p => classesOfDofs P P.ndof (fun _ _ => true) p) s) :
    ∃ C M, SetUp P (fun p => classesOfDofs P P.ndof (fun _ _ => true) p) C M ∧
      ∀ p < P.np, (s.vec p).fam = some (C p).T ∧ (s.vec p).ids = some (C p).ids := by
  have hs : SelOK P P.ndof fun _ _ => true := ⟨fun _ _ => le_rfl, fun p hp q hq d hd e he h => by simp [hd, he]⟩
  obtain ⟨-, -, h⟩ := setup_closed (fun p hp => (classes_eq hs hp).1) (classes_consistent hs) hf hr
  obtain ⟨T, hcl, hcons, hg⟩ := h hfin
  have hfam : ∀ p < P.np, ∀ c, c ∈ classesOfDofs P P.ndof (fun _ _ => true) p ↔
      (c = [] ∧ 0 < P.ndof p) ∨ (c ≠ [] ∧ ∃ d < P.ndof p, P.dps p d = c) := by
    intro p hp c
    rw [(classes_eq hs hp).2]
    simp
  have hcov1 : ∀ p < P.np, ∀ v < P.ndof p, P.dps p v ∈ classesOfDofs P P.ndof (fun _ _ => true) p := by
    intro p hp v hv
    rw [hfam p hp]
    by_cases h : P.dps p v = []
    · exact Or.inl ⟨h, by omega⟩
    · exact Or.inr ⟨h, v, hv, rfl⟩
  have hne : ∀ p < P.np, classesOfDofs P P.ndof (fun _ _ => true) p ≠ [] → [] ∈ classesOfDofs P P.ndof (fun _ _ => true) p := by
    intro p hp h
    obtain ⟨v, hv⟩ := List.exists_mem_of_ne_nil _ h
    rw [hfam p hp]
    rcases (hfam p hp v).mp hv with ⟨-, h⟩ | ⟨-, x, hx, -⟩
    · exact Or.inl ⟨rfl, h⟩
    · exact Or.inl ⟨rfl, by omega⟩
  have hcov : ∀ p < P.np, ∀ d ∈ vdps P p, d ∈ T p := by
    intro p hp d hd
    unfold vdps at hd
    obtain ⟨v, hv, rfl⟩ := List.mem_map.mp hd
    exact (hcl p hp).given _ (hcov1 p hp v (List.mem_range.mp hv))
  obtain ⟨ids, i1, i2, i3⟩ := hg.ids
  have key : ∀ p, ∃ (tab : List (Option ℕ)) (M : Verts), p < P.np → idToInd (idTableSize P.np p (s.vec p).nb (T p)) (ids p) = some tab ∧
      setVs (T p) false (vdps P p) = some M := by
    intro p
    by_cases hp : p < P.np
    · obtain ⟨tab, t1, -⟩ := i3 p hp
      obtain ⟨M, m1, -⟩ := setVs_numbered (hcl p hp).ok (vdps P p) (hcov p hp)
      exact ⟨tab, M, fun _ => ⟨t1, m1⟩⟩
    · exact ⟨[], ⟨0, [], []⟩, fun h => absurd h hp⟩
  choose tab M hk using key
  refine ⟨fun p => ⟨T p, ids p, tab p, (M p).disp⟩, M, ⟨⟨s, hg, fun p hp => ⟨(i1 p hp).1, (hk p hp).1⟩⟩, hcl, hcons, hcov1, hne,
    fun p hp => ⟨(hk p hp).2, rfl⟩⟩, fun p hp => ⟨hg.fam p hp, (i1 p hp).1⟩⟩

/-! ### concrete cases -/

/-- five vertices in three classes, numbered by class -/
example : setVs [[], [1], [1, 2]] false [[1], [], [1, 2], [1], []] = some ⟨5, [0, 2, 4, 5], [2, 0, 4, 3, 1]⟩ := by decide

/-- `exPD`: three processes; vertices `0, 1, 7` / `1, 2, 7` / `2, 3, 7`, all set up, with edges that reach the theorem -/
def exEdges : ℕ → List (ℕ × ℕ) := fun p => if p = 0 then [(0, 2), (0, 1)] else if p = 1 then [(0, 2), (1, 2)] else if p = 2 then [(0, 1)] else []

example : (∀ p < exPD.np, (exEdges p).Nodup ∧ ∀ e ∈ exEdges p, e.1 < e.2 ∧ e.2 < exPD.ndof p) := by decide

example : ∃ C M, SetUp exPD (fun p => classesOfDofs exPD exPD.ndof (fun _ _ => true) p) C M := by
  obtain ⟨n, s, hr, hf⟩ := exists_final (setup_matched (fun p hp => (classes_eq exSel hp).1) (classes_consistent exSel)
    (show 2 ^ exPD.np + 1 ≤ 9 by decide)) (initState 9 fun p => classesOfDofs exPD exPD.ndof (fun _ _ => true) p)
  obtain ⟨C, M, h, -⟩ := setUp_exists (show 2 ^ exPD.np + 1 ≤ 9 by decide) hr hf
  exact ⟨C, M, h⟩

/-- the hypotheses of C72 are met, and there is a schedule that ends -/
example : ∃ C M items n s, SetUp exPD (fun p => classesOfDofs exPD exPD.ndof (fun _ _ => true) p) C M ∧
    (∀ p < exPD.np, (exEdges p).mapM (classify (C p)) = some (items p)) ∧
    DReach exPD.np (edgeProg exPD.np C items) (fun _ => {}) n s ∧ DFinal exPD.np (edgeProg exPD.np C items) s := by
  obtain ⟨n, s, hr, hf⟩ := exists_final (setup_matched (fun p hp => (classes_eq exSel hp).1) (classes_consistent exSel)
    (show 2 ^ exPD.np + 1 ≤ 9 by decide)) (initState 9 fun p => classesOfDofs exPD exPD.ndof (fun _ _ => true) p)
  obtain ⟨C, M, h, -⟩ := setUp_exists (show 2 ^ exPD.np + 1 ≤ 9 by decide) hr hf
  have hG : ∀ p < exPD.np, (exEdges p).Nodup ∧ ∀ e ∈ exEdges p, e.1 < e.2 ∧ e.2 < exPD.ndof p := by decide
  have ht := classify_total exPD_WF h hG
  have : ∀ p, ∃ its, p < exPD.np → (exEdges p).mapM (classify (C p)) = some its := by
    intro p
    by_cases hp : p < exPD.np
    · obtain ⟨i, hi⟩ := ht p hp; exact ⟨i, fun _ => hi⟩
    · exact ⟨[], fun h => absurd h hp⟩
  choose items hI using this
  obtain ⟨n', s', h1, h2⟩ := dexists_final (matched (rows_of_tables (mesh_of_setup exPD_WF h).tabs)
    (fun p => tent (C p).T.length (items p)) (fun _ _ ins => (mergeBy smaller ins).getD []) (by intro p _; simp [tent]))
  exact ⟨C, M, items, n', s', h, hI, h1, h2⟩

/-- one process of it, computed: process 1, two vertices in the classes `{0,1}`, `{1,2}` and one in `{0,1,2}`; the edge `(0, 2)` of the
vertices `1`, `7` is also an edge of process 0 -/
def exC1 : Ctx := ⟨[[], [0], [2], [0, 2]], [31, 33, 34, 35], List.replicate 31 none ++ [some 0, none, some 1, some 2, some 3], [0, 0, 1, 2, 3]⟩

example : ((exEdges 1).mapM (classify exC1)).bind (fun its => afterReduce exC1 its
    ((tent 4 its).map some)) = some ⟨[0, 0, 0, 0, 0], [0, 0, 1, 2, 2], [some (0, 2), some (1, 2)], [0, 1]⟩ := by decide +kernel

end NgsAMG.BTM
