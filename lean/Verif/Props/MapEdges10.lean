import Verif.Props.MapEdges9

/-!
# C76: `MapEdges`
-/

namespace NgsAMG.CMap

open NgsAMG.EQC NgsAMG.RedTab NgsAMG.Exch NgsAMG.BTM

/-- specification: `R p` are the edges of the coarse mesh on process `p` and the map of the edges. The coarse edges are a distributed set of edges on the
coarse vertices (every edge on all processes that have both vertices, at the same place in their class); a fine edge between two coarse vertices is mapped to
the coarse edge between them, all others to nothing; the coarse edges are the pairs of coarse vertices that a fine edge of *some* process joins -/
structure CoarseEdges (np : ℕ) (C : ℕ → Ctx) (disps : ℕ → List ℕ) (E : ℕ → FEdges) (vmap : ℕ → List (Option ℕ)) (R : ℕ → CEdges)
    (F : ℕ → FEdges) (B : ℕ → Bool → List (List (ℕ × ℕ))) : Prop where
  edges : ∀ p < np, (R p).dE = (F p).dE ∧ (R p).dC = (F p).dC ∧ (R p).nodes = (F p).nodes.map some
  counts : ∀ p < np, (R p).nE = (B p true).map List.length ∧ (R p).nC = (B p false).map List.length
  mesh : EMesh np (fun p => coarseCtx (C p) (disps p)) F B
  len : ∀ p < np, (R p).emap.length = (E p).nodes.length
  img : ∀ p < np, ∀ (f x y : ℕ) (nd : ℕ × ℕ), (E p).nodes[f]? = some nd → (vmap p)[nd.1]? = some (some x) → (vmap p)[nd.2]? = some (some y) → x ≠ y →
    ∃ id, (R p).emap[f]? = some (some id) ∧ (F p).nodes[id]? = some (min x y, max x y)
  drop : ∀ p < np, ∀ (f : ℕ) (nd : ℕ × ℕ), (E p).nodes[f]? = some nd →
    (¬ ∃ x y, (vmap p)[nd.1]? = some (some x) ∧ (vmap p)[nd.2]? = some (some y) ∧ x ≠ y) → (R p).emap[f]? = some none
  pre : ∀ p < np, ∀ (id : ℕ) (e : ℕ × ℕ), (F p).nodes[id]? = some e → ∃ T c T' c', IsEdge p (coarseCtx (C p) (disps p)) e T c T' c' ∧
    ∃ q < np, ∃ (f x y : ℕ) (nd : ℕ × ℕ), (E q).nodes[f]? = some nd ∧ (vmap q)[nd.1]? = some (some x) ∧ (vmap q)[nd.2]? = some (some y) ∧
      IsEdge q (coarseCtx (C q) (disps q)) (min x y, max x y) T c T' c'
  all : ∀ q < np, ∀ (f x y : ℕ) (nd : ℕ × ℕ) (T T' : Finset ℕ) (c c' : ℕ), (E q).nodes[f]? = some nd → (vmap q)[nd.1]? = some (some x) →
    (vmap q)[nd.2]? = some (some y) → x ≠ y → IsEdge q (coarseCtx (C q) (disps q)) (min x y, max x y) T c T' c' →
    ∀ p ∈ T ∩ T', ∃ e, e ∈ (F p).nodes ∧ IsEdge p (coarseCtx (C p) (disps p)) e T c T' c'

theorem norm_minmax {x y : ℕ} (h : x ≠ y) : norm (x, y) = (min x y, max x y) := by
  unfold norm
  dsimp only
  split
  · rw [min_eq_left (by omega), max_eq_right (by omega)]
  · rw [min_eq_right (by omega), max_eq_left (by omega)]

/-- the map of the vertices of C75 -/
theorem vmaps_of {np : ℕ} {C : ℕ → Ctx} (hM : Mesh np C) {aggs : ℕ → List Agg} {v2agg : ℕ → List (Option ℕ)} (hA : AggsOK np C aggs v2agg)
    {disps : ℕ → List ℕ} {vmap : ℕ → List (Option ℕ)} {num : ℕ → ℕ → ℕ} (hV : CoarseVerts np C aggs v2agg disps vmap num) : VMaps np C disps vmap :=
  ⟨hM, hV.mesh, hV.len, fun _ hp _ hq _ _ _ _ h h' => mapVerts_copies hM hA hV hp hq h h'⟩

section
variable {np : ℕ} {C : ℕ → Ctx} {disps : ℕ → List ℕ} {vmap : ℕ → List (Option ℕ)} (hv : VMaps np C disps vmap)
  {E : ℕ → FEdges} {B : ℕ → Bool → List (List (ℕ × ℕ))} (hE : EMesh np C E B)
include hv hE

/-- the tables that the processes merge -/
theorem merged_ce {cnt : ℕ → Cnts} {tab : ℕ → List (List CNode)} (ht : ∀ p < np, tentCE (envOf C disps E vmap p) = some (cnt p, tab p))
    {out : ℕ → List (Option (List CNode))}
    (hout : ∀ p < np, Reduced np (fun p => (C p).T) (fun p k => members p ((C p).T.getD k [])) tab (fun _ _ ins => (mergeBy lessTup ins).getD []) p (out p)) :
    ∃ rows : ℕ → List (List CNode), (∀ p < np, (out p).mapM id = some (rows p)) ∧ MergedCE np C disps E vmap rows := by
  have hspec : ∀ p < np, (tab p).length = (C p).T.length ∧ ∀ k < (C p).T.length, (tab p)[k]? =
      some ((((firstEdges (envOf C disps E vmap p)).filter (isAdd k)).map fun y => nameOf (envOf C disps E vmap p) y.2).insertionSort fun a b => lessTup b a = false) := by
    intro p hp
    obtain ⟨c, t, h1, -, -, -, h5, h6⟩ := tentCE_spec (cnt_ok hv hE hp)
    rw [ht p hp] at h1; cases h1
    exact ⟨h5, h6⟩
  have hnd : ∀ p < np, ∀ k, ((((firstEdges (envOf C disps E vmap p)).filter (isAdd k)).map fun y => nameOf (envOf C disps E vmap p) y.2)).Nodup := by
    intro p hp k
    have h0 : ((firstEdges (envOf C disps E vmap p)).map Prod.snd).Nodup := firsts_nodup _ _ _
    have h1 := h0.sublist ((List.filter_sublist (p := isAdd k)).map Prod.snd)
    have : ((firstEdges (envOf C disps E vmap p)).filter (isAdd k)).map (fun y => nameOf (envOf C disps E vmap p) y.2) =
        (((firstEdges (envOf C disps E vmap p)).filter (isAdd k)).map Prod.snd).map (nameOf (envOf C disps E vmap p)) := by
      rw [List.map_map]; rfl
    rw [this, List.nodup_map_iff_inj_on h1]
    intro i hi j hj hij
    obtain ⟨y, hy, rfl⟩ := List.mem_map.mp hi
    obtain ⟨z, hz, rfl⟩ := List.mem_map.mp hj
    obtain ⟨-, k1, -⟩ := firsts_mem _ (List.mem_filter.mp hy).1
    obtain ⟨-, k2, -⟩ := firsts_mem _ (List.mem_filter.mp hz).1
    obtain ⟨-, -, -, -, -, -, -, -, T, c, T', c', hci⟩ := key_some hv hE hp k1
    obtain ⟨-, -, -, -, -, -, -, -, U, u, U', u', hcj⟩ := key_some hv hE hp k2
    have n1 := (ci_name hv (E := E) hp hci).2
    have n2 := (ci_name hv (E := E) hp hcj).2
    rw [hij] at n1
    rcases isName_unique hv.mesh n1 n2 with ⟨rfl, rfl, rfl, rfl⟩ | ⟨rfl, rfl, rfl, rfl⟩
    · exact ci_unique hv hp hci hcj (isVert_inj hv.mesh hp hci.v0 hcj.v0) (isVert_inj hv.mesh hp hci.v1 hcj.v1)
    · have a := isVert_inj hv.mesh hp hci.v0 hcj.v1
      have b := isVert_inj hv.mesh hp hci.v1 hcj.v0
      have := keyOf_cv k1
      have := keyOf_cv k2
      omega
  have hs : ∀ p < np, ∀ row ∈ tab p, row.Pairwise fun a b => lessTup a b = true := by
    intro p hp row hr
    obtain ⟨k, hk⟩ := List.mem_iff_getElem?.mp hr
    have hkl : k < (C p).T.length := by rw [← (hspec p hp).1]; exact (List.getElem?_eq_some_iff.mp hk).1
    rw [(hspec p hp).2 k hkl] at hk
    cases hk
    exact tup_strict _ (hnd p hp k)
  have key : ∀ p, ∃ rows : List (List CNode), p < np → (out p).mapM id = some rows ∧ rows.length = (C p).T.length ∧ ∀ (k : ℕ) (d : List ℕ), (C p).T[k]? = some d →
      ∃ row, rows[k]? = some row ∧ (row.Pairwise fun a b => lessTup a b = true) ∧ ∀ c, c ∈ row ↔
        ∃ q < np, ∃ (l : ℕ) (e : List ℕ) (row' : List CNode), (C q).T[l]? = some e ∧ members q e = members p d ∧ (tab q)[l]? = some row' ∧ c ∈ row' := by
    intro p
    by_cases hp : p < np
    · obtain ⟨rows, h⟩ := merged_rows hv.fine (fun p hp => (hspec p hp).1) hs hp (hout p hp)
      exact ⟨rows, fun _ => h⟩
    · exact ⟨[], fun h => absurd h hp⟩
  choose rows hrows using key
  refine ⟨rows, fun p hp => (hrows p hp).1, fun p hp => ⟨(hrows p hp).2.1, fun k d hk => ?_⟩⟩
  obtain ⟨row, r1, r2, r3⟩ := (hrows p hp).2.2 k d hk
  refine ⟨row, r1, r2, fun c => ?_⟩
  rw [r3]
  constructor
  · rintro ⟨q, hq, l, e, row', e1, e2, e3, e4⟩
    refine ⟨q, hq, l, e, e1, e2, ?_⟩
    rw [(hspec q hq).2 l (List.getElem?_eq_some_iff.mp e1).1] at e3
    cases e3
    rw [List.mem_insertionSort, List.mem_map] at e4
    obtain ⟨y, hy, hn⟩ := e4
    rw [List.mem_filter] at hy
    exact ⟨y, hy.1, hy.2, hn⟩
  · rintro ⟨q, hq, l, e, e1, e2, y, hy, hadd, hn⟩
    refine ⟨q, hq, l, e, _, e1, e2, (hspec q hq).2 l (List.getElem?_eq_some_iff.mp e1).1, ?_⟩
    rw [List.mem_insertionSort, List.mem_map]
    exact ⟨y, List.mem_filter.mpr ⟨hy, hadd⟩, hn⟩

/-- from the merged tables to the coarse edges -/
theorem finish_ce {cnt : ℕ → Cnts} {tab : ℕ → List (List CNode)} (ht : ∀ p < np, tentCE (envOf C disps E vmap p) = some (cnt p, tab p))
    {rows : ℕ → List (List CNode)} (hR : MergedCE np C disps E vmap rows) :
    ∃ R F B', (∀ p < np, finishCE (envOf C disps E vmap p) (cnt p) (rows p) = some (R p)) ∧ CoarseEdges np C disps E vmap R F B' := by
  have key : ∀ p, ∃ R : CEdges, p < np → finishCE (envOf C disps E vmap p) (cnt p) (rows p) = some R ∧
      R.dE = (List.range ((C p).T.length + 1)).map (off (blocksE (envOf C disps E vmap p) (rows p) true)) ∧
      R.dC = (List.range ((C p).T.length + 1)).map (off (blocksE (envOf C disps E vmap p) (rows p) false)) ∧
      R.nodes = (allCE (envOf C disps E vmap p) (rows p)).map some ∧ R.emap.length = (E p).nodes.length ∧
      (∀ f id : ℕ, R.emap[f]? = some (some id) ↔ ∃ i, keyOf (envOf C disps E vmap p) f = some i ∧ (allCE (envOf C disps E vmap p) (rows p))[id]? = some (pr i)) ∧
      R.nE = (blocksE (envOf C disps E vmap p) (rows p) true).map List.length ∧ R.nC = (blocksE (envOf C disps E vmap p) (rows p) false).map List.length := by
    intro p
    by_cases hp : p < np
    · obtain ⟨c, t, h1, h2, h3, h4, -, -⟩ := tentCE_spec (cnt_ok hv hE hp)
      rw [ht p hp] at h1; cases h1
      obtain ⟨R, h⟩ := finishCE_spec (cnt_ok hv hE hp) (rows_ok hv hE hR hp) h2 h3 h4
      exact ⟨R, fun _ => h⟩
    · exact ⟨⟨[], [], [], [], [], []⟩, fun h => absurd h hp⟩
  choose R hRR using key
  let F : ℕ → FEdges := fun p => ⟨(R p).dE, (R p).dC, allCE (envOf C disps E vmap p) (rows p)⟩
  have hmesh : EMesh np (fun p => coarseCtx (C p) (disps p)) F fun p t => blocksE (envOf C disps E vmap p) (rows p) t :=
    coarse_emesh hv hE hR (fun p hp => (hRR p hp).2.1) (fun p hp => (hRR p hp).2.2.1) (fun p hp => rfl)
  have himg : ∀ p < np, ∀ (f x y : ℕ) (nd : ℕ × ℕ), (E p).nodes[f]? = some nd → (vmap p)[nd.1]? = some (some x) → (vmap p)[nd.2]? = some (some y) → x ≠ y →
      ∃ id, (R p).emap[f]? = some (some id) ∧ (F p).nodes[id]? = some (min x y, max x y) := by
    intro p hp f x y nd hn hx hy hne
    obtain ⟨i, i1, i2⟩ := key_of hv hE hp hn hx hy hne
    have hmem : pr i ∈ allCE (envOf C disps E vmap p) (rows p) := by
      obtain ⟨-, -, -, -, -, -, -, -, T, c, T', c', hci⟩ := key_some hv hE hp i1
      obtain ⟨d, d1, -⟩ := hci.cls
      have hk : i.cls < (C p).T.length := (List.getElem?_eq_some_iff.mp d1).1
      have hin : pr i ∈ newB (envOf C disps E vmap p) (rows p) (!i.cross) i.cls := by
        rw [mem_newB (cnt_ok hv hE hp) (rows_ok hv hE hR hp) hk]
        cases hr : inRow (envOf C disps E vmap p) (rows p) i with
        | false => exact Or.inl ⟨f, i, i1, rfl, rfl, by simp, hr⟩
        | true =>
          right
          unfold inRow at hr
          rw [decide_eq_true_iff, List.mem_map] at hr
          obtain ⟨t, t1, t2⟩ := hr
          have := ((rows_ok hv hE hR hp).cls i.cls _ (rows_get (cnt_ok hv hE hp) (rows_ok hv hE hR hp) hk) t t1 f i i1 t2.symm).2
          exact ⟨t, t1, by rw [this]; simp, t2⟩
      unfold allCE
      rw [List.mem_append, List.mem_flatten, List.mem_flatten]
      cases hc : i.cross with
      | true =>
        rw [hc] at hin
        exact Or.inr ⟨_, List.mem_of_getElem? (blocksE_get _ _ _ hk), hin⟩
      | false =>
        rw [hc] at hin
        exact Or.inl ⟨_, List.mem_of_getElem? (blocksE_get _ _ _ hk), hin⟩
    obtain ⟨id, hid⟩ := List.mem_iff_getElem?.mp hmem
    refine ⟨id, ((hRR p hp).2.2.2.2.2.1 f id).mpr ⟨i, i1, hid⟩, ?_⟩
    rw [← norm_minmax hne, ← i2]
    exact hid
  refine ⟨R, F, fun p t => blocksE (envOf C disps E vmap p) (rows p) t, fun p hp => (hRR p hp).1,
    fun p hp => ⟨rfl, rfl, (hRR p hp).2.2.2.1⟩, fun p hp => (hRR p hp).2.2.2.2.2.2, hmesh, fun p hp => (hRR p hp).2.2.2.2.1, himg, ?_, ?_, ?_⟩
  · intro p hp f nd hn hno
    have hlt : f < (R p).emap.length := by rw [(hRR p hp).2.2.2.2.1]; exact (List.getElem?_eq_some_iff.mp hn).1
    rw [List.getElem?_eq_getElem hlt]
    congr 1
    by_contra h
    obtain ⟨id, hid⟩ := Option.ne_none_iff_exists'.mp h
    obtain ⟨i, i1, -⟩ := ((hRR p hp).2.2.2.2.2.1 f id).mp (by rw [List.getElem?_eq_getElem hlt, hid])
    obtain ⟨nd', x, y, n1, n2, n3, n4, -⟩ := key_some hv hE hp i1
    rw [hn] at n1; cases n1
    exact hno ⟨x, y, n2, n3, n4⟩
  · intro p hp id e he
    have hmem : e ∈ allCE (envOf C disps E vmap p) (rows p) := List.mem_of_getElem? he
    -- from a fine edge
    have fine : ∀ {q f : ℕ} {i : CInfo}, q < np → keyOf (envOf C disps E vmap q) f = some i → ∀ {T T' : Finset ℕ} {c c' : ℕ},
        IsEdge q (coarseCtx (C q) (disps q)) (pr i) T c T' c' → ∃ q < np, ∃ (f x y : ℕ) (nd : ℕ × ℕ), (E q).nodes[f]? = some nd ∧ (vmap q)[nd.1]? = some (some x) ∧
          (vmap q)[nd.2]? = some (some y) ∧ IsEdge q (coarseCtx (C q) (disps q)) (min x y, max x y) T c T' c' := by
      intro q f i hq hi T T' c c' hed
      obtain ⟨nd, x, y, n1, n2, n3, n4, n5, -⟩ := key_some hv hE hq hi
      rw [n5, norm_minmax n4] at hed
      exact ⟨q, hq, f, x, y, nd, n1, n2, n3, hed⟩
    have hnew : ∃ t k, k < (C p).T.length ∧ e ∈ newB (envOf C disps E vmap p) (rows p) t k := by
      unfold allCE at hmem
      rw [List.mem_append] at hmem
      have get : ∀ t, e ∈ (blocksE (envOf C disps E vmap p) (rows p) t).flatten → ∃ k, k < (C p).T.length ∧ e ∈ newB (envOf C disps E vmap p) (rows p) t k := by
        intro t h
        obtain ⟨b, hb, heb⟩ := List.mem_flatten.mp h
        unfold blocksE at hb
        obtain ⟨k, hk, rfl⟩ := List.mem_map.mp hb
        exact ⟨k, List.mem_range.mp hk, heb⟩
      rcases hmem with h | h
      · exact ⟨true, get true h⟩
      · exact ⟨false, get false h⟩
    obtain ⟨t, k, hk, hin⟩ := hnew
    rcases (mem_newB (cnt_ok hv hE hp) (rows_ok hv hE hR hp) hk).mp hin with ⟨f, i, i1, rfl, -⟩ | ⟨c, c1, -, rfl⟩
    · obtain ⟨-, -, -, -, -, -, -, -, T, c, T', c', hci⟩ := key_some hv hE hp i1
      exact ⟨T, c, T', c', ⟨hci.v0, hci.v1⟩, fine hp i1 ⟨hci.v0, hci.v1⟩⟩
    · have hd := List.getElem?_eq_getElem hk
      have hrp : (rows p)[k]? = some ((rows p).getD k []) := rows_get (cnt_ok hv hE hp) (rows_ok hv hE hR hp) hk
      obtain ⟨x, y, u, u', U, U', hne, hx, hy, hn, hUU⟩ := row_entry hv hE hR hp hd hrp c1
      rw [(prT_name hv (E := E) hp hx hy hne hn).1]
      obtain ⟨row, r1, -, r3⟩ := (hR p hp).2 k _ hd
      rw [hrp] at r1; cases r1
      obtain ⟨q, hq, l, e', e1, e2, z, hz, -, hnz⟩ := (r3 c).mp c1
      obtain ⟨-, k1, -⟩ := firsts_mem _ hz
      obtain ⟨-, -, -, -, -, -, -, -, T, v, T', v', hci⟩ := key_some hv hE hq k1
      have n2 := (ci_name hv (E := E) hq hci).2
      rw [hnz] at n2
      have hlt := keyOf_cv k1
      have hnorm : norm (z.2.cv0, z.2.cv1) = pr z.2 := by unfold norm pr; rw [if_pos hlt]
      rcases isName_unique hv.mesh hn n2 with ⟨rfl, rfl, rfl, rfl⟩ | ⟨rfl, rfl, rfl, rfl⟩
      · obtain ⟨A, a, A', a', a1, a2⟩ := norm_copies hv hp hq hx hy hci.v0 hci.v1
        rw [hnorm] at a2
        exact ⟨A, a, A', a', a1, fine hq k1 a2⟩
      · obtain ⟨A, a, A', a', a1, a2⟩ := norm_copies hv hp hq hx hy hci.v1 hci.v0
        rw [norm_swap (by omega : z.2.cv0 ≠ z.2.cv1), hnorm] at a2
        exact ⟨A, a, A', a', a1, fine hq k1 a2⟩
  · intro q hq f x y nd T T' c c' hn hx hy hne hed p hpT
    obtain ⟨id, -, hid⟩ := himg q hq f x y nd hn hx hy hne
    obtain ⟨t, k, j, b, hb, hj, hnum⟩ := node_index hmesh hq (List.getElem?_eq_some_iff.mp hid).1
    have hat := node_at hmesh hq hb hj
    rw [← hnum, hid, List.getElem?_eq_getElem hj] at hat
    have hbj : b[j] = (min x y, max x y) := (Option.some.inj hat).symm
    obtain ⟨d, hd⟩ := blk_cls hmesh hq hb
    obtain ⟨-, S, r, S', s, s1, s2, -⟩ := hmesh.ends q hq t k b d hb hd _ (List.getElem_mem hj)
    rw [hbj] at s1
    obtain ⟨rfl, rfl, rfl, rfl⟩ := isEdge_unique hv.mesh hq s1 hed
    have hpm : p ∈ members q d := by rw [← s2]; exact hpT
    have hpl : p < np := (vert_partner hv.mesh hq hed.1 (Finset.mem_inter.mp hpT).1).1
    obtain ⟨l, e, he, hle⟩ : ∃ (l : ℕ) (e : List ℕ), (C p).T[l]? = some e ∧ members p e = members q d := by
      obtain ⟨x1, hx1⟩ := (vert_partner hv.mesh hq hed.1 (Finset.mem_inter.mp hpT).1).2
      obtain ⟨x2, hx2⟩ := (vert_partner hv.mesh hq hed.2 (Finset.mem_inter.mp hpT).2).2
      obtain ⟨k1, -, -, d1, a1, a2, -⟩ := hx1
      obtain ⟨k2, -, -, d2, b1, b2, -⟩ := hx2
      obtain ⟨m, hm, hmm⟩ := hv.mesh.inter p hpl d1 (List.mem_of_getElem? a1) d2 (List.mem_of_getElem? b1)
      obtain ⟨l, hl⟩ := List.mem_iff_getElem?.mp hm
      exact ⟨l, m, hl, by rw [hmm, a2, b2, s2]⟩
    obtain ⟨b', hb'⟩ := blk_get hmesh hpl t (k := l) (List.getElem?_eq_some_iff.mp he).1
    have hF := hmesh.copies q hq p hpl t k l b b' d e hb hb' hd he hle.symm
    rw [List.forall₂_iff_get] at hF
    have hj' : j < b'.length := by rw [← hF.1]; exact hj
    obtain ⟨S1, r1, S2, r2, g1, g2⟩ := hF.2 j hj hj'
    rw [List.get_eq_getElem] at g1
    replace g1 : IsEdge q (coarseCtx (C q) (disps q)) b[j] S1 r1 S2 r2 := g1
    rw [hbj] at g1
    obtain ⟨rfl, rfl, rfl, rfl⟩ := isEdge_unique hv.mesh hq g1 s1
    have hat' := node_at hmesh hpl hb' hj'
    rw [List.getElem?_eq_getElem hj'] at hat'
    exact ⟨_, List.mem_of_getElem? hat', g2⟩

/-- **C76 (first part).** The first two rounds do not leave their arrays. -/
theorem mapEdges_tent : ∃ (cnt : ℕ → Cnts) (tab : ℕ → List (List CNode)), ∀ p < np, tentCE (envOf C disps E vmap p) = some (cnt p, tab p) := by
  have key : ∀ p, ∃ c t, p < np → tentCE (envOf C disps E vmap p) = some (c, t) := by
    intro p
    by_cases hp : p < np
    · obtain ⟨c, t, h1, -⟩ := tentCE_spec (cnt_ok hv hE hp)
      exact ⟨c, t, fun _ => h1⟩
    · exact ⟨⟨[], [], []⟩, [], fun h => absurd h hp⟩
  choose c t h using key
  exact ⟨c, t, h⟩

/-- **C76.** `MapEdges`, for every schedule of the messages: it ends, does not block, leaves no message, stays in its arrays, and its result are the edges of
the coarse mesh and the map of the edges. -/
theorem mapEdges_correct {cnt : ℕ → Cnts} {tab : ℕ → List (List CNode)} (ht : ∀ p < np, tentCE (envOf C disps E vmap p) = some (cnt p, tab p))
    {n : ℕ} {s : St (Loc CNode CNode) (Msg CNode CNode)} (hr : DReach np (ceProg np C tab) (fun _ => {}) n s) :
    n ≤ 16 * np ∧ (¬ DFinal np (ceProg np C tab) s → ∃ t, DStep np (ceProg np C tab) s t) ∧
    (DFinal np (ceProg np C tab) s → (∀ i, ∀ p < np, ∀ q < np, s.chan i p q = none) ∧
      ∃ R F B', (∀ p < np, afterCE (envOf C disps E vmap p) (cnt p) (s.vec p).out = some (R p)) ∧ CoarseEdges np C disps E vmap R F B') := by
  have hR := rows_of_tables hv.fine.tabs
  have htab : ∀ p < np, (tab p).length = (C p).T.length := by
    intro p hp
    obtain ⟨c, t, h1, -, -, -, h5, -⟩ := tentCE_spec (cnt_ok hv hE hp)
    rw [ht p hp] at h1; cases h1
    exact h5
  unfold ceProg at hr ⊢
  refine ⟨reduceTable_terminates hR _ _ htab hr, reduceTable_no_deadlock hR _ _ htab hr, fun hf => ?_⟩
  obtain ⟨h1, h2⟩ := reduceTable_correct hR _ _ htab hr hf
  refine ⟨h2, ?_⟩
  obtain ⟨rows, r1, r2⟩ := merged_ce hv hE ht (out := fun p => (s.vec p).out) fun p hp => (h1 p hp).2
  obtain ⟨R, F, B', f1, f2⟩ := finish_ce hv hE ht r2
  refine ⟨R, F, B', fun p hp => ?_, f2⟩
  unfold afterCE
  rw [r1 p hp, Option.bind_some, f1 p hp]

end

end NgsAMG.CMap
