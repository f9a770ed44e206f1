import Verif.Props.BTM7

/-! C72: the edges of the distributed mesh: numbering and queries. -/

namespace NgsAMG.BTM

open NgsAMG.EQC NgsAMG.RedTab NgsAMG.Exch

/-- specification of the edges `E` of process `p`. The edges are all edges given on some process whose end points `p` has, each of them
once, the end points in ascending order. `sort` gives the number of a given edge. The queries return the class of the edge (the processes
that have both end points) and its number within the class, and these give back the number; numbers of edges within a class come before those
of edges between classes -/
structure EdgeMesh (np : ℕ) (C : ℕ → Ctx) (edges : ℕ → List (ℕ × ℕ)) (p : ℕ) (E : Edges) : Prop where
  nodes : ∃ L : List (ℕ × ℕ), E.nodes = L.map some ∧ L.Nodup ∧ ∀ e, e ∈ L ↔ GivenAnywhere np C edges p e
  ends : ∀ e, some e ∈ E.nodes → e.1 < e.2 ∧ e.2 < (C p).nv
  sort : ∀ (i : ℕ) (e : ℕ × ℕ), (edges p)[i]? = some e → ∃ n, E.sort[i]? = some n ∧ E.nodes[n]? = some (some e)
  query : ∀ (n : ℕ) (e : ℕ × ℕ), E.nodes[n]? = some (some e) → ∃ k d a S r S' s, eqcOf E.dE E.dC n = some k ∧ toEQC E.dE E.dC n = some a ∧
    (C p).T[k]? = some d ∧ IsEdge p (C p) e S r S' s ∧ members p d = S ∩ S' ∧ (n < E.dE.getLastD 0 ↔ S = S') ∧
    (if n < E.dE.getLastD 0 then eFromEQC E.dE a k else cFromEQC E.dE E.dC a k) = some n

/-- the blocks behind a mesh -/
structure Built (np : ℕ) (C : ℕ → Ctx) (edges : ℕ → List (ℕ × ℕ)) (items : ℕ → List Item) (p : ℕ) (ex : List (List CNode)) (E : Edges) : Prop where
  rows : ExRows np C edges p ex
  dE : E.dE = (List.range ((C p).T.length + 1)).map (off (blk (items p) ex (C p) true))
  dC : E.dC = (List.range ((C p).T.length + 1)).map (off (blk (items p) ex (C p) false))
  nodes : E.nodes = ((blk (items p) ex (C p) true).flatten ++ (blk (items p) ex (C p) false).flatten).map some
  len : E.sort.length = (edges p).length
  sort : ∀ (i : ℕ) (e : ℕ × ℕ), (edges p)[i]? = some e → ∃ n, E.sort[i]? = some n ∧ E.nodes[n]? = some (some e)

section
variable {np : ℕ} {C : ℕ → Ctx} (hM : Mesh np C) {edges : ℕ → List (ℕ × ℕ)} (hG : ∀ p < np, Given (C p) (edges p))
  {items : ℕ → List Item} (hI : ∀ p < np, (edges p).mapM (classify (C p)) = some (items p))

include hM hG hI in
theorem built {p : ℕ} (hp : p < np) (hne : (C p).T ≠ []) {out : List (Option (List CNode))}
    (hout : Reduced np (fun p => (C p).T) (fun p k => members p ((C p).T.getD k [])) (fun p => tent (C p).T.length (items p))
      (fun _ _ ins => (mergeBy smaller ins).getD []) p out) :
    ∃ ex E, afterReduce (C p) (items p) out = some E ∧ Built np C edges items p ex E := by
  obtain ⟨ex, x1, x2, -, x4⟩ := ex_row hM hG hI hp hout
  have hex : ExRows np C edges p ex := ⟨x2, x4⟩
  have hO := rowsOK hM hG hI hp hne hex
  obtain ⟨E, e1, e2, e3, e4, e5, e6⟩ := finish_spec hO
  have hok := items_ok hI hp
  refine ⟨ex, E, ?_, hex, by simpa [blk] using e2, by simpa [blk] using e3, ?_, by rw [e5, ← hok.edge, List.length_map], ?_⟩
  · unfold afterReduce
    rw [x1, Option.bind_some, e1]
  · rw [e4]; rfl
  · intro i e hi
    rw [← hok.edge, List.getElem?_map] at hi
    obtain ⟨it, hit, rfl⟩ := Option.map_eq_some_iff.mp hi
    obtain ⟨n, n1, n2⟩ := e6 i it hit
    refine ⟨n, n1, ?_⟩
    rw [e4, List.getElem?_map, n2]; rfl

/-- the number of the edge `j` of the block `k` -/
def num (B B' : List (List (ℕ × ℕ))) (t : Bool) (k j : ℕ) : ℕ := if t then off B k + j else B.flatten.length + off B' k + j

variable {p : ℕ} (hp : p < np) (hne : (C p).T ≠ []) {ex : List (List CNode)} {E : Edges} (hB : Built np C edges items p ex E)

include hM hG hI hp hne hB in
theorem built_offs (t : Bool) : Offsets ((List.range ((C p).T.length + 1)).map (off (blk (items p) ex (C p) t))) ∧
    (∀ k ≤ (C p).T.length, ((List.range ((C p).T.length + 1)).map (off (blk (items p) ex (C p) t)))[k]? = some (off (blk (items p) ex (C p) t) k)) ∧
    ((List.range ((C p).T.length + 1)).map (off (blk (items p) ex (C p) t))).getLastD 0 = (blk (items p) ex (C p) t).flatten.length := by
  have hget : ∀ k ≤ (C p).T.length, ((List.range ((C p).T.length + 1)).map (off (blk (items p) ex (C p) t)))[k]? =
      some (off (blk (items p) ex (C p) t) k) := by
    intro k hk
    rw [List.getElem?_map, List.getElem?_range (by omega)]; rfl
  refine ⟨?_, hget, ?_⟩
  · unfold Offsets
    rw [List.pairwise_map]
    exact List.pairwise_lt_range.imp fun h => off_le _ h.le
  · rw [getLastD_of_get (n := (C p).T.length) (by simp) (hget _ le_rfl), ← blk_length hM hG hI hp hne hB.rows t, off_all]

include hM hG hI hp hne hB in
/-- the queries at the number of the edge `j` of the block `k` -/
theorem built_query {t : Bool} {k j : ℕ} {b : List (ℕ × ℕ)} (hb : (blk (items p) ex (C p) t)[k]? = some b) (hj : j < b.length) :
    E.nodes[num (blk (items p) ex (C p) true) (blk (items p) ex (C p) false) t k j]? = some b[j]? ∧
    eqcOf E.dE E.dC (num (blk (items p) ex (C p) true) (blk (items p) ex (C p) false) t k j) = some k ∧
    toEQC E.dE E.dC (num (blk (items p) ex (C p) true) (blk (items p) ex (C p) false) t k j) = some j ∧
    (num (blk (items p) ex (C p) true) (blk (items p) ex (C p) false) t k j < E.dE.getLastD 0 ↔ t = true) ∧
    (if num (blk (items p) ex (C p) true) (blk (items p) ex (C p) false) t k j < E.dE.getLastD 0 then eFromEQC E.dE j k
      else cFromEQC E.dE E.dC j k) = some (num (blk (items p) ex (C p) true) (blk (items p) ex (C p) false) t k j) := by
  obtain ⟨o1, o2, o3⟩ := built_offs hM hG hI hp hne hB true
  obtain ⟨c1, c2, c3⟩ := built_offs hM hG hI hp hne hB false
  have hfl := flatten_get _ hb hj
  have hkl : k < (C p).T.length := by
    rw [← blk_length hM hG hI hp hne hB.rows t]; exact (List.getElem?_eq_some_iff.mp hb).1
  have hs := off_succ _ hb
  rw [hB.dE, hB.dC, hB.nodes, o3]
  have hlt : off (blk (items p) ex (C p) t) k + j < (blk (items p) ex (C p) t).flatten.length := by
    rw [List.getElem?_eq_getElem hj] at hfl
    exact (List.getElem?_eq_some_iff.mp hfl).1
  cases t
  · -- between classes
    simp only [num, Bool.false_eq_true, if_false]
    have hn : ¬ (blk (items p) ex (C p) true).flatten.length + off (blk (items p) ex (C p) false) k + j <
        (blk (items p) ex (C p) true).flatten.length := by omega
    have hq : eqcOf ((List.range ((C p).T.length + 1)).map (off (blk (items p) ex (C p) true)))
        ((List.range ((C p).T.length + 1)).map (off (blk (items p) ex (C p) false)))
        ((blk (items p) ex (C p) true).flatten.length + off (blk (items p) ex (C p) false) k + j) = some k := by
      unfold eqcOf
      rw [o3, if_neg hn]
      exact eqcOfE_eq c1 (c2 k (by omega)) (c2 (k + 1) (by omega)) (by omega) (by omega)
    refine ⟨?_, hq, ?_, ⟨fun h => absurd h hn, fun h => absurd h (by decide)⟩, ?_⟩
    · rw [List.getElem?_map, List.getElem?_append_right (by omega)]
      rw [show (blk (items p) ex (C p) true).flatten.length + off (blk (items p) ex (C p) false) k + j -
        (blk (items p) ex (C p) true).flatten.length = off (blk (items p) ex (C p) false) k + j by omega, hfl, List.getElem?_eq_getElem hj]
      rfl
    · unfold toEQC
      rw [hq, Option.bind_some, o3, if_neg hn, c2 k (by omega)]
      simp only [Option.map_some, Option.some.injEq]
      omega
    · rw [if_neg hn]
      unfold cFromEQC
      rw [c2 k (by omega), o3, Option.map_some]
      congr 1; omega
  · simp only [num, if_true]
    have hq : eqcOf ((List.range ((C p).T.length + 1)).map (off (blk (items p) ex (C p) true)))
        ((List.range ((C p).T.length + 1)).map (off (blk (items p) ex (C p) false)))
        (off (blk (items p) ex (C p) true) k + j) = some k := by
      unfold eqcOf
      rw [o3, if_pos hlt]
      exact eqcOfE_eq o1 (o2 k (by omega)) (o2 (k + 1) (by omega)) (by omega) (by omega)
    refine ⟨?_, hq, ?_, ⟨fun _ => trivial, fun _ => hlt⟩, ?_⟩
    · rw [List.getElem?_map, List.getElem?_append_left hlt, hfl, List.getElem?_eq_getElem hj]
      rfl
    · unfold toEQC
      rw [hq, Option.bind_some, o3, if_pos hlt, o2 k (by omega)]
      simp only [Option.map_some, Option.some.injEq]
      omega
    · rw [if_pos hlt]
      unfold eFromEQC
      rw [o2 k (by omega), Option.map_some]
      congr 1; omega

include hM hG hI hp hne hB in
/-- every edge is in a block -/
theorem built_index {n : ℕ} {e : ℕ × ℕ} (hn : E.nodes[n]? = some (some e)) : ∃ t k j b d, (C p).T[k]? = some d ∧
    (blk (items p) ex (C p) t)[k]? = some b ∧ b[j]? = some e ∧
    n = num (blk (items p) ex (C p) true) (blk (items p) ex (C p) false) t k j := by
  rw [hB.nodes] at hn
  have hl := (List.getElem?_eq_some_iff.mp hn).1
  rw [List.length_map, List.length_append] at hl
  have main : ∃ t k j b, (blk (items p) ex (C p) t)[k]? = some b ∧ j < b.length ∧
      n = num (blk (items p) ex (C p) true) (blk (items p) ex (C p) false) t k j := by
    by_cases h : n < (blk (items p) ex (C p) true).flatten.length
    · obtain ⟨k, j, b, b1, b2, b3⟩ := flatten_index _ h
      exact ⟨true, k, j, b, b1, b2, by simpa [num] using b3⟩
    · obtain ⟨k, j, b, b1, b2, b3⟩ := flatten_index (blk (items p) ex (C p) false)
        (i := n - (blk (items p) ex (C p) true).flatten.length) (by omega)
      exact ⟨false, k, j, b, b1, b2, by simp only [num, Bool.false_eq_true, if_false]; omega⟩
  obtain ⟨t, k, j, b, b1, b2, rfl⟩ := main
  have hkl : k < (C p).T.length := by
    rw [← blk_length hM hG hI hp hne hB.rows t]; exact (List.getElem?_eq_some_iff.mp b1).1
  refine ⟨t, k, j, b, _, List.getElem?_eq_getElem hkl, b1, ?_, rfl⟩
  have := (built_query hM hG hI hp hne hB b1 b2).1
  rw [hB.nodes] at this
  rw [this] at hn
  exact Option.some.inj hn

include hM hG hI hp hne hB in
theorem built_mesh : EdgeMesh np C edges p E := by
  -- the block of an edge is determined
  have hblk : ∀ (t : Bool) (k : ℕ) (b : List (ℕ × ℕ)), (blk (items p) ex (C p) t)[k]? = some b → ∃ d, (C p).T[k]? = some d ∧
      IsBlock np C edges p (members p d) t b := by
    intro t k b hb
    have hkl : k < (C p).T.length := by
      rw [← blk_length hM hG hI hp hne hB.rows t]; exact (List.getElem?_eq_some_iff.mp hb).1
    obtain ⟨b', b1, b2⟩ := blocks hM hG hI hp hB.rows (List.getElem?_eq_getElem hkl) t
    rw [hb] at b1; cases b1
    exact ⟨_, List.getElem?_eq_getElem hkl, b2⟩
  have hsame : ∀ (t t' : Bool) (k k' : ℕ) (b b' : List (ℕ × ℕ)) (e : ℕ × ℕ), (blk (items p) ex (C p) t)[k]? = some b →
      (blk (items p) ex (C p) t')[k']? = some b' → e ∈ b → e ∈ b' → t = t' ∧ k = k' := by
    intro t t' k k' b b' e hb hb' he he'
    obtain ⟨d, d1, -, d2⟩ := hblk t k b hb
    obtain ⟨d', e1, -, e2⟩ := hblk t' k' b' hb'
    obtain ⟨-, S, r, S', s, f1, f2, f3⟩ := (d2 e).mp he
    obtain ⟨-, U, r', U', s', g1, g2, g3⟩ := (e2 e).mp he'
    obtain ⟨u1, -, u3, -⟩ := isEdge_unique hM hp f1 g1
    subst u1 u3
    exact ⟨by rw [Bool.eq_iff_iff, f3, g3], cls_eq (hM.tabs.ok p hp) d1 e1 (f2.symm.trans g2)⟩
  have hmemL : ∀ e, e ∈ (blk (items p) ex (C p) true).flatten ++ (blk (items p) ex (C p) false).flatten ↔
      ∃ (t : Bool) (k : ℕ) (b : List (ℕ × ℕ)), (blk (items p) ex (C p) t)[k]? = some b ∧ e ∈ b := by
    intro e
    rw [List.mem_append, List.mem_flatten, List.mem_flatten]
    constructor
    · rintro (⟨b, h1, h2⟩ | ⟨b, h1, h2⟩)
      · obtain ⟨k, hk⟩ := List.mem_iff_getElem?.mp h1
        exact ⟨true, k, b, hk, h2⟩
      · obtain ⟨k, hk⟩ := List.mem_iff_getElem?.mp h1
        exact ⟨false, k, b, hk, h2⟩
    · rintro ⟨t, k, b, h1, h2⟩
      cases t
      · exact Or.inr ⟨b, List.mem_of_getElem? h1, h2⟩
      · exact Or.inl ⟨b, List.mem_of_getElem? h1, h2⟩
  have hmem : ∀ e, e ∈ (blk (items p) ex (C p) true).flatten ++ (blk (items p) ex (C p) false).flatten ↔ GivenAnywhere np C edges p e := by
    intro e
    rw [hmemL]
    constructor
    · rintro ⟨t, k, b, h1, h2⟩
      obtain ⟨d, d1, -, d2⟩ := hblk t k b h1
      exact ((d2 e).mp h2).1
    · intro h
      obtain ⟨q, hq, g, hg, S, r, S', s, h1, h2⟩ := id h
      -- the class of the edge
      obtain ⟨it, c, -, -, -, i4, i5, -⟩ := classify_spec hM hp h2
      obtain ⟨b, b1, -, b2⟩ := blocks hM hG hI hp hB.rows i4 (decide (S = S'))
      exact ⟨_, _, b, b1, (b2 e).mpr ⟨h, S, r, S', s, h2, i5.symm, by simp⟩⟩
  have hflat : ∀ t, (blk (items p) ex (C p) t).flatten.Nodup := by
    intro t
    rw [List.nodup_flatten]
    refine ⟨?_, ?_⟩
    · intro l hl
      obtain ⟨k, hk⟩ := List.mem_iff_getElem?.mp hl
      exact (hblk t k l hk).choose_spec.2.1
    · rw [List.pairwise_iff_getElem]
      intro i j hi hj hij
      rw [List.disjoint_left]
      intro e he he'
      have := (hsame t t i j _ _ e (List.getElem?_eq_getElem hi) (List.getElem?_eq_getElem hj) he he').2
      omega
  refine ⟨⟨_, hB.nodes, ?_, hmem⟩, ?_, hB.sort, ?_⟩
  · rw [List.nodup_append]
    refine ⟨hflat true, hflat false, ?_⟩
    rintro e he _ he' rfl
    obtain ⟨b, h1, h2⟩ := List.mem_flatten.mp he
    obtain ⟨b', h1', h2'⟩ := List.mem_flatten.mp he'
    obtain ⟨k, hk⟩ := List.mem_iff_getElem?.mp h1
    obtain ⟨k', hk'⟩ := List.mem_iff_getElem?.mp h1'
    have := (hsame true false k k' b b' e hk hk' h2 h2').1
    cases this
  · intro e he
    rw [hB.nodes] at he
    have he : e ∈ (blk (items p) ex (C p) true).flatten ++ (blk (items p) ex (C p) false).flatten := by simpa using he
    exact given_lt hM hG hp ((hmem e).mp he)
  · intro n e hn
    obtain ⟨t, k, j, b, d, h1, h2, h3, rfl⟩ := built_index hM hG hI hp hne hB hn
    have hj := (List.getElem?_eq_some_iff.mp h3).1
    obtain ⟨q1, q2, q3, q4, q5⟩ := built_query hM hG hI hp hne hB h2 hj
    obtain ⟨d', d1, -, d2⟩ := hblk t k b h2
    rw [h1] at d1; cases d1
    obtain ⟨-, S, r, S', s, f1, f2, f3⟩ := (d2 e).mp (List.mem_of_getElem? h3)
    exact ⟨k, d, j, S, r, S', s, q2, q3, h1, f1, f2.symm, by rw [q4, f3], q5⟩

end

end NgsAMG.BTM
