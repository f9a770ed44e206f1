import Verif.Props.SPW
import Mathlib.Data.List.Nodup
import Mathlib.Data.List.Pairwise

/-!
# Properties of the pairwise aggregation, part 2: coarse graphs and concatenation of rounds
-/

namespace NgsAMG.SPW

variable {K : Type}

/-- table `t` lists, for every coarse vertex, exactly the vertices below `n` that are mapped to it, once each -/
def TableOK (n nc : ℕ) (vmap : ℕ → Option ℕ) (t : List (List ℕ)) : Prop :=
  t.length = nc ∧ ∀ c < nc, (t.getD c []).Nodup ∧ ∀ v, v ∈ t.getD c [] ↔ v < n ∧ vmap v = some c

theorem getD_map_range {α : Type} (f : ℕ → α) (n c : ℕ) (d : α) (h : c < n) :
    ((List.range n).map f).getD c d = f c := by
  simp [List.getD_eq_getElem?_getD, h]

theorem c2fTable_ok (n nc : ℕ) (vmap : ℕ → Option ℕ) : TableOK n nc vmap (c2fTable n nc vmap) := by
  unfold c2fTable
  refine ⟨by simp, ?_⟩
  intro c hc
  rw [getD_map_range _ _ _ _ hc]
  refine ⟨List.nodup_range.filter _, ?_⟩
  intro v
  simp

/-! ### the coarse graph -/

theorem mem_coarseCols (fadj : ℕ → List ℕ) (vmap : ℕ → Option ℕ) (c : ℕ) (fv : List ℕ) (d : ℕ) :
    d ∈ coarseCols fadj vmap c fv ↔ c < d ∧ ∃ v ∈ fv, ∃ w ∈ fadj v, vmap w = some d := by
  have hc : ∀ v, (d ∈ (fadj v).filterMap fun w => (vmap w).filter fun cJ => decide (c < cJ)) ↔
      c < d ∧ ∃ w ∈ fadj v, vmap w = some d := by
    intro v
    simp only [List.mem_filterMap, Option.filter_eq_some_iff, decide_eq_true_eq]
    constructor
    · rintro ⟨w, h1, h2, h3⟩; exact ⟨h3, w, h1, h2⟩
    · rintro ⟨h3, w, h1, h2⟩; exact ⟨w, h1, h2, h3⟩
  unfold coarseCols
  dsimp only
  split
  · rename_i h
    obtain ⟨v, rfl⟩ := List.length_eq_one_iff.mp h
    rw [List.mem_insertionSort, List.headD_cons, hc]
    simp
  · rw [List.mem_insertionSort, List.mem_dedup, List.mem_flatMap]
    constructor
    · rintro ⟨v, hv, h⟩
      obtain ⟨h1, h2⟩ := (hc v).mp h
      exact ⟨h1, v, hv, h2⟩
    · rintro ⟨h1, v, hv, h2⟩
      exact ⟨v, hv, (hc v).mpr ⟨h1, h2⟩⟩

theorem mem_coarseEdges (fadj : ℕ → List ℕ) (vmap : ℕ → Option ℕ) (t : List (List ℕ)) (c d : ℕ) :
    (c, d) ∈ coarseEdges fadj vmap t ↔ c < t.length ∧ c < d ∧ ∃ v ∈ t.getD c [], ∃ w ∈ fadj v, vmap w = some d := by
  unfold coarseEdges
  simp only [List.mem_flatMap, List.mem_range, List.mem_map, Prod.mk.injEq]
  constructor
  · rintro ⟨c', hc', d', hd', rfl, rfl⟩
    exact ⟨hc', (mem_coarseCols ..).mp hd'⟩
  · rintro ⟨h1, h2⟩
    exact ⟨c, h1, d, (mem_coarseCols ..).mpr h2, rfl, rfl⟩

theorem mem_econRow (edges : List (ℕ × ℕ)) (u w i : ℕ) :
    (w, i) ∈ econRow edges u ↔ edges[i]? = some (u, w) ∨ (edges[i]? = some (w, u) ∧ w ≠ u) := by
  unfold econRow
  simp only [List.mem_filterMap]
  constructor
  · rintro ⟨⟨⟨a, b⟩, j⟩, hm, h⟩
    rw [List.mem_zipIdx_iff_getElem?] at hm
    dsimp only at h hm
    split at h
    · rename_i e
      simp only [Option.some.injEq, Prod.mk.injEq] at h
      obtain ⟨rfl, rfl⟩ := h
      subst e
      exact Or.inl hm
    · split at h
      · rename_i e1 e2
        simp only [Option.some.injEq, Prod.mk.injEq] at h
        obtain ⟨rfl, rfl⟩ := h
        subst e2
        exact Or.inr ⟨hm, e1⟩
      · cases h
  · rintro (h | ⟨h, hne⟩)
    · exact ⟨((u, w), i), List.mem_zipIdx_iff_getElem?.mpr h, by simp⟩
    · exact ⟨((w, u), i), List.mem_zipIdx_iff_getElem?.mpr h, by simp [hne]⟩

theorem mem_econRow_fst (edges : List (ℕ × ℕ)) (u w : ℕ) :
    w ∈ (econRow edges u).map Prod.fst ↔ (u, w) ∈ edges ∨ (w, u) ∈ edges := by
  simp only [List.mem_map, Prod.exists, exists_and_right, exists_eq_right]
  constructor
  · rintro ⟨i, h⟩
    rcases (mem_econRow ..).mp h with h | ⟨h, -⟩
    · exact Or.inl (List.mem_of_getElem? h)
    · exact Or.inr (List.mem_of_getElem? h)
  · intro h
    by_cases hwu : w = u
    · subst hwu
      have h' : (w, w) ∈ edges := by tauto
      obtain ⟨i, hi⟩ := List.mem_iff_getElem?.mp h'
      exact ⟨i, (mem_econRow ..).mpr (Or.inl hi)⟩
    · rcases h with h | h
      · obtain ⟨i, hi⟩ := List.mem_iff_getElem?.mp h
        exact ⟨i, (mem_econRow ..).mpr (Or.inl hi)⟩
      · obtain ⟨i, hi⟩ := List.mem_iff_getElem?.mp h
        exact ⟨i, (mem_econRow ..).mpr (Or.inr ⟨hi, hwu⟩)⟩

/-- C54: the graph of a coarse level connects two different coarse vertices iff there is a fine edge between them -/
theorem coarse_adjacency (n nc : ℕ) (fadj : ℕ → List ℕ) (hadj : ∀ v < n, ∀ w ∈ fadj v, w < n)
    (vmap : ℕ → Option ℕ) (hr : ∀ v < n, ∀ c, vmap v = some c → c < nc) (t : List (List ℕ)) (ht : TableOK n nc vmap t)
    (u w : ℕ) :
    w ∈ (econRow (coarseEdges fadj vmap t) u).map Prod.fst ↔
      u < nc ∧ w < nc ∧ u ≠ w ∧ ∃ a < n, ∃ b < n, vmap a = some u ∧ vmap b = some w ∧
        ((u < w ∧ b ∈ fadj a) ∨ (w < u ∧ a ∈ fadj b)) := by
  rw [mem_econRow_fst, mem_coarseEdges, mem_coarseEdges]
  constructor
  · rintro (⟨h1, h2, v, hv, x, hx, e⟩ | ⟨h1, h2, v, hv, x, hx, e⟩)
    · rw [ht.1] at h1
      obtain ⟨hvn, ev⟩ := ((ht.2 u h1).2 v).mp hv
      have hxn := hadj v hvn x hx
      exact ⟨h1, hr x hxn w e, by omega, v, hvn, x, hxn, ev, e, Or.inl ⟨h2, hx⟩⟩
    · rw [ht.1] at h1
      obtain ⟨hvn, ev⟩ := ((ht.2 w h1).2 v).mp hv
      have hxn := hadj v hvn x hx
      exact ⟨hr x hxn u e, h1, by omega, x, hxn, v, hvn, e, ev, Or.inr ⟨h2, hx⟩⟩
  · rintro ⟨hu, hw, -, a, ha, b, hb, ea, eb, h | h⟩
    · left
      exact ⟨by rw [ht.1]; exact hu, h.1, a, ((ht.2 u hu).2 a).mpr ⟨ha, ea⟩, b, h.2, eb⟩
    · right
      exact ⟨by rw [ht.1]; exact hw, h.1, b, ((ht.2 w hw).2 b).mpr ⟨hb, eb⟩, a, h.2, ea⟩

/-- C54: an entry of the edge map is a coarse edge between the coarse vertices of the two ends, and exactly the edges inside
an aggregate or at a dropped vertex have no coarse edge. `pos` returns the number stored with an entry of the wanted
column. -/
theorem edgeMap_spec (n nc : ℕ) (fadj : ℕ → List ℕ) (hsym : ∀ a b, b ∈ fadj a → a ∈ fadj b) (vmap : ℕ → Option ℕ)
    (hr : ∀ v < n, ∀ c, vmap v = some c → c < nc) (t : List (List ℕ)) (ht : TableOK n nc vmap t)
    (pos : List (ℕ × ℕ) → ℕ → ℕ) (hpos : ∀ row c, (∃ i, (c, i) ∈ row) → (c, pos row c) ∈ row) (a b : ℕ) (ha : a < n)
    (hb : b < n) (hab : b ∈ fadj a) :
    (edgeMap pos (coarseEdges fadj vmap t) vmap (a, b) = none ↔ vmap a = none ∨ vmap b = none ∨ vmap a = vmap b) ∧
    ∀ e, edgeMap pos (coarseEdges fadj vmap t) vmap (a, b) = some e →
      ∃ c d, vmap a = some c ∧ vmap b = some d ∧
        ((coarseEdges fadj vmap t)[e]? = some (c, d) ∨ (coarseEdges fadj vmap t)[e]? = some (d, c)) := by
  unfold edgeMap
  cases ea : vmap a with
  | none => simp
  | some c =>
    cases eb : vmap b with
    | none => simp
    | some d =>
      simp only
      by_cases hcd : c = d
      · simp [hcd]
      · rw [if_pos hcd]
        refine ⟨by simp [hcd], ?_⟩
        intro e he
        injection he with he
        refine ⟨c, d, rfl, rfl, ?_⟩
        have hmem : (c, d) ∈ coarseEdges fadj vmap t ∨ (d, c) ∈ coarseEdges fadj vmap t := by
          rw [mem_coarseEdges, mem_coarseEdges, ht.1]
          rcases Nat.lt_or_gt_of_ne hcd with h | h
          · exact Or.inl ⟨hr a ha c ea, h, a, ((ht.2 c (hr a ha c ea)).2 a).mpr ⟨ha, ea⟩, b, hab, eb⟩
          · exact Or.inr ⟨hr b hb d eb, h, b, ((ht.2 d (hr b hb d eb)).2 b).mpr ⟨hb, eb⟩, a, hsym a b hab, ea⟩
        have h1 : ∃ i, (d, i) ∈ econRow (coarseEdges fadj vmap t) c := by
          have := (mem_econRow_fst (coarseEdges fadj vmap t) c d).mpr hmem
          simpa using this
        have h2 := (mem_econRow ..).mp (hpos _ _ h1)
        rw [he] at h2
        tauto

/-- the edge list is duplicate free as long as no one-vertex aggregate has two neighbours in the same aggregate -/
theorem coarseEdges_nodup (fadj : ℕ → List ℕ) (vmap : ℕ → Option ℕ) (t : List (List ℕ))
    (h : ∀ c, ∀ v, t.getD c [] = [v] → ((fadj v).filterMap vmap).Nodup) : (coarseEdges fadj vmap t).Nodup := by
  unfold coarseEdges
  rw [List.nodup_flatMap]
  refine ⟨?_, ?_⟩
  · intro c _
    refine List.Nodup.map (fun a b e => (Prod.mk.inj e).2) ?_
    unfold coarseCols
    dsimp only
    split
    · rename_i hl
      obtain ⟨v, hv⟩ := List.length_eq_one_iff.mp hl
      rw [hv, List.headD_cons, (List.perm_insertionSort _ _).nodup_iff]
      have := h c v hv
      have e : ((fadj v).filterMap fun w => (vmap w).filter fun cJ => decide (c < cJ)) =
          ((fadj v).filterMap vmap).filter fun cJ => decide (c < cJ) := by
        rw [List.filter_filterMap]
      rw [e]
      exact this.filter _
    · rw [(List.perm_insertionSort _ _).nodup_iff]
      exact List.nodup_dedup _
  · refine List.nodup_range.imp ?_
    intro a b hab
    simp only [Function.onFun, List.disjoint_left, List.mem_map, not_exists, not_and]
    rintro ⟨x, y⟩ ⟨d, -, e⟩ d' - e'
    simp only [Prod.mk.injEq] at e e'
    omega

/-- a triangle; vertices 1 and 2 have been paired, vertex 0 stays alone -/
def triAdj : ℕ → List ℕ
  | 0 => [1, 2] | 1 => [0, 2] | 2 => [0, 1] | _ => []

/-- vertex map of the triangle -/
def triMap : ℕ → Option ℕ
  | 0 => some 0 | 1 => some 1 | 2 => some 1 | _ => none

/-- NOT guaranteed: an edge of the coarse graph may be listed twice. A one-vertex aggregate with two neighbours in another
aggregate gets two parallel edges to it (the weight of the connection is then attached to only one of them or split). -/
theorem coarse_edge_duplicated :
    TableOK 3 2 triMap (c2fTable 3 2 triMap) ∧ ¬ (coarseEdges triAdj triMap (c2fTable 3 2 triMap)).Nodup := by
  refine ⟨c2fTable_ok 3 2 triMap, ?_⟩
  have h1 : c2fTable 3 2 triMap = [[0], [1, 2]] := by decide
  have h2 : coarseCols triAdj triMap 0 [0] = [1, 1] := by decide
  rw [h1]
  intro h
  have h3 : coarseEdges triAdj triMap [[0], [1, 2]] =
      (coarseCols triAdj triMap 0 [0]).map (fun d => (0, d)) ++ (coarseCols triAdj triMap 1 [1, 2]).map (fun d => (1, d)) := by
    simp [coarseEdges, List.range_succ]
  rw [h3, h2] at h
  simp at h

/-- with pair aggregates only, the edge list is duplicate free: e.g. a square with the pairs {0,1} and {2,3} -/
example : (coarseEdges (fun v => match v with | 0 => [1, 3] | 1 => [0, 2] | 2 => [1, 3] | 3 => [0, 2] | _ => [])
    (fun v => some (v / 2)) [[0, 1], [2, 3]]).Nodup := by
  refine coarseEdges_nodup _ _ _ ?_
  intro c v h
  match c with
  | 0 => simp at h
  | 1 => simp at h
  | c + 2 => simp at h

end NgsAMG.SPW
