import Verif.Props.MapEdges5
import Verif.Props.SProl
import Verif.Props.Traversal

/-!
# C76: distributed edges
-/

namespace NgsAMG.CMap

open NgsAMG.EQC NgsAMG.RedTab NgsAMG.Exch NgsAMG.BTM

/-- specification: the edges `E p` of the processes are a distributed set of edges. `B p t k` are the edges of the class `k` with both ends in the class
(`t = true`) or not. Every edge has two vertices of the process, is in the class of the processes that have both, and its copies on these
processes have the same place -/
structure EMesh (np : ℕ) (C : ℕ → Ctx) (E : ℕ → FEdges) (B : ℕ → Bool → List (List (ℕ × ℕ))) : Prop where
  len : ∀ p < np, ∀ t, (B p t).length = (C p).T.length
  dE : ∀ p < np, (E p).dE = (List.range ((C p).T.length + 1)).map (off (B p true))
  dC : ∀ p < np, (E p).dC = (List.range ((C p).T.length + 1)).map (off (B p false))
  nodes : ∀ p < np, (E p).nodes = (B p true).flatten ++ (B p false).flatten
  nodup : ∀ p < np, ∀ (t : Bool) (k : ℕ) (b : List (ℕ × ℕ)), (B p t)[k]? = some b → b.Nodup
  ends : ∀ p < np, ∀ (t : Bool) (k : ℕ) (b : List (ℕ × ℕ)) (d : List ℕ), (B p t)[k]? = some b → (C p).T[k]? = some d → ∀ e ∈ b, e.1 < e.2 ∧
    ∃ S r S' s, IsEdge p (C p) e S r S' s ∧ S ∩ S' = members p d ∧ (t = true ↔ S = S')
  copies : ∀ p < np, ∀ q < np, ∀ (t : Bool) (k l : ℕ) (b b' : List (ℕ × ℕ)) (d d' : List ℕ), (B p t)[k]? = some b → (B q t)[l]? = some b' →
    (C p).T[k]? = some d → (C q).T[l]? = some d' → members p d = members q d' →
    List.Forall₂ (fun e f => ∃ S r S' s, IsEdge p (C p) e S r S' s ∧ IsEdge q (C q) f S r S' s) b b'

theorem offs_list {α : Type} (B : List (List α)) {n : ℕ} (hn : B.length = n) : Offsets ((List.range (n + 1)).map (off B)) ∧
    (∀ k ≤ n, ((List.range (n + 1)).map (off B))[k]? = some (off B k)) ∧ ((List.range (n + 1)).map (off B)).getLastD 0 = B.flatten.length := by
  have hget : ∀ k ≤ n, ((List.range (n + 1)).map (off B))[k]? = some (off B k) := by
    intro k hk
    rw [List.getElem?_map, List.getElem?_range (by omega)]; rfl
  refine ⟨?_, hget, ?_⟩
  · unfold Offsets
    rw [List.pairwise_map]
    exact List.pairwise_lt_range.imp fun h => off_le _ h.le
  · rw [getLastD_of_get (n := n) (by simp) (hget _ le_rfl), ← hn, off_all]

section
variable {np : ℕ} {C : ℕ → Ctx} {E : ℕ → FEdges} {B : ℕ → Bool → List (List (ℕ × ℕ))} (hE : EMesh np C E B)
include hE

theorem blk_get {p k : ℕ} (hp : p < np) (t : Bool) (hk : k < (C p).T.length) : ∃ b, (B p t)[k]? = some b :=
  ⟨_, List.getElem?_eq_getElem (by rw [hE.len p hp]; exact hk)⟩

theorem blk_lt {p k : ℕ} {t : Bool} {b : List (ℕ × ℕ)} (hp : p < np) (hb : (B p t)[k]? = some b) : k < (C p).T.length := by
  rw [← hE.len p hp t]; exact (List.getElem?_eq_some_iff.mp hb).1

theorem blk_cls {p k : ℕ} {t : Bool} {b : List (ℕ × ℕ)} (hp : p < np) (hb : (B p t)[k]? = some b) : ∃ d, (C p).T[k]? = some d :=
  ⟨_, List.getElem?_eq_getElem (blk_lt hE hp hb)⟩

theorem eNodes_eq {p k : ℕ} {b : List (ℕ × ℕ)} (hp : p < np) (hb : (B p true)[k]? = some b) : eNodes (E p) k = List.range' (off (B p true) k) b.length := by
  have hk := blk_lt hE hp hb
  obtain ⟨-, o2, -⟩ := offs_list (B p true) (hE.len p hp true)
  unfold eNodes
  rw [hE.dE p hp, List.getD_eq_getElem?_getD, List.getD_eq_getElem?_getD, o2 k (by omega), o2 (k + 1) (by omega), Option.getD_some, Option.getD_some, off_succ _ hb,
    Nat.add_sub_cancel_left]

theorem cNodes_eq {p k : ℕ} {b : List (ℕ × ℕ)} (hp : p < np) (hb : (B p false)[k]? = some b) :
    cNodes (E p) k = List.range' ((B p true).flatten.length + off (B p false) k) b.length := by
  have hk := blk_lt hE hp hb
  obtain ⟨-, -, o3⟩ := offs_list (B p true) (hE.len p hp true)
  obtain ⟨-, o2, -⟩ := offs_list (B p false) (hE.len p hp false)
  unfold cNodes
  rw [hE.dE p hp, o3, hE.dC p hp, List.getD_eq_getElem?_getD, List.getD_eq_getElem?_getD, o2 k (by omega), o2 (k + 1) (by omega), Option.getD_some, Option.getD_some,
    off_succ _ hb, Nat.add_sub_cancel_left]

/-- the number of an edge of a block -/
theorem node_at {p k j : ℕ} {t : Bool} {b : List (ℕ × ℕ)} (hp : p < np) (hb : (B p t)[k]? = some b) (hj : j < b.length) :
    (E p).nodes[num (B p true) (B p false) t k j]? = b[j]? := by
  rw [hE.nodes p hp]
  have hf := flatten_get (B p t) hb hj
  unfold num
  cases t
  · rw [if_neg (by simp), List.getElem?_append_right (by omega), Nat.add_assoc, Nat.add_sub_cancel_left, hf]
  · rw [if_pos rfl, List.getElem?_append_left, hf]
    have : (B p true).flatten[off (B p true) k + j]? = some b[j] := by rw [hf]; exact List.getElem?_eq_getElem hj
    exact (List.getElem?_eq_some_iff.mp this).1

theorem num_lt' {p k j : ℕ} {t : Bool} {b : List (ℕ × ℕ)} (hp : p < np) (hb : (B p t)[k]? = some b) (hj : j < b.length) :
    num (B p true) (B p false) t k j < (E p).nodes.length := by
  have h := node_at hE hp hb hj
  rw [List.getElem?_eq_getElem hj] at h
  exact (List.getElem?_eq_some_iff.mp h).1

theorem node_index {p n : ℕ} (hp : p < np) (hn : n < (E p).nodes.length) : ∃ t k j b, (B p t)[k]? = some b ∧ j < b.length ∧ n = num (B p true) (B p false) t k j := by
  rw [hE.nodes p hp, List.length_append] at hn
  by_cases h : n < (B p true).flatten.length
  · obtain ⟨k, j, b, b1, b2, b3⟩ := flatten_index _ h
    exact ⟨true, k, j, b, b1, b2, by simpa [num] using b3⟩
  · obtain ⟨k, j, b, b1, b2, b3⟩ := flatten_index (B p false) (i := n - (B p true).flatten.length) (by omega)
    exact ⟨false, k, j, b, b1, b2, by unfold num; rw [if_neg (by simp)]; omega⟩

theorem mem_order {p : ℕ} (hp : p < np) {x : ℕ × ℕ} : x ∈ order (C p).T.length (E p) ↔
    ∃ t j b, (B p t)[x.1]? = some b ∧ j < b.length ∧ x.2 = num (B p true) (B p false) t x.1 j := by
  unfold order
  rw [List.mem_flatMap]
  constructor
  · rintro ⟨k, hk, hx⟩
    obtain ⟨e, he, rfl⟩ := List.mem_map.mp hx
    have hk := List.mem_range.mp hk
    obtain ⟨b, hb⟩ := blk_get hE hp true hk
    obtain ⟨b', hb'⟩ := blk_get hE hp false hk
    rw [eNodes_eq hE hp hb, cNodes_eq hE hp hb', List.mem_append, List.mem_range'_1, List.mem_range'_1] at he
    rcases he with h | h
    · exact ⟨true, e - off (B p true) k, b, hb, by omega, by unfold num; rw [if_pos rfl]; dsimp only; omega⟩
    · exact ⟨false, e - ((B p true).flatten.length + off (B p false) k), b', hb', by omega, by unfold num; rw [if_neg (by simp)]; dsimp only; omega⟩
  · rintro ⟨t, j, b, hb, hj, hx⟩
    have hk := blk_lt hE hp hb
    refine ⟨x.1, List.mem_range.mpr hk, List.mem_map.mpr ⟨x.2, ?_, rfl⟩⟩
    obtain ⟨c, hc⟩ := blk_get hE hp (!t) hk
    unfold num at hx
    cases t
    · rw [eNodes_eq hE hp hc, cNodes_eq hE hp hb, List.mem_append, List.mem_range'_1, List.mem_range'_1]
      rw [if_neg (by simp)] at hx
      right; omega
    · rw [eNodes_eq hE hp hb, cNodes_eq hE hp hc, List.mem_append, List.mem_range'_1, List.mem_range'_1]
      rw [if_pos rfl] at hx
      left; omega

theorem order_cover {p n : ℕ} (hp : p < np) (hn : n < (E p).nodes.length) : ∃ k, (k, n) ∈ order (C p).T.length (E p) := by
  obtain ⟨t, k, j, b, h1, h2, h3⟩ := node_index hE hp hn
  exact ⟨k, (mem_order hE hp).mpr ⟨t, j, b, h1, h2, h3⟩⟩

theorem order_asc {p : ℕ} (hp : p < np) : (order (C p).T.length (E p)).Pairwise fun a b => a.1 ≤ b.1 ∧ (a.1 = b.1 → a.2 < b.2) := by
  unfold order
  rw [List.pairwise_flatMap]
  constructor
  · intro k hk
    have hk := List.mem_range.mp hk
    obtain ⟨b, hb⟩ := blk_get hE hp true hk
    obtain ⟨c, hc⟩ := blk_get hE hp false hk
    rw [List.pairwise_map, eNodes_eq hE hp hb, cNodes_eq hE hp hc, List.pairwise_append]
    have hr : ∀ s n, (List.range' s n).Pairwise fun (a b : ℕ) => ((k, a).1 ≤ (k, b).1 ∧ ((k, a).1 = (k, b).1 → (k, a).2 < (k, b).2)) := by
      intro s n
      have h0 : (List.range' s n).Pairwise (· < ·) := List.pairwise_lt_range' 1
      exact h0.imp fun h => ⟨le_rfl, fun _ => h⟩
    refine ⟨hr _ _, hr _ _, ?_⟩
    intro x hx y hy
    rw [List.mem_range'_1] at hx hy
    have h1 := off_le (B p true) (show k + 1 ≤ (B p true).length by rw [hE.len p hp]; omega)
    rw [off_all, off_succ _ hb] at h1
    refine ⟨le_rfl, fun _ => ?_⟩
    show x < y
    omega
  · refine List.pairwise_lt_range.imp ?_
    intro a b hab x hx y hy
    obtain ⟨e, -, rfl⟩ := List.mem_map.mp hx
    obtain ⟨f, -, rfl⟩ := List.mem_map.mp hy
    exact ⟨hab.le, fun h => by simp only at h; omega⟩

theorem order_eqc {p : ℕ} (hp : p < np) {x : ℕ × ℕ} (hx : x ∈ order (C p).T.length (E p)) : eqcOf (E p).dE (E p).dC x.2 = some x.1 := by
  obtain ⟨t, j, b, hb, hj, hx⟩ := (mem_order hE hp).mp hx
  have hk := blk_lt hE hp hb
  obtain ⟨o1, o2, o3⟩ := offs_list (B p true) (hE.len p hp true)
  obtain ⟨c1, c2, c3⟩ := offs_list (B p false) (hE.len p hp false)
  unfold eqcOf
  rw [hE.dE p hp, hE.dC p hp, o3, hx]
  unfold num
  cases t
  · rw [if_neg (fun h : false = true => Bool.noConfusion h), if_neg (by omega)]
    refine eqcOfE_eq c1 (c2 x.1 (by omega)) (c2 (x.1 + 1) (by omega)) (by omega) ?_
    rw [off_succ _ hb]; omega
  · rw [if_pos rfl, if_pos]
    · refine eqcOfE_eq o1 (o2 x.1 (by omega)) (o2 (x.1 + 1) (by omega)) (by omega) ?_
      rw [off_succ _ hb]; omega
    · have h1 := off_le (B p true) (show x.1 + 1 ≤ (B p true).length by rw [hE.len p hp]; omega)
      rw [off_all, off_succ _ hb] at h1
      omega

/-- the class of an edge -/
theorem order_edge {p : ℕ} (hp : p < np) {x : ℕ × ℕ} (hx : x ∈ order (C p).T.length (E p)) : ∃ nd d S r S' s, (E p).nodes[x.2]? = some nd ∧ (C p).T[x.1]? = some d ∧
    nd.1 < nd.2 ∧ IsEdge p (C p) nd S r S' s ∧ S ∩ S' = members p d := by
  obtain ⟨t, j, b, hb, hj, hx⟩ := (mem_order hE hp).mp hx
  obtain ⟨d, hd⟩ := blk_cls hE hp hb
  have hn := node_at hE hp hb hj
  rw [← hx, List.getElem?_eq_getElem hj] at hn
  obtain ⟨h1, S, r, S', s, h2, h3, -⟩ := hE.ends p hp t x.1 b d hb hd b[j] (List.getElem_mem hj)
  exact ⟨_, d, S, r, S', s, hn, hd, h1, h2, h3⟩

theorem node_edge {p n : ℕ} {nd : ℕ × ℕ} (hp : p < np) (hn : (E p).nodes[n]? = some nd) : ∃ k d S r S' s, (k, n) ∈ order (C p).T.length (E p) ∧ (C p).T[k]? = some d ∧
    nd.1 < nd.2 ∧ IsEdge p (C p) nd S r S' s ∧ S ∩ S' = members p d := by
  obtain ⟨k, hk⟩ := order_cover hE hp (List.getElem?_eq_some_iff.mp hn).1
  obtain ⟨nd', d, S, r, S', s, h1, h2, h3, h4, h5⟩ := order_edge hE hp hk
  rw [hn] at h1; cases h1
  exact ⟨k, d, S, r, S', s, hk, h2, h3, h4, h5⟩

variable (hM : Mesh np C)
include hM

/-- the place of an edge is determined -/
theorem block_unique {p k k' : ℕ} {t t' : Bool} {b b' : List (ℕ × ℕ)} {e : ℕ × ℕ} (hp : p < np) (hb : (B p t)[k]? = some b) (hb' : (B p t')[k']? = some b')
    (he : e ∈ b) (he' : e ∈ b') : t = t' ∧ k = k' := by
  obtain ⟨d, hd⟩ := blk_cls hE hp hb
  obtain ⟨d', hd'⟩ := blk_cls hE hp hb'
  obtain ⟨-, S, r, S', s, h2, h3, h4⟩ := hE.ends p hp t k b d hb hd e he
  obtain ⟨-, U, u, U', v, g2, g3, g4⟩ := hE.ends p hp t' k' b' d' hb' hd' e he'
  obtain ⟨rfl, rfl, rfl, rfl⟩ := isEdge_unique hM hp h2 g2
  refine ⟨?_, cls_eq (hM.tabs.ok p hp) hd hd' (h3.symm.trans g3)⟩
  have := h4.trans g4.symm
  revert this; cases t <;> cases t' <;> simp

theorem nodes_nodup {p : ℕ} (hp : p < np) : (E p).nodes.Nodup := by
  have hb : ∀ t, (B p t).flatten.Nodup := by
    intro t
    rw [List.nodup_flatten]
    constructor
    · intro l hl
      obtain ⟨k, hk⟩ := List.mem_iff_getElem?.mp hl
      exact hE.nodup p hp t k l hk
    · rw [List.pairwise_iff_getElem]
      intro i j hi hj hij
      intro e he he'
      have := (block_unique hE hM hp (List.getElem?_eq_getElem hi) (List.getElem?_eq_getElem hj) he he').2
      omega
  rw [hE.nodes p hp, List.nodup_append']
  refine ⟨hb true, hb false, ?_⟩
  intro e he he'
  obtain ⟨l, hl, h1⟩ := List.mem_flatten.mp he
  obtain ⟨l', hl', h1'⟩ := List.mem_flatten.mp he'
  obtain ⟨k, hk⟩ := List.mem_iff_getElem?.mp hl
  obtain ⟨k', hk'⟩ := List.mem_iff_getElem?.mp hl'
  exact absurd (block_unique hE hM hp hk hk' h1 h1').1 (by simp)

theorem nodes_simple {p : ℕ} (hp : p < np) : SProl.Simple (E p).nodes := by
  have hlt : ∀ e ∈ (E p).nodes, e.1 < e.2 := by
    intro e he
    obtain ⟨n, hn⟩ := List.mem_iff_getElem?.mp he
    obtain ⟨k, d, S, r, S', s, -, -, h, -⟩ := node_edge hE hp hn
    exact h
  refine ⟨fun e he => (hlt e he).ne, ?_⟩
  refine (nodes_nodup hE hM hp).imp_of_mem ?_
  intro e f he hf h
  refine ⟨h, ?_⟩
  rintro rfl
  have h1 := hlt _ he
  have h2 := hlt _ hf
  simp only at h1
  omega

end

end NgsAMG.CMap
