import Verif.Model.SProl
import Verif.Props.SparseMM
import Verif.Props.MapData

/-! C66: the connectivity of a mesh. -/

namespace NgsAMG.SProl

open MapData SparseMM

/-- an undirected graph without loops and parallel edges -/
structure Simple (edges : List (ℕ × ℕ)) : Prop where
  loops : ∀ e ∈ edges, e.1 ≠ e.2
  once : edges.Pairwise fun e f => e ≠ f ∧ e ≠ (f.2, f.1)

/-- edge number `e` connects `v` and `n` -/
def Joins (edges : List (ℕ × ℕ)) (e v n : ℕ) : Prop := edges[e]? = some (v, n) ∨ edges[e]? = some (n, v)

/-- both ends of all edges: vertex, (neighbour, edge) -/
def halves (l : List ((ℕ × ℕ) × ℕ)) : List (ℕ × ℕ × ℕ) :=
  l.flatMap fun e => [(e.1.1, (e.1.2, e.2)), (e.1.2, (e.1.1, e.2))]

theorem countEnds_eq (edges : List (ℕ × ℕ)) (v : ℕ) (k : ℕ) :
    countEnds edges v = (halves (edges.zipIdx k)).countP (fun p => p.1 = v) := by
  have gen : ∀ (l : List (ℕ × ℕ)) (cnt : ℕ → ℕ) (k : ℕ), l.foldl (fun cnt e =>
      let cnt := Function.update cnt e.1 (cnt e.1 + 1)
      Function.update cnt e.2 (cnt e.2 + 1)) cnt v = cnt v + (halves (l.zipIdx k)).countP (fun p => p.1 = v) := by
    intro l
    induction l with
    | nil => intro cnt k; simp [halves]
    | cons e l ih =>
      intro cnt k
      rw [List.foldl_cons, ih _ (k + 1)]
      simp only [halves, List.zipIdx_cons, List.flatMap_cons, List.cons_append, List.nil_append, List.countP_cons,
        decide_eq_true_eq]
      by_cases h1 : e.1 = v <;> by_cases h2 : e.2 = v
      · subst h1; simp only [h2, Function.update_self, if_true]; omega
      · subst h1; rw [Function.update_of_ne (Ne.symm h2), Function.update_self]; simp only [h2, if_false, if_true]; omega
      · subst h2; rw [Function.update_self, Function.update_of_ne (Ne.symm h1)]; simp only [h1, if_false, if_true]; omega
      · rw [Function.update_of_ne (Ne.symm h2), Function.update_of_ne (Ne.symm h1)]; simp only [h1, h2, if_false]; omega
  have := gen edges (fun _ => 0) k
  simpa [countEnds] using this

theorem put_fold (size : ℕ → ℕ) (l : List (ℕ × ℕ × ℕ)) (rows : ℕ → List (ℕ × ℕ))
    (h : ∀ x, (rows x).length + l.countP (fun p => p.1 = x) ≤ size x) :
    l.foldl (fun rows p => putEnd size p.1 p.2 rows) (some rows) =
      some fun x => rows x ++ (l.filter (fun p => p.1 = x)).map Prod.snd := by
  induction l generalizing rows with
  | nil => simp
  | cons p l ih =>
    have h0 := h p.1
    rw [List.countP_cons] at h0
    simp only [decide_true, if_true] at h0
    have hlt : (rows p.1).length < size p.1 := by omega
    rw [List.foldl_cons]
    rw [show putEnd size p.1 p.2 (some rows) = some (Function.update rows p.1 (rows p.1 ++ [p.2])) by
      simp [putEnd, hlt]]
    rw [ih]
    · congr 1
      funext x
      by_cases hx : p.1 = x
      · subst hx; simp
      · rw [Function.update_of_ne (Ne.symm hx)]; simp [hx]
    · intro x
      have hx := h x
      rw [List.countP_cons] at hx
      by_cases hpx : p.1 = x
      · subst hpx
        simp only [Function.update_self, List.length_append, List.length_singleton]
        simp only [decide_true, if_true] at hx
        omega
      · rw [Function.update_of_ne (Ne.symm hpx)]
        simp only [hpx, decide_false] at hx
        simp only [Bool.false_eq_true, if_false, add_zero] at hx
        exact hx

theorem edgeCM_eq (edges : List (ℕ × ℕ)) : edgeCM edges = some fun v =>
    (((halves edges.zipIdx).filter (fun p => p.1 = v)).map Prod.snd).insertionSort (fun x y => x.1 ≤ y.1) := by
  have h := put_fold (countEnds edges) (halves edges.zipIdx) (fun _ => []) (by
    intro x; rw [countEnds_eq edges x 0]; simp)
  unfold halves at h
  rw [List.foldl_flatMap] at h
  simp only [List.foldl_cons, List.foldl_nil, List.nil_append] at h
  unfold edgeCM
  dsimp only
  rw [h]
  rfl

theorem mem_halves (edges : List (ℕ × ℕ)) (v n e : ℕ) :
    (v, (n, e)) ∈ halves edges.zipIdx ↔ Joins edges e v n := by
  simp only [halves, List.mem_flatMap, Joins]
  constructor
  · rintro ⟨⟨⟨a, b⟩, i⟩, hm, hv⟩
    rw [List.mem_zipIdx_iff_getElem?] at hm
    simp only [List.mem_cons, Prod.mk.injEq, List.not_mem_nil, or_false] at hv
    rcases hv with ⟨rfl, rfl, rfl⟩ | ⟨rfl, rfl, rfl⟩
    · exact Or.inl hm
    · exact Or.inr hm
  · rintro (h | h)
    · exact ⟨((v, n), e), List.mem_zipIdx_iff_getElem?.2 h, by simp⟩
    · exact ⟨((n, v), e), List.mem_zipIdx_iff_getElem?.2 h, by simp⟩

/-- in a simple graph the neighbours of a vertex are different -/
theorem joins_unique {edges : List (ℕ × ℕ)} (hs : Simple edges) {e f v n : ℕ} (h1 : Joins edges e v n) (h2 : Joins edges f v n) :
    e = f := by
  have key : ∀ e f : ℕ, ∀ x y, edges[e]? = some x → edges[f]? = some y → (x = y ∨ x = (y.2, y.1)) → e < f → False := by
    intro e f x y hx hy hxy hlt
    rw [List.getElem?_eq_some_iff] at hx hy
    obtain ⟨he, rfl⟩ := hx
    obtain ⟨hf, rfl⟩ := hy
    have := List.pairwise_iff_getElem.1 hs.once e f he hf hlt
    rcases hxy with h | h
    · exact this.1 h
    · exact this.2 h
  rcases Nat.lt_trichotomy e f with h | h | h
  · exfalso
    rcases h1 with h1 | h1 <;> rcases h2 with h2 | h2 <;> exact key e f _ _ h1 h2 (by simp) h
  · exact h
  · exfalso
    rcases h1 with h1 | h1 <;> rcases h2 with h2 | h2 <;> exact key f e _ _ h2 h1 (by simp) h

theorem halves_pairwise {edges : List (ℕ × ℕ)} (hs : Simple edges) (v : ℕ) :
    ((halves edges.zipIdx).filter (fun p => p.1 = v)).Pairwise fun p q => p.2.1 ≠ q.2.1 := by
  rw [List.pairwise_filter]
  have hmem : ∀ x ∈ edges.zipIdx, edges[x.2]? = some x.1 := by
    rintro ⟨x, i⟩ h
    exact List.mem_zipIdx_iff_getElem?.1 h
  have hpw : edges.zipIdx.Pairwise fun x y => x.2 < y.2 := by
    have := List.pairwise_lt_range' (s := 0) (n := edges.length)
    rw [← List.zipIdx_map_snd 0 edges, List.pairwise_map] at this
    exact this
  unfold halves
  rw [List.pairwise_flatMap]
  refine ⟨?_, ?_⟩
  · intro x hx
    have hne := hs.loops x.1 (List.mem_of_getElem? (hmem x hx))
    simp only [List.pairwise_cons, List.mem_singleton, List.not_mem_nil, false_implies, implies_true, List.Pairwise.nil,
      and_true, forall_eq, decide_eq_true_eq]
    intro h1 h2
    exact absurd (h1.trans h2.symm) hne
  · refine hpw.imp_of_mem ?_
    intro x y hx hy hlt p hp q hq h1 h2 hn
    simp only [decide_eq_true_eq] at h1 h2
    have jp : Joins edges x.2 v p.2.1 := by
      have := hmem x hx
      simp only [List.mem_cons, List.not_mem_nil, or_false] at hp
      rcases hp with rfl | rfl
      · left; rw [this, ← h1]
      · right; rw [this, ← h1]
    have jq : Joins edges y.2 v q.2.1 := by
      have := hmem y hy
      simp only [List.mem_cons, List.not_mem_nil, or_false] at hq
      rcases hq with rfl | rfl
      · left; rw [this, ← h2]
      · right; rw [this, ← h2]
    rw [hn] at jp
    exact absurd (joins_unique hs jp jq) (Nat.ne_of_lt hlt)

/-- **C66**: the connectivity of every graph is found; it lists the neighbours of every vertex, with the numbers of the
connecting edges, and in a simple graph every neighbour once and in ascending order -/
theorem edgeCM_spec (edges : List (ℕ × ℕ)) : ∃ econ, edgeCM edges = some econ ∧
    (∀ v n e, (n, e) ∈ econ v ↔ Joins edges e v n) ∧
    (Simple edges → ∀ v, ((econ v).map Prod.fst).Pairwise (· < ·)) := by
  refine ⟨_, edgeCM_eq edges, ?_, ?_⟩
  · intro v n e
    rw [List.mem_insertionSort, List.mem_map]
    constructor
    · rintro ⟨⟨a, b⟩, h, rfl⟩
      rw [List.mem_filter] at h
      simp only [decide_eq_true_eq] at h
      obtain ⟨h, rfl⟩ := h
      exact (mem_halves edges _ n e).1 h
    · intro h
      exact ⟨(v, n, e), List.mem_filter.2 ⟨(mem_halves edges v n e).2 h, by simp⟩, rfl⟩
  · intro hs v
    set l := ((halves edges.zipIdx).filter (fun p => p.1 = v)).map Prod.snd with hl
    have hnd : (l.map Prod.fst).Nodup := by
      rw [hl, List.map_map, List.Nodup, List.pairwise_map]
      exact halves_pairwise hs v
    have hsorted : (l.insertionSort (fun x y => x.1 ≤ y.1)).Pairwise (fun x y => x.1 ≤ y.1) :=
      List.pairwise_insertionSort (r := fun x y : ℕ × ℕ => x.1 ≤ y.1) l
    have hnd' : ((l.insertionSort (fun x y => x.1 ≤ y.1)).map Prod.fst).Nodup :=
      ((List.perm_insertionSort _ l).map Prod.fst).nodup_iff.2 hnd
    rw [List.pairwise_map]
    rw [List.Nodup, List.pairwise_map] at hnd'
    exact (hsorted.and hnd').imp fun h => Nat.lt_of_le_of_ne h.1 h.2

example : Simple [(0, 1), (1, 2), (2, 0)] := ⟨by decide, by decide⟩

end NgsAMG.SProl
