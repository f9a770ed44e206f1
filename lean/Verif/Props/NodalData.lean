import Verif.Model.NodalData
import Verif.Props.BTM10

/-!
# C73: nodal data on a distributed mesh, specification and parts on one process
-/

namespace NgsAMG.Nodal

open NgsAMG.EQC NgsAMG.RedTab NgsAMG.Exch NgsAMG.BTM

variable {α β : Type}

/-- what is assumed of the numbering of nodes (met by vertices and edges, C71 and C72, see `nodes_verts`, `nodes_edges`): process `p` has
`nn p` nodes; each belongs to exactly one class; `name p n` names the node, copies of a node and only they have the same name; on all
processes of a class its nodes come in the same order; the processes of the class are those that have the node -/
structure Nodes (np : ℕ) (M : ℕ → NMesh) (nn : ℕ → ℕ) (name : ℕ → ℕ → β) : Prop where
  tabs : Tables np fun p => (M p).T
  loc : ∀ p < np, (M p).T ≠ [] → (M p).T[0]? = some []
  cover : ∀ p < np, ((List.range (M p).T.length).flatMap (M p).nodesOf).Perm (List.range (nn p))
  agree : ∀ p < np, ∀ q < np, ∀ (k l : ℕ) (d e : List ℕ), (M p).T[k]? = some d → (M q).T[l]? = some e → members p d = members q e →
    ((M p).nodesOf k).map (name p) = ((M q).nodesOf l).map (name q)
  inj : ∀ p < np, ∀ n < nn p, ∀ m < nn p, name p n = name p m → n = m
  only : ∀ p < np, ∀ q < np, ∀ (k n m : ℕ) (d : List ℕ), (M p).T[k]? = some d → n ∈ (M p).nodesOf k → m < nn q → name p n = name q m →
    q ∈ members p d

/-! ### writing rows -/

theorem foldl_set_length (L : List (ℕ × α)) (a : List α) : (L.foldl (fun a w => a.set w.1 w.2) a).length = a.length := by
  induction L generalizing a with
  | nil => rfl
  | cons w L ih => rw [List.foldl_cons, ih, List.length_set]

theorem foldl_set_other (L : List (ℕ × α)) (a : List α) (n : ℕ) (h : n ∉ L.map Prod.fst) :
    (L.foldl (fun a w => a.set w.1 w.2) a)[n]? = a[n]? := by
  induction L generalizing a with
  | nil => rfl
  | cons w L ih =>
    simp only [List.map_cons, List.mem_cons, not_or] at h
    rw [List.foldl_cons, ih _ h.2, List.getElem?_set_ne (fun e => h.1 e.symm)]

theorem foldl_set_mem (L : List (ℕ × α)) (a : List α) (hn : (L.map Prod.fst).Nodup) (n : ℕ) (x : α) (h : (n, x) ∈ L) (hl : n < a.length) :
    (L.foldl (fun a w => a.set w.1 w.2) a)[n]? = some x := by
  induction L generalizing a with
  | nil => simp at h
  | cons w L ih =>
    simp only [List.map_cons, List.nodup_cons] at hn
    rw [List.foldl_cons]
    rcases List.mem_cons.mp h with rfl | h
    · rw [foldl_set_other _ _ _ hn.1, List.getElem?_set_self hl]
    · exact ih _ hn.2 h (by rw [List.length_set]; exact hl)

theorem writeRow_spec {data : List α} {nodes : List ℕ} {row : List α} (hl : nodes.length ≤ row.length) (hr : ∀ n ∈ nodes, n < data.length)
    (hn : nodes.Nodup) : ∃ out, writeRow data nodes row = some out ∧ out.length = data.length ∧
      (∀ n, n ∉ nodes → out[n]? = data[n]?) ∧ ∀ (j n : ℕ), nodes[j]? = some n → out[n]? = row[j]? := by
  have hk : (nodes.zip row).map Prod.fst = nodes := List.map_fst_zip hl
  refine ⟨_, if_pos ⟨hl, hr⟩, foldl_set_length _ _, ?_, ?_⟩
  · intro n h
    exact foldl_set_other _ _ _ (by rw [hk]; exact h)
  · intro j n hj
    obtain ⟨h1, rfl⟩ := List.getElem?_eq_some_iff.mp hj
    have h2 : j < row.length := by omega
    rw [List.getElem?_eq_getElem h2]
    refine foldl_set_mem _ _ (by rw [hk]; exact hn) _ _ ?_ (hr _ (List.getElem_mem h1))
    rw [List.mem_iff_getElem]
    exact ⟨j, by rw [List.length_zip]; omega, by simp⟩

/-- writing rows for some of the classes: `rows k = none` is a class that is left out -/
theorem writeAll_spec (nodesOf : ℕ → List ℕ) (f : List α → ℕ → Option (List α)) (rows : ℕ → Option (List α)) (ks : List ℕ) (data : List α)
    (hf : ∀ k ∈ ks, ∀ a : List α, a.length = data.length → f a k = match rows k with | none => some a | some row => writeRow a (nodesOf k) row)
    (hn : (ks.flatMap nodesOf).Nodup) (hr : ∀ k ∈ ks, ∀ n ∈ nodesOf k, n < data.length)
    (hl : ∀ k ∈ ks, ∀ row, rows k = some row → (nodesOf k).length ≤ row.length) :
    ∃ out, ks.foldlM f data = some out ∧ out.length = data.length ∧
      (∀ n, n ∉ ks.flatMap nodesOf → out[n]? = data[n]?) ∧
      ∀ k ∈ ks, ∀ (j n : ℕ), (nodesOf k)[j]? = some n → out[n]? = match rows k with | none => data[n]? | some row => row[j]? := by
  induction ks generalizing data with
  | nil => exact ⟨data, rfl, rfl, fun _ _ => rfl, by simp⟩
  | cons k ks ih =>
    rw [List.flatMap_cons, List.nodup_append] at hn
    have hstep : ∃ a, f data k = some a ∧ a.length = data.length ∧ (∀ n, n ∉ nodesOf k → a[n]? = data[n]?) ∧
        ∀ (j n : ℕ), (nodesOf k)[j]? = some n → a[n]? = match rows k with | none => data[n]? | some row => row[j]? := by
      rw [hf k (by simp) data rfl]
      rcases hrow : rows k with _ | row
      · exact ⟨data, rfl, rfl, fun _ _ => rfl, fun _ _ _ => rfl⟩
      · exact writeRow_spec (hl k (by simp) row hrow) (hr k (by simp)) hn.1
    obtain ⟨a, a1, a2, a3, a4⟩ := hstep
    obtain ⟨out, o1, o2, o3, o4⟩ := ih a (fun k' hk' b hb => hf k' (by simp [hk']) b (by rw [hb, a2])) hn.2.1
      (fun k' hk' n hn' => by rw [a2]; exact hr k' (by simp [hk']) n hn') (fun k' hk' => hl k' (by simp [hk']))
    refine ⟨out, by rw [List.foldlM_cons, a1]; exact o1, by rw [o2, a2], ?_, ?_⟩
    · intro n hnn
      rw [List.flatMap_cons, List.mem_append, not_or] at hnn
      rw [o3 n hnn.2, a3 n hnn.1]
    · intro k' hk' j n hj
      rcases List.mem_cons.mp hk' with rfl | hk'
      · have : n ∉ ks.flatMap nodesOf := fun h => hn.2.2 n (List.mem_of_getElem? hj) n h rfl
        rw [o3 n this, a4 j n hj]
      · rw [o4 k' hk' j n hj]
        rcases rows k' with _ | row
        · have h1 : n ∉ nodesOf k := fun h => hn.2.2 n h n (List.mem_flatMap.mpr ⟨k', hk', List.mem_of_getElem? hj⟩) rfl
          exact a3 n h1
        · rfl

/-! ### reading rows -/

theorem readRow_spec {data : List α} {nodes : List ℕ} (hr : ∀ n ∈ nodes, n < data.length) :
    ∃ row, readRow data nodes = some row ∧ row.length = nodes.length ∧ ∀ (j n : ℕ), nodes[j]? = some n → row[j]? = data[n]? := by
  unfold readRow
  induction nodes with
  | nil => exact ⟨[], rfl, rfl, by simp⟩
  | cons n nodes ih =>
    obtain ⟨row, r1, r2, r3⟩ := ih (fun m hm => hr m (by simp [hm]))
    have hn := hr n (by simp)
    refine ⟨data[n] :: row, ?_, by simp [r2], ?_⟩
    · rw [List.mapM_cons, r1, List.getElem?_eq_getElem hn]; rfl
    · intro j m hj
      cases j with
      | zero => simp at hj; subst hj; rw [List.getElem?_eq_getElem hn]; rfl
      | succ j => simpa using r3 j m (by simpa using hj)

/-! ### `sum_table`, `min_table`, `max_table` -/

/-- the values, combined from the left -/
def reduceVals (f : α → α → α) : List α → Option α
  | [] => none
  | x :: xs => some (xs.foldl f x)

theorem combine_fold (f : α → α → α) (rs : List (List α)) (r : List α) (h : ∀ s ∈ rs, s.length = r.length) :
    ∃ out, rs.foldlM (fun out row => if out.length ≤ row.length then some (List.zipWith f out row) else none) r = some out ∧
      out.length = r.length ∧ ∀ (j : ℕ) (x : α) (xs : List α), r[j]? = some x → List.Forall₂ (fun s y => s[j]? = some y) rs xs →
        out[j]? = some (xs.foldl f x) := by
  induction rs generalizing r with
  | nil =>
    refine ⟨r, rfl, rfl, ?_⟩
    intro j x xs hx hxs
    cases hxs
    exact hx
  | cons s rs ih =>
    have hs := h s (by simp)
    have hz : (List.zipWith f r s).length = r.length := by rw [List.length_zipWith, hs, Nat.min_self]
    obtain ⟨out, o1, o2, o3⟩ := ih (List.zipWith f r s) (fun t ht => by rw [hz]; exact h t (by simp [ht]))
    refine ⟨out, ?_, by rw [o2, hz], ?_⟩
    · rw [List.foldlM_cons, if_pos (by omega)]; exact o1
    · intro j x xs hx hxs
      cases hxs with
      | cons h1 h2 =>
        rw [List.foldl_cons]
        exact o3 j _ _ (by rw [List.getElem?_zipWith, hx, h1]) h2

/-- rows of the same length are combined entry by entry -/
theorem combine_spec (f : α → α → α) (rows : List (List α)) (L : ℕ) (hne : rows ≠ []) (h : ∀ r ∈ rows, r.length = L) :
    ∃ out, combine f rows = some out ∧ out.length = L ∧
      ∀ (j : ℕ) (vals : List α), List.Forall₂ (fun r y => r[j]? = some y) rows vals → out[j]? = reduceVals f vals := by
  cases rows with
  | nil => exact absurd rfl hne
  | cons r rs =>
    have hr := h r (by simp)
    obtain ⟨out, o1, o2, o3⟩ := combine_fold f rs r (fun s hs => by rw [hr]; exact h s (by simp [hs]))
    refine ⟨out, o1, by rw [o2, hr], ?_⟩
    intro j vals hv
    cases hv with
    | cons h1 h2 => exact o3 j _ _ h1 h2

theorem reduceVals_sum [AddCommMonoid α] {vals : List α} {x : α} (h : reduceVals (· + ·) vals = some x) : x = vals.sum := by
  cases vals with
  | nil => cases h
  | cons y ys =>
    simp only [reduceVals, Option.some.injEq] at h
    subst h
    have : ∀ (l : List α) (a : α), l.foldl (· + ·) a = a + l.sum := by
      intro l
      induction l with
      | nil => simp
      | cons b l ih => intro a; rw [List.foldl_cons, ih, List.sum_cons, add_assoc]
    rw [this, List.sum_cons]

theorem reduceVals_max [LinearOrder α] {vals : List α} {x : α} (h : reduceVals max vals = some x) : x ∈ vals ∧ ∀ y ∈ vals, y ≤ x := by
  cases vals with
  | nil => cases h
  | cons y ys =>
    simp only [reduceVals, Option.some.injEq] at h
    subst h
    have : ∀ (l : List α) (a : α), (l.foldl max a = a ∨ l.foldl max a ∈ l) ∧ a ≤ l.foldl max a ∧ ∀ y ∈ l, y ≤ l.foldl max a := by
      intro l
      induction l with
      | nil => simp
      | cons b l ih =>
        intro a
        obtain ⟨h1, h2, h3⟩ := ih (max a b)
        rw [List.foldl_cons]
        refine ⟨?_, (le_max_left _ _).trans h2, ?_⟩
        · rcases h1 with h1 | h1
          · rcases max_choice a b with h | h
            · left; rw [h1, h]
            · right; rw [h1, h]; simp
          · right; simp [h1]
        · intro y hy
          rcases List.mem_cons.mp hy with rfl | hy
          · exact (le_max_right _ _).trans h2
          · exact h3 y hy
    obtain ⟨h1, h2, h3⟩ := this ys y
    refine ⟨?_, ?_⟩
    · rcases h1 with h1 | h1
      · rw [h1]; simp
      · simp [h1]
    · intro z hz
      rcases List.mem_cons.mp hz with rfl | hz
      · exact h2
      · exact h3 z hz

theorem reduceVals_min [LinearOrder α] {vals : List α} {x : α} (h : reduceVals min vals = some x) : x ∈ vals ∧ ∀ y ∈ vals, x ≤ y :=
  reduceVals_max (α := αᵒᵈ) h

/-! ### specification of the exchanges -/

variable [DecidableEq β]

/-- the processes that have the node `g` -/
def holders (np : ℕ) (nn : ℕ → ℕ) (name : ℕ → ℕ → β) (g : β) : List ℕ :=
  (List.range np).filter fun q => decide (∃ m < nn q, name q m = g)

/-- `vals` are the values of the copies of the node `g`, ordered by process -/
def Values (np : ℕ) (nn : ℕ → ℕ) (name : ℕ → ℕ → β) (data : ℕ → List α) (g : β) (vals : List α) : Prop :=
  List.Forall₂ (fun q x => ∃ m < nn q, name q m = g ∧ (data q)[m]? = some x) (holders np nn name g) vals

/-- all copies have the combined value of all copies -/
def Allreduced (np : ℕ) (nn : ℕ → ℕ) (name : ℕ → ℕ → β) (f : α → α → α) (data out : ℕ → List α) : Prop :=
  ∀ p < np, (out p).length = nn p ∧ ∀ n < nn p, ∃ vals, Values np nn name data (name p n) vals ∧ (out p)[n]? = reduceVals f vals

/-- all copies have the value of the copy of the smallest process -/
def NScattered (np : ℕ) (nn : ℕ → ℕ) (name : ℕ → ℕ → β) (data out : ℕ → List α) : Prop :=
  ∀ p < np, (out p).length = nn p ∧ ∀ n < nn p, ∃ vals, Values np nn name data (name p n) vals ∧ (out p)[n]? = vals.head?

section
variable {np : ℕ} {M : ℕ → NMesh} {nn : ℕ → ℕ} {name : ℕ → ℕ → β} (hN : Nodes np M nn name)
include hN

omit [DecidableEq β] in
theorem node_lt {p k n : ℕ} (hp : p < np) (hk : k < (M p).T.length) (hn : n ∈ (M p).nodesOf k) : n < nn p := by
  have : n ∈ (List.range (M p).T.length).flatMap (M p).nodesOf := List.mem_flatMap.mpr ⟨k, List.mem_range.mpr hk, hn⟩
  rwa [(hN.cover p hp).mem_iff, List.mem_range] at this

omit [DecidableEq β] in
theorem node_class {p n : ℕ} (hp : p < np) (hn : n < nn p) : ∃ (k j : ℕ) (d : List ℕ), (M p).T[k]? = some d ∧ ((M p).nodesOf k)[j]? = some n := by
  have : n ∈ (List.range (M p).T.length).flatMap (M p).nodesOf := by rw [(hN.cover p hp).mem_iff, List.mem_range]; exact hn
  obtain ⟨k, hk, h⟩ := List.mem_flatMap.mp this
  rw [List.mem_range] at hk
  obtain ⟨j, hj⟩ := List.mem_iff_getElem?.mp h
  exact ⟨k, j, _, List.getElem?_eq_getElem hk, hj⟩

omit [DecidableEq β] in
theorem nodes_nodup {p : ℕ} (hp : p < np) : ((List.range (M p).T.length).flatMap (M p).nodesOf).Nodup :=
  (hN.cover p hp).nodup_iff.mpr List.nodup_range

/-- the processes of the class of a node are its holders -/
theorem holders_eq {p k n : ℕ} {d : List ℕ} (hp : p < np) (hk : (M p).T[k]? = some d) (hn : n ∈ (M p).nodesOf k) :
    holders np nn name (name p n) = (p :: d).insertionSort (· ≤ ·) := by
  have hv := (hN.tabs.ok p hp).2 d (List.mem_of_getElem? hk)
  refine sl_ext ?_ (sl_insertionSort (List.nodup_cons.mpr ⟨hv.notSelf, hv.sorted.imp fun h => Nat.ne_of_lt h⟩)) ?_
  · unfold holders
    exact (List.pairwise_lt_range (n := np)).filter _
  · intro q
    rw [List.mem_insertionSort, List.mem_cons, ← mem_members]
    unfold holders
    rw [List.mem_filter, List.mem_range, decide_eq_true_iff]
    constructor
    · rintro ⟨hq, m, hm, hmn⟩
      exact hN.only p hp q hq k n m d hk hn hm hmn.symm
    · intro hq
      rcases mem_members.mp hq with rfl | hq'
      · exact ⟨hp, n, node_lt hN hp (List.getElem?_eq_some_iff.mp hk).1 hn, rfl⟩
      · have hqn := hv.range q hq'
        obtain ⟨e, he, hm⟩ := hN.tabs.cons p hp d (List.mem_of_getElem? hk) q hq'
        obtain ⟨l, hl⟩ := List.mem_iff_getElem?.mp he
        have hag := hN.agree p hp q hqn k l d e hk hl hm.symm
        obtain ⟨j, hj⟩ := List.mem_iff_getElem?.mp hn
        have : (((M q).nodesOf l).map (name q))[j]? = some (name p n) := by
          rw [← hag, List.getElem?_map, hj]; rfl
        rw [List.getElem?_map] at this
        obtain ⟨m, hm1, hm2⟩ := Option.map_eq_some_iff.mp this
        exact ⟨hqn, m, node_lt hN hqn (List.getElem?_eq_some_iff.mp hl).1 (List.mem_of_getElem? hm1), hm2⟩

end

end NgsAMG.Nodal
