import Verif.Props.NodalData

/-!
# C73: the exchanges of nodal data
-/

namespace NgsAMG.Nodal

open NgsAMG.EQC NgsAMG.RedTab NgsAMG.Exch NgsAMG.BTM

variable {α β : Type} [DecidableEq β]

theorem forall₂_choose {A B C : Type} {P : A → C → Prop} {Q : B → C → Prop} {l : List A} {u : List B}
    (h : List.Forall₂ (fun a b => ∃ c, P a c ∧ Q b c) l u) : ∃ v, List.Forall₂ P l v ∧ List.Forall₂ Q u v := by
  induction h with
  | nil => exact ⟨[], .nil, .nil⟩
  | cons h _ ih =>
    obtain ⟨c, h1, h2⟩ := h
    obtain ⟨v, v1, v2⟩ := ih
    exact ⟨c :: v, .cons h1 v1, .cons h2 v2⟩

section
variable {np : ℕ} {M : ℕ → NMesh} {nn : ℕ → ℕ} {name : ℕ → ℕ → β} (hN : Nodes np M nn name)
  {data : ℕ → List α} (hd : ∀ p < np, (data p).length = nn p)

/-- a table with the rows of all classes, except possibly the local one -/
def IsTab (M : NMesh) (loc : Bool) (data : List α) (tab : List (List α)) : Prop :=
  tab.length = M.T.length ∧ ∀ (k : ℕ) (d : List ℕ), M.T[k]? = some d → ∃ row, tab[k]? = some row ∧
    ((k = 0 ∧ loc = false) ∨ (row.length = (M.nodesOf k).length ∧ ∀ (j n : ℕ), (M.nodesOf k)[j]? = some n → row[j]? = data[n]?))

include hN hd in
omit [DecidableEq β] in
theorem allredTab_spec {p : ℕ} (hp : p < np) (loc : Bool) : ∃ tab, allredTab (M p) loc (data p) = some tab ∧ IsTab (M p) loc (data p) tab := by
  have hrow : ∀ k < (M p).T.length, ∃ row, (if k = 0 ∧ loc = false then some [] else readRow (data p) ((M p).nodesOf k)) = some row ∧
      ((k = 0 ∧ loc = false) ∨ (row.length = ((M p).nodesOf k).length ∧ ∀ (j n : ℕ), ((M p).nodesOf k)[j]? = some n → row[j]? = (data p)[n]?)) := by
    intro k hk
    by_cases h : k = 0 ∧ loc = false
    · exact ⟨[], if_pos h, Or.inl h⟩
    · obtain ⟨row, r1, r2, r3⟩ := readRow_spec (data := data p) (nodes := (M p).nodesOf k)
        (fun n hn => by rw [hd p hp]; exact node_lt hN hp hk hn)
      exact ⟨row, by rw [if_neg h]; exact r1, Or.inr ⟨r2, r3⟩⟩
  have : ∀ k, ∃ row, k < (M p).T.length → (if k = 0 ∧ loc = false then some [] else readRow (data p) ((M p).nodesOf k)) = some row ∧
      ((k = 0 ∧ loc = false) ∨ (row.length = ((M p).nodesOf k).length ∧ ∀ (j n : ℕ), ((M p).nodesOf k)[j]? = some n → row[j]? = (data p)[n]?)) := by
    intro k
    by_cases hk : k < (M p).T.length
    · obtain ⟨r, h⟩ := hrow k hk; exact ⟨r, fun _ => h⟩
    · exact ⟨[], fun h => absurd h hk⟩
  choose g hg using this
  refine ⟨(List.range (M p).T.length).map g, ?_, by simp, ?_⟩
  · unfold allredTab
    exact mapM_some_of _ _ g fun k hk => (hg k (List.mem_range.mp hk)).1
  · intro k d hk
    have hkl := (List.getElem?_eq_some_iff.mp hk).1
    exact ⟨g k, by rw [List.getElem?_map, List.getElem?_range hkl]; rfl, (hg k hkl).2⟩

include hN hd in
/-- the rows of a class that are reduced: for every node of the class the values of all its copies, ordered by process -/
theorem rows_values {p k : ℕ} {d : List ℕ} (hp : p < np) (hk : (M p).T[k]? = some d) (loc : Bool) (h0 : ¬(k = 0 ∧ loc = false))
    {tab : ℕ → List (List α)} (ht : ∀ q < np, IsTab (M q) loc (data q) (tab q)) {ins : List (List α)}
    (hins : RowsWithKey (fun p k => members p ((M p).T.getD k [])) tab (members p ((M p).T.getD k [])) ((p :: d).insertionSort (· ≤ ·)) ins) :
    (∀ r ∈ ins, r.length = ((M p).nodesOf k).length) ∧ ∀ (j n : ℕ), ((M p).nodesOf k)[j]? = some n →
      ∃ vals, Values np nn name data (name p n) vals ∧ List.Forall₂ (fun r y => r[j]? = some y) ins vals := by
  have hv := (hN.tabs.ok p hp).2 d (List.mem_of_getElem? hk)
  have hkd : (M p).T.getD k [] = d := by rw [List.getD_eq_getElem?_getD, hk]; rfl
  -- one row
  have hone : ∀ r ∈ (p :: d).insertionSort (· ≤ ·), ∀ row, (∃ j : ℕ, members r ((M r).T.getD j []) = members p ((M p).T.getD k []) ∧
      (tab r)[j]? = some row) → r < np ∧ row.length = ((M p).nodesOf k).length ∧ ∀ (j n : ℕ), ((M p).nodesOf k)[j]? = some n →
        ∃ y, (∃ m < nn r, name r m = name p n ∧ (data r)[m]? = some y) ∧ row[j]? = some y := by
    rintro r hr row ⟨l, hl1, hl2⟩
    rw [List.mem_insertionSort, List.mem_cons] at hr
    have hrn : r < np := by
      rcases hr with rfl | hr
      · exact hp
      · exact hv.range r hr
    have hll : l < (M r).T.length := by rw [← (ht r hrn).1]; exact (List.getElem?_eq_some_iff.mp hl2).1
    have hle := List.getElem?_eq_getElem hll
    rw [hkd, List.getD_eq_getElem?_getD, hle, Option.getD_some] at hl1
    obtain ⟨row', q1, q2⟩ := (ht r hrn).2 l _ hle
    rw [hl2] at q1; cases q1
    have hag := hN.agree r hrn p hp l k _ d hle hk hl1
    rcases q2 with ⟨rfl, hloc⟩ | ⟨q2, q3⟩
    · -- the local class of `r` is the local class of `p`
      exfalso
      apply h0
      refine ⟨?_, hloc⟩
      have hl0 := hN.loc r hrn (by intro h; rw [h] at hll; simp at hll)
      rw [hle] at hl0
      have : (M r).T[0] = [] := Option.some.inj hl0
      rw [this] at hl1
      have hpd : p ∈ members r [] := by rw [hl1, mem_members]; exact Or.inl rfl
      have hpr : p = r := by simpa [mem_members] using hpd
      subst hpr
      have hd0 : d = [] := by
        cases d with
        | nil => rfl
        | cons x d =>
          have : x ∈ members p [] := by rw [hl1, mem_members]; exact Or.inr (by simp)
          have hx : x = p := by simpa [mem_members] using this
          subst hx
          exact absurd (by simp) hv.notSelf
      subst hd0
      have hkl := List.getElem?_eq_some_iff.mp hk
      exact ((hN.tabs.ok p hp).1.getElem_inj_iff (hi := hkl.1) (hj := hll)).mp (hkl.2.trans this.symm)
    · have hlen : ((M r).nodesOf l).length = ((M p).nodesOf k).length := by
        have := congrArg List.length hag
        simpa using this
      refine ⟨hrn, by rw [q2, hlen], ?_⟩
      intro j n hj
      have : (((M r).nodesOf l).map (name r))[j]? = some (name p n) := by rw [hag, List.getElem?_map, hj]; rfl
      rw [List.getElem?_map] at this
      obtain ⟨m, m1, m2⟩ := Option.map_eq_some_iff.mp this
      have hm := node_lt hN hrn hll (List.mem_of_getElem? m1)
      have hml : m < (data r).length := by rw [hd r hrn]; exact hm
      exact ⟨(data r)[m], ⟨m, hm, m2, List.getElem?_eq_getElem hml⟩, by rw [q3 j m m1, List.getElem?_eq_getElem hml]⟩
  have hins' := (List.forall₂_and_left (p := fun r => r ∈ (p :: d).insertionSort (· ≤ ·)) _ _).mpr ⟨fun r hr => hr, hins⟩
  constructor
  · have h1 : List.Forall₂ (fun _ row => row.length = ((M p).nodesOf k).length) ((p :: d).insertionSort (· ≤ ·)) ins :=
      hins'.imp fun r row h => (hone r h.1 row h.2).2.1
    intro row hrow
    obtain ⟨i, hi, rfl⟩ := List.mem_iff_getElem.mp hrow
    have := List.forall₂_iff_get.mp h1
    exact this.2 i (by rw [this.1]; exact hi) hi
  · intro j n hj
    have h2 : List.Forall₂ (fun r row => ∃ y, (∃ m < nn r, name r m = name p n ∧ (data r)[m]? = some y) ∧ row[j]? = some y)
        ((p :: d).insertionSort (· ≤ ·)) ins := hins'.imp fun r row h => (hone r h.1 row h.2).2.2 j n hj
    obtain ⟨vals, v1, v2⟩ := forall₂_choose h2
    refine ⟨vals, ?_, v2⟩
    unfold Values
    rw [holders_eq hN hp hk (List.mem_of_getElem? hj)]
    exact v1

include hN hd in
/-- nodes of the local class have no copies -/
theorem local_values {p n : ℕ} (hp : p < np) (hn : n ∈ (M p).nodesOf 0) (hk : (M p).T[0]? = some []) :
    ∃ x, (data p)[n]? = some x ∧ Values np nn name data (name p n) [x] := by
  have hlt := node_lt hN hp (List.getElem?_eq_some_iff.mp hk).1 hn
  have hl : n < (data p).length := by rw [hd p hp]; exact hlt
  refine ⟨(data p)[n], List.getElem?_eq_getElem hl, ?_⟩
  unfold Values
  rw [holders_eq hN hp hk hn]
  exact .cons ⟨n, hlt, rfl, List.getElem?_eq_getElem hl⟩ .nil

include hN hd in
theorem allredBack_spec (f : α → α → α) {p : ℕ} (hp : p < np) (loc : Bool) {tab : ℕ → List (List α)}
    (ht : ∀ q < np, IsTab (M q) loc (data q) (tab q)) {out : List (Option (List α))}
    (ho : Reduced np (fun p => (M p).T) (fun p k => members p ((M p).T.getD k [])) tab (fun _ _ ins => (combine f ins).getD []) p out) :
    ∃ res, allredBack (M p) loc (data p) out = some res ∧ res.length = nn p ∧
      ∀ n < nn p, ∃ vals, Values np nn name data (name p n) vals ∧ res[n]? = reduceVals f vals := by
  have hrow : ∀ (k : ℕ) (d : List ℕ), (M p).T[k]? = some d → ¬(k = 0 ∧ loc = false) → ∃ row, out[k]? = some (some row) ∧
      row.length = ((M p).nodesOf k).length ∧ ∀ (j n : ℕ), ((M p).nodesOf k)[j]? = some n →
        ∃ vals, Values np nn name data (name p n) vals ∧ row[j]? = reduceVals f vals := by
    intro k d hk h0
    obtain ⟨m, l, ins, -, -, -, -, h5, h6⟩ := ho.2 k d hk
    obtain ⟨r1, r2⟩ := rows_values hN hd hp hk loc h0 ht h5
    have hne : ins ≠ [] := by
      rintro rfl
      have := h5.length_eq
      rw [List.length_insertionSort] at this
      simp at this
    obtain ⟨res, c1, c2, c3⟩ := combine_spec f ins _ hne r1
    replace h6 : out[k]? = some (some ((combine f ins).getD [])) := h6
    rw [c1] at h6
    refine ⟨res, h6, c2, ?_⟩
    intro j n hj
    obtain ⟨vals, v1, v2⟩ := r2 j n hj
    exact ⟨vals, v1, c3 j vals v2⟩
  have hlocal : ∀ n, n ∈ (M p).nodesOf 0 → (M p).T ≠ [] →
      ∃ vals, Values np nn name data (name p n) vals ∧ (data p)[n]? = reduceVals f vals := by
    intro n hn hne
    obtain ⟨x, x1, x2⟩ := local_values hN hd hp hn (hN.loc p hp hne)
    exact ⟨[x], x2, x1⟩
  unfold allredBack
  by_cases he : (M p).T.length = 0 ∨ ((M p).T.length = 1 ∧ loc = false)
  · rw [if_pos he]
    refine ⟨data p, rfl, hd p hp, ?_⟩
    intro n hn
    obtain ⟨k, j, d, hk, hj⟩ := node_class hN hp hn
    have hkl := (List.getElem?_eq_some_iff.mp hk).1
    have hk0 : k = 0 := by omega
    subst hk0
    exact hlocal n (List.mem_of_getElem? hj) (by intro h; rw [h] at hkl; simp at hkl)
  · rw [if_neg he]
    have hdn := fun k (hk : k ∈ List.range (M p).T.length) n (hn : n ∈ (M p).nodesOf k) =>
      (hd p hp).symm ▸ node_lt hN hp (List.mem_range.mp hk) hn
    obtain ⟨res, w1, w2, -, w4⟩ := writeAll_spec (M p).nodesOf
      (fun a k => if k = 0 ∧ loc = false then some a else (out[k]?).join.bind fun row => writeRow a ((M p).nodesOf k) row)
      (fun k => if k = 0 ∧ loc = false then none else (out[k]?).join) (List.range (M p).T.length) (data p)
      (by
        intro k hk a _
        have hkT := List.getElem?_eq_getElem (List.mem_range.mp hk)
        by_cases h0 : k = 0 ∧ loc = false
        · simp only [if_pos h0]
        · obtain ⟨row, r1, -⟩ := hrow k _ hkT h0
          simp only [if_neg h0, r1]
          rfl)
      (nodes_nodup hN hp) hdn
      (by
        intro k hk row hr
        have hkT := List.getElem?_eq_getElem (List.mem_range.mp hk)
        by_cases h0 : k = 0 ∧ loc = false
        · rw [if_pos h0] at hr; cases hr
        · obtain ⟨row', r1, r2, -⟩ := hrow k _ hkT h0
          rw [if_neg h0, r1] at hr
          cases hr
          omega)
    refine ⟨res, w1, by rw [w2, hd p hp], ?_⟩
    intro n hn
    obtain ⟨k, j, d, hk, hj⟩ := node_class hN hp hn
    have hkl := (List.getElem?_eq_some_iff.mp hk).1
    rw [w4 k (List.mem_range.mpr hkl) j n hj]
    by_cases h0 : k = 0 ∧ loc = false
    · simp only [if_pos h0]
      obtain ⟨rfl, -⟩ := h0
      exact hlocal n (List.mem_of_getElem? hj) (by intro h; rw [h] at hkl; simp at hkl)
    · obtain ⟨row, r1, -, r3⟩ := hrow k d hk h0
      simp only [if_neg h0, r1]
      exact r3 j n hj

include hN hd in
/-- **C73 (`AllreduceNodalData`).** Whatever the interleaving of the processes and the network: the call does not block and ends; at its
end no message is left, no access was out of range, and every copy of every node has the combined value of all copies - also for nodes of
one process only, whether or not `apply_loc` is set. -/
theorem allreduce_correct (f : α → α → α) (loc : Bool) {tab : ℕ → List (List α)} (ht : ∀ p < np, allredTab (M p) loc (data p) = some (tab p))
    {n : ℕ} {s : St (Loc α α) (Msg α α)} (hr : DReach np (allredProg np M tab fun ins => (combine f ins).getD []) (fun _ => {}) n s) :
    n ≤ 16 * np ∧ (¬ DFinal np (allredProg np M tab fun ins => (combine f ins).getD []) s →
      ∃ t, DStep np (allredProg np M tab fun ins => (combine f ins).getD []) s t) ∧
    (DFinal np (allredProg np M tab fun ins => (combine f ins).getD []) s → (∀ i, ∀ p < np, ∀ q < np, s.chan i p q = none) ∧
      ∃ out : ℕ → List α, (∀ p < np, allredBack (M p) loc (data p) (s.vec p).out = some (out p)) ∧
        Allreduced np nn name f data out) := by
  have hR := rows_of_tables hN.tabs
  have hT : ∀ p < np, IsTab (M p) loc (data p) (tab p) := by
    intro p hp
    obtain ⟨t, t1, t2⟩ := allredTab_spec hN hd hp loc
    rw [ht p hp] at t1
    cases t1
    exact t2
  have htab : ∀ p < np, (tab p).length = ((fun p => (M p).T) p).length := fun p hp => (hT p hp).1
  unfold allredProg at hr ⊢
  refine ⟨reduceTable_terminates hR _ _ htab hr, reduceTable_no_deadlock hR _ _ htab hr, fun hf => ?_⟩
  obtain ⟨h1, h2⟩ := reduceTable_correct hR _ _ htab hr hf
  refine ⟨h2, ?_⟩
  have key : ∀ p, ∃ res : List α, p < np → allredBack (M p) loc (data p) (s.vec p).out = some res ∧ res.length = nn p ∧
      ∀ n < nn p, ∃ vals, Values np nn name data (name p n) vals ∧ res[n]? = reduceVals f vals := by
    intro p
    by_cases hp : p < np
    · obtain ⟨res, r⟩ := allredBack_spec hN hd f hp loc hT (h1 p hp).2
      exact ⟨res, fun _ => r⟩
    · exact ⟨[], fun h => absurd h hp⟩
  choose out hout using key
  exact ⟨out, fun p hp => (hout p hp).1, fun p hp => (hout p hp).2⟩

/-! ### scatter -/

include hN hd in
omit [DecidableEq β] in
theorem scatterTab_spec {p : ℕ} (hp : p < np) : ∃ tab, scatterTab (M p) (data p) = some tab ∧ IsTab (M p) false (data p) tab := by
  obtain ⟨tab, h1, h2⟩ := allredTab_spec hN hd hp false
  refine ⟨tab, ?_, h2⟩
  unfold allredTab at h1
  unfold scatterTab
  simpa using h1

include hN hd in
theorem scatterBack_spec {p : ℕ} (hp : p < np) {tab : ℕ → List (List α)} (ht : ∀ q < np, IsTab (M q) false (data q) (tab q))
    {rows : List (List α)} (hs : Scattered (fun p => (M p).T) (fun p k => members p ((M p).T.getD k [])) tab p rows) :
    ∃ res, scatterBack (M p) p (data p) rows = some res ∧ res.length = nn p ∧
      ∀ n < nn p, ∃ vals, Values np nn name data (name p n) vals ∧ res[n]? = vals.head? := by
  -- the rows of the masters
  have hrow : ∀ (k : ℕ) (d : List ℕ), (M p).T[k]? = some d → k ≠ 0 → ∃ row, rows[k]? = some row ∧
      row.length = ((M p).nodesOf k).length ∧ (isMaster p d = true → ∀ (j n : ℕ), ((M p).nodesOf k)[j]? = some n → row[j]? = (data p)[n]?) ∧
      ∀ (j n : ℕ), ((M p).nodesOf k)[j]? = some n → ∃ vals, Values np nn name data (name p n) vals ∧ row[j]? = vals.head? := by
    intro k d hk h0
    have hv := (hN.tabs.ok p hp).2 d (List.mem_of_getElem? hk)
    obtain ⟨m, l, h1, h2, h3, h4, h5⟩ := hs.2 k d hk
    have hmn : m < np := by
      rcases h1 with rfl | h1
      · exact hp
      · exact hv.range m h1
    -- the rows of all processes
    have hall : ∃ ins, RowsWithKey (fun p k => members p ((M p).T.getD k [])) tab (members p ((M p).T.getD k []))
        ((p :: d).insertionSort (· ≤ ·)) ins ∧ ins.head? = (tab m)[l]? := by
      have hR := rows_of_tables hN.tabs
      have hsl : ((p :: d).insertionSort (· ≤ ·)).head? = some m := by
        have hperm := List.perm_insertionSort (· ≤ ·) (p :: d)
        have hpw := List.pairwise_insertionSort (· ≤ ·) (p :: d)
        rcases hL : (p :: d).insertionSort (· ≤ ·) with _ | ⟨x, L⟩
        · have := hperm.length_eq
          rw [hL] at this; simp at this
        · rw [hL] at hperm hpw
          have hx : x ∈ p :: d := hperm.mem_iff.mp (by simp)
          have hm' : m ∈ x :: L := hperm.mem_iff.mpr (List.mem_cons.mpr h1)
          have h6 := h2 x (List.mem_cons.mp hx)
          rcases List.mem_cons.mp hm' with h | h
          · rw [h]; rfl
          · have := (List.pairwise_cons.mp hpw).1 m h
            have : x = m := by omega
            rw [this]; rfl
      have hex : ∀ r ∈ (p :: d).insertionSort (· ≤ ·), ∃ row, ∃ j : ℕ, members r ((M r).T.getD j []) = members p ((M p).T.getD k []) ∧
          (tab r)[j]? = some row := by
        intro r hr
        rw [List.mem_insertionSort, List.mem_cons] at hr
        obtain ⟨j, e, e1, e2, -⟩ := partner_row hR hp hk hr
        have hrn : r < np := by
          rcases hr with rfl | hr
          · exact hp
          · exact hv.range r hr
        have hjl : j < (tab r).length := by rw [(ht r hrn).1]; exact (List.getElem?_eq_some_iff.mp e1).1
        exact ⟨_, j, e2, List.getElem?_eq_getElem hjl⟩
      have hlt : l < (tab m).length := by rw [(ht m hmn).1]; exact h3
      rcases hL : (p :: d).insertionSort (· ≤ ·) with _ | ⟨x, L⟩
      · rw [hL] at hsl; simp at hsl
      · rw [hL] at hsl hex
        simp at hsl
        subst hsl
        have hrest : ∀ L' : List ℕ, (∀ r ∈ L', r ∈ x :: L) → ∃ ins, List.Forall₂ (fun r row => ∃ j : ℕ, members r ((M r).T.getD j []) =
            members p ((M p).T.getD k []) ∧ (tab r)[j]? = some row) L' ins := by
          intro L'
          induction L' with
          | nil => intro _; exact ⟨[], .nil⟩
          | cons r L' ih =>
            intro h
            obtain ⟨ins, hi⟩ := ih (fun s hs => h s (by simp [hs]))
            obtain ⟨row, hrow⟩ := hex r (h r (by simp))
            exact ⟨row :: ins, .cons hrow hi⟩
        obtain ⟨ins, hi⟩ := hrest L (fun r hr => by simp [hr])
        refine ⟨(tab x)[l] :: ins, .cons ⟨l, h4, List.getElem?_eq_getElem hlt⟩ hi, ?_⟩
        rw [List.getElem?_eq_getElem hlt]; rfl
    obtain ⟨ins, i1, i2⟩ := hall
    obtain ⟨r1, r2⟩ := rows_values hN hd hp hk false (by simp [h0]) ht i1
    have hlt : l < (tab m).length := by rw [(ht m hmn).1]; exact h3
    have h5' : rows[k]? = some (tab m)[l] := h5.trans (List.getElem?_eq_getElem hlt)
    rw [List.getElem?_eq_getElem hlt] at i2
    rcases hins : ins with _ | ⟨y, ins'⟩
    · rw [hins] at i2; cases i2
    · rw [hins] at i2 r1 r2
      simp at i2
      refine ⟨_, h5', ?_, ?_, ?_⟩
      · rw [← i2]; exact r1 y (by simp)
      · intro hmas j n hj
        have hmp : m = p := by
          have := (isMaster_members hv).mp hmas m (mem_members.mpr h1)
          have := h2 p (Or.inl rfl)
          omega
        subst hmp
        have hlk : l = k := (rows_of_tables hN.tabs).inj m hmn l k h3 (List.getElem?_eq_some_iff.mp hk).1 h4
        subst hlk
        obtain ⟨row, q1, q2⟩ := (ht m hmn).2 l d hk
        rw [List.getElem?_eq_getElem hlt] at q1
        cases q1
        rcases q2 with ⟨h, -⟩ | ⟨-, q2⟩
        · exact absurd h h0
        · exact q2 j n hj
      · intro j n hj
        obtain ⟨vals, v1, v2⟩ := r2 j n hj
        refine ⟨vals, v1, ?_⟩
        cases v2 with
        | cons h _ => rw [← i2, h]; rfl
  have hlocal : ∀ n, n ∈ (M p).nodesOf 0 → (M p).T ≠ [] →
      ∃ vals, Values np nn name data (name p n) vals ∧ (data p)[n]? = vals.head? := by
    intro n hn hne
    obtain ⟨x, x1, x2⟩ := local_values hN hd hp hn (hN.loc p hp hne)
    exact ⟨[x], x2, x1⟩
  unfold scatterBack
  by_cases he : (M p).T.length < 2
  · rw [if_pos he]
    refine ⟨data p, rfl, hd p hp, ?_⟩
    intro n hn
    obtain ⟨k, j, d, hk, hj⟩ := node_class hN hp hn
    have hkl := (List.getElem?_eq_some_iff.mp hk).1
    have hk0 : k = 0 := by omega
    subst hk0
    exact hlocal n (List.mem_of_getElem? hj) (by intro h; rw [h] at hkl; simp at hkl)
  · rw [if_neg he]
    have hdn := fun k (hk : k ∈ List.range (M p).T.length) n (hn : n ∈ (M p).nodesOf k) =>
      (hd p hp).symm ▸ node_lt hN hp (List.mem_range.mp hk) hn
    obtain ⟨res, w1, w2, -, w4⟩ := writeAll_spec (M p).nodesOf
      (fun a k => if k = 0 ∨ isMaster p ((M p).T.getD k []) = true then some a else (rows[k]?).bind fun row => writeRow a ((M p).nodesOf k) row)
      (fun k => if k = 0 ∨ isMaster p ((M p).T.getD k []) = true then none else rows[k]?) (List.range (M p).T.length) (data p)
      (by
        intro k hk a _
        have hkT := List.getElem?_eq_getElem (List.mem_range.mp hk)
        by_cases h0 : k = 0 ∨ isMaster p ((M p).T.getD k []) = true
        · simp only [if_pos h0]
        · obtain ⟨row, r1, -⟩ := hrow k _ hkT (fun h => h0 (Or.inl h))
          simp only [if_neg h0, r1]
          rfl)
      (nodes_nodup hN hp) hdn
      (by
        intro k hk row hr
        have hkT := List.getElem?_eq_getElem (List.mem_range.mp hk)
        by_cases h0 : k = 0 ∨ isMaster p ((M p).T.getD k []) = true
        · rw [if_pos h0] at hr; cases hr
        · obtain ⟨row', r1, r2, -⟩ := hrow k _ hkT (fun h => h0 (Or.inl h))
          rw [if_neg h0, r1] at hr
          cases hr
          omega)
    refine ⟨res, w1, by rw [w2, hd p hp], ?_⟩
    intro n hn
    obtain ⟨k, j, d, hk, hj⟩ := node_class hN hp hn
    have hkl := (List.getElem?_eq_some_iff.mp hk).1
    have hkd : (M p).T.getD k [] = d := by rw [List.getD_eq_getElem?_getD, hk]; rfl
    rw [w4 k (List.mem_range.mpr hkl) j n hj]
    by_cases h0 : k = 0
    · subst h0
      simp only [true_or, if_true]
      exact hlocal n (List.mem_of_getElem? hj) (by intro h; rw [h] at hkl; simp at hkl)
    · obtain ⟨row, r1, -, r3, r4⟩ := hrow k d hk h0
      by_cases hm : isMaster p d = true
      · simp only [hkd, hm, or_true, if_true]
        rw [← r3 hm j n hj]
        exact r4 j n hj
      · simp only [hkd, h0, hm, or_self, if_false, r1]
        exact r4 j n hj

include hN hd in
/-- **C73 (`ScatterNodalData`).** Whatever the interleaving: the call does not block; at its end no message is left, all messages had the
size of the buffers, and every copy of every node has the value of the copy of the smallest process. -/
theorem scatterNodal_correct {tab : ℕ → List (List α)} (ht : ∀ p < np, scatterTab (M p) (data p) = some (tab p))
    {n : ℕ} {s : St (Option (List (List α))) (List (List α))} (hr : DReach np (scatterProg M) (fun p => some (tab p)) n s) :
    (¬ DFinal np (scatterProg (α := α) M) s → ∃ t, DStep np (scatterProg M) s t) ∧
    (DFinal np (scatterProg M) s → (∀ i, ∀ p < np, ∀ q < np, s.chan i p q = none) ∧
      ∃ out : ℕ → List α, (∀ p < np, ((s.vec p).bind fun rows => scatterBack (M p) p (data p) rows) = some (out p)) ∧
        NScattered np nn name data out) := by
  have hR := rows_of_tables hN.tabs
  have hT : ∀ p < np, IsTab (M p) false (data p) (tab p) := by
    intro p hp
    obtain ⟨t, t1, t2⟩ := scatterTab_spec hN hd hp
    rw [ht p hp] at t1
    cases t1
    exact t2
  unfold scatterProg at hr ⊢
  refine ⟨scatter_no_deadlock hR tab _ hr, fun hf => ?_⟩
  have hfit : ∀ p < np, ∀ q < np, ∀ (k l : ℕ) (x y : List α), members p ((M p).T.getD k []) = members q ((M q).T.getD l []) →
      (tab p)[k]? = some x → (tab q)[l]? = some y → (x.length == y.length) = true := by
    intro p hp q hq k l x y hkl hx hy
    have hkT : k < (M p).T.length := by rw [← (hT p hp).1]; exact (List.getElem?_eq_some_iff.mp hx).1
    have hlT : l < (M q).T.length := by rw [← (hT q hq).1]; exact (List.getElem?_eq_some_iff.mp hy).1
    have hk := List.getElem?_eq_getElem hkT
    have hl := List.getElem?_eq_getElem hlT
    rw [List.getD_eq_getElem?_getD, hk, List.getD_eq_getElem?_getD, hl, Option.getD_some, Option.getD_some] at hkl
    -- a row with the key of the local class is that of the local class
    have hz : ∀ {p q k l : ℕ} {x y : List α} (_ : p < np) (_ : q < np) (_ : k = 0) {d e : List ℕ} (_ : (M p).T[k]? = some d)
        (_ : (M q).T[l]? = some e) (_ : members p d = members q e) (_ : (tab p)[k]? = some x) (_ : (tab q)[l]? = some y), x = y := by
      intro p q k l x y hp hq h0 d e hk hl hm hx hy
      subst h0
      have h0 := hN.loc p hp (by intro h; rw [h] at hk; simp at hk)
      rw [hk] at h0
      cases h0
      have hqp : q = p := by
        have : q ∈ members p [] := by rw [hm, mem_members]; exact Or.inl rfl
        simpa [mem_members] using this
      subst hqp
      have he := members_inj ((hN.tabs.ok q hq).2 _ (List.mem_of_getElem? hk)) ((hN.tabs.ok q hq).2 _ (List.mem_of_getElem? hl)) hm
      subst he
      have h1 := List.getElem?_eq_some_iff.mp hk
      have h2 := List.getElem?_eq_some_iff.mp hl
      have := ((hN.tabs.ok q hq).1.getElem_inj_iff (hi := h1.1) (hj := h2.1)).mp (h1.2.trans h2.2.symm)
      subst this
      rw [hx] at hy
      exact Option.some.inj hy
    have hag := hN.agree p hp q hq k l _ _ hk hl hkl
    obtain ⟨x', x1, x2⟩ := (hT p hp).2 k _ hk
    obtain ⟨y', y1, y2⟩ := (hT q hq).2 l _ hl
    rw [hx] at x1; cases x1
    rw [hy] at y1; cases y1
    rw [beq_iff_eq]
    rcases x2 with ⟨h, -⟩ | ⟨x2, -⟩
    · rw [hz hp hq h hk hl hkl hx hy]
    · rcases y2 with ⟨h, -⟩ | ⟨y2, -⟩
      · rw [hz hq hp h hl hk hkl.symm hy hx]
      · have := congrArg List.length hag
        simp only [List.length_map] at this
        omega
  obtain ⟨h1, h2⟩ := scatter_correct hR tab (fun x y => x.length == y.length) (fun p hp => (hT p hp).1) hfit hr hf
  refine ⟨h2, ?_⟩
  have key : ∀ p, ∃ res : List α, p < np → ((s.vec p).bind fun rows => scatterBack (M p) p (data p) rows) = some res ∧ res.length = nn p ∧
      ∀ n < nn p, ∃ vals, Values np nn name data (name p n) vals ∧ res[n]? = vals.head? := by
    intro p
    by_cases hp : p < np
    · obtain ⟨rows, r1, r2⟩ := h1 p hp
      obtain ⟨res, r3, r4⟩ := scatterBack_spec hN hd hp hT r2
      exact ⟨res, fun _ => ⟨by rw [r1]; exact r3, r4⟩⟩
    · exact ⟨[], fun h => absurd h hp⟩
  choose out hout using key
  exact ⟨out, fun p hp => (hout p hp).1, fun p hp => (hout p hp).2⟩

end

end NgsAMG.Nodal
