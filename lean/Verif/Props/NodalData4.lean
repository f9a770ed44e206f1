import Verif.Props.NodalData3

/-!
# C74: data attached to a mesh keeps its meaning under `Cumulate` and `Distribute`
-/

namespace NgsAMG.Nodal

open NgsAMG.EQC NgsAMG.RedTab NgsAMG.Exch NgsAMG.BTM

variable {α β : Type} [AddCommMonoid α] [DecidableEq β]

/-! ### specification -/

/-- the value `v g` of each node `g` that the arrays stand for: `DISTRIBUTED` - it is the sum of the values of all copies;
`CUMULATED` - it is the value of each copy -/
def Represents (np : ℕ) (nn : ℕ → ℕ) (name : ℕ → ℕ → β) (stat : Stat) (data : ℕ → List α) (v : β → α) : Prop :=
  (∀ p < np, (data p).length = nn p) ∧
  match stat with
  | .notParallel => False
  | .distributed => ∀ p < np, ∀ n < nn p, ∃ vals, Values np nn name data (name p n) vals ∧ vals.sum = v (name p n)
  | .cumulated => ∀ p < np, ∀ n < nn p, (data p)[n]? = some (v (name p n))

/-- the two calls -/
inductive Call
  | cumulate | distribute
  deriving DecidableEq

/-- alg_mesh.hpp:33-63: the outcomes of one call, made by all processes; the exchange ends in any state that some schedule leads to -/
inductive ACall (np : ℕ) (M : ℕ → NMesh) : Call → Stat × (ℕ → List α) → Stat × (ℕ → List α) → Prop
  | cumulate {data out : ℕ → List α} {tab : ℕ → List (List α)} {n : ℕ} {s : St (Loc α α) (Msg α α)}
      (ht : ∀ p < np, allredTab (M p) false (data p) = some (tab p))
      (hr : DReach np (allredProg np M tab fun ins => (combine (· + ·) ins).getD []) (fun _ => {}) n s)
      (hf : DFinal np (allredProg np M tab fun ins => (combine (· + ·) ins).getD []) s)
      (hb : ∀ p < np, allredBack (M p) false (data p) (s.vec p).out = some (out p)) :
      ACall np M .cumulate (.distributed, data) (.cumulated, out)
  | cumulateNop {stat : Stat} {data : ℕ → List α} (h : stat ≠ .distributed) : ACall np M .cumulate (stat, data) (stat, data)
  | distribute {data out : ℕ → List α} (h : ∀ p < np, clearGhosts (M p) p (data p) = some (out p)) :
      ACall np M .distribute (.cumulated, data) (.distributed, out)
  | distributeNop {stat : Stat} {data : ℕ → List α} (h : stat ≠ .cumulated) : ACall np M .distribute (stat, data) (.distributed, data)

/-- a history of calls -/
inductive ACalls (np : ℕ) (M : ℕ → NMesh) : List Call → Stat × (ℕ → List α) → Stat × (ℕ → List α) → Prop
  | nil (s) : ACalls np M [] s s
  | cons {c cs s t u} : ACall np M c s t → ACalls np M cs t u → ACalls np M (c :: cs) s u

section
variable {np : ℕ} {M : ℕ → NMesh} {nn : ℕ → ℕ} {name : ℕ → ℕ → β} (hN : Nodes np M nn name)
include hN

omit [AddCommMonoid α] in
theorem values_unique {data : ℕ → List α} {g : β} {u v : List α} (hu : Values np nn name data g u) (hv : Values np nn name data g v) : u = v := by
  unfold Values at hu hv
  have hl : ∀ q ∈ holders np nn name g, q < np := by
    intro q hq
    exact List.mem_range.mp (List.mem_filter.mp hq).1
  generalize holders np nn name g = L at hu hv hl
  induction hu generalizing v with
  | nil => cases hv; rfl
  | cons h1 _ ih =>
    cases hv with
    | cons h2 h3 =>
      obtain ⟨m, m1, m2, m3⟩ := h1
      obtain ⟨m', m1', m2', m3'⟩ := h2
      have := hN.inj _ (hl _ (by simp)) m m1 m' m1' (m2.trans m2'.symm)
      subst this
      rw [m3] at m3'
      rw [Option.some.inj m3', ih h3 (fun q hq => hl q (by simp [hq]))]

theorem cumulate_represents {data out : ℕ → List α} {v : β → α} (h : Represents np nn name .distributed data v)
    (ho : Allreduced np nn name (· + ·) data out) : Represents np nn name .cumulated out v := by
  refine ⟨fun p hp => (ho p hp).1, fun p hp n hn => ?_⟩
  obtain ⟨vals, v1, v2⟩ := (ho p hp).2 n hn
  obtain ⟨vals', w1, w2⟩ := h.2 p hp n hn
  obtain rfl := values_unique hN v1 w1
  have hlt : n < (out p).length := by rw [(ho p hp).1]; exact hn
  rw [List.getElem?_eq_getElem hlt] at v2
  rw [List.getElem?_eq_getElem hlt, reduceVals_sum v2.symm, w2]

omit [DecidableEq β] in
theorem clearGhosts_spec {p : ℕ} (hp : p < np) {data : List α} (hd : data.length = nn p) :
    ∃ out, clearGhosts (M p) p data = some out ∧ out.length = nn p ∧
      ∀ (k j n : ℕ) (d : List ℕ), (M p).T[k]? = some d → ((M p).nodesOf k)[j]? = some n →
        out[n]? = if isMaster p d = true then data[n]? else some 0 := by
  obtain ⟨out, o1, o2, -, o4⟩ := writeAll_spec (M p).nodesOf
    (fun (a : List α) k => if isMaster p ((M p).T.getD k []) = true then some a
      else writeRow a ((M p).nodesOf k) (((M p).nodesOf k).map fun _ => 0))
    (fun k => if isMaster p ((M p).T.getD k []) = true then none else some (((M p).nodesOf k).map fun _ => 0))
    (List.range (M p).T.length) data (by intro k _ a _; beta_reduce; split <;> rfl) (nodes_nodup hN hp)
    (by intro k hk n hn; rw [hd]; exact node_lt hN hp (List.mem_range.mp hk) hn)
    (by intro k _ row hrow; split at hrow; · simp at hrow
        · cases hrow; simp)
  refine ⟨out, o1, by rw [o2, hd], ?_⟩
  intro k j n d hk hj
  have := o4 k (List.mem_range.mpr (List.getElem?_eq_some_iff.mp hk).1) j n hj
  rw [this, List.getD_eq_getElem?_getD, hk, Option.getD_some]
  by_cases hm : isMaster p d = true
  · simp only [hm, if_true]
  · have hjl := (List.getElem?_eq_some_iff.mp hj).1
    simp only [hm]
    rw [if_neg (by simp), if_neg (by simp)]
    show (((M p).nodesOf k).map fun _ => (0 : α))[j]? = some 0
    rw [List.getElem?_map, hj]
    rfl

omit [AddCommMonoid α] [DecidableEq β] hN in
theorem sum_first [AddCommMonoid α] (L : List ℕ) (hs : L.Pairwise (· < ·)) (hne : L ≠ []) (x : α) :
    (L.map fun q => if ∀ r ∈ L, q ≤ r then x else 0).sum = x := by
  cases L with
  | nil => exact absurd rfl hne
  | cons a l =>
    rw [List.pairwise_cons] at hs
    rw [List.map_cons, List.sum_cons, if_pos]
    · rw [List.map_congr_left (g := fun _ => (0 : α)), List.map_const', List.sum_replicate, smul_zero, add_zero]
      intro q hq
      rw [if_neg]
      intro h
      have := h a (by simp)
      have := hs.1 q hq
      omega
    · intro r hr
      rcases List.mem_cons.mp hr with rfl | hr
      · exact le_rfl
      · exact (hs.1 r hr).le

theorem distribute_represents {data out : ℕ → List α} {v : β → α} (h : Represents np nn name .cumulated data v)
    (ho : ∀ p < np, clearGhosts (M p) p (data p) = some (out p)) : Represents np nn name .distributed out v := by
  have hspec : ∀ p < np, (out p).length = nn p ∧ ∀ (k j n : ℕ) (d : List ℕ), (M p).T[k]? = some d → ((M p).nodesOf k)[j]? = some n →
        (out p)[n]? = if isMaster p d = true then (data p)[n]? else some 0 := by
    intro p hp
    obtain ⟨o, o1, o2⟩ := clearGhosts_spec hN hp (h.1 p hp)
    rw [ho p hp] at o1
    cases o1
    exact o2
  refine ⟨fun p hp => (hspec p hp).1, fun p hp n hn => ?_⟩
  have hs : (holders np nn name (name p n)).Pairwise (· < ·) := (List.pairwise_lt_range (n := np)).filter _
  have hne : holders np nn name (name p n) ≠ [] := by
    apply List.ne_nil_of_mem (a := p)
    unfold holders
    rw [List.mem_filter, List.mem_range, decide_eq_true_iff]
    exact ⟨hp, n, hn, rfl⟩
  refine ⟨_, ?_, sum_first _ hs hne (v (name p n))⟩
  unfold Values
  rw [List.forall₂_map_right_iff, List.forall₂_same]
  intro q hq
  have hq' := hq
  unfold holders at hq'
  rw [List.mem_filter, List.mem_range, decide_eq_true_iff] at hq'
  obtain ⟨hqn, m, hm, hmn⟩ := hq'
  refine ⟨m, hm, hmn, ?_⟩
  obtain ⟨k, j, d, hk, hj⟩ := node_class hN hqn hm
  rw [(hspec q hqn).2 k j m d hk hj, h.2 q hqn m hm, hmn]
  have hiff : isMaster q d = true ↔ ∀ r ∈ holders np nn name (name p n), q ≤ r := by
    rw [isMaster_members ((hN.tabs.ok q hqn).2 d (List.mem_of_getElem? hk)), ← hmn,
      holders_eq hN hqn hk (List.mem_of_getElem? hj)]
    constructor
    · intro h r hr
      rw [List.mem_insertionSort, List.mem_cons, ← mem_members] at hr
      exact h r hr
    · intro h r hr
      apply h r
      rw [List.mem_insertionSort, List.mem_cons, ← mem_members]
      exact hr
  by_cases hm' : isMaster q d = true
  · rw [if_pos hm', if_pos (hiff.mp hm')]
  · rw [if_neg hm', if_neg (fun h => hm' (hiff.mpr h))]

/-- **C74.** After any history of calls of `Cumulate` and `Distribute`, under any schedules of the exchanges, the data stands for the
same values as before. -/
theorem attached_history {cs : List Call} {s t : Stat × (ℕ → List α)} (h : ACalls np M cs s t) {v : β → α}
    (hs : Represents np nn name s.1 s.2 v) : Represents np nn name t.1 t.2 v := by
  induction h with
  | nil => exact hs
  | cons hc _ ih =>
    apply ih
    cases hc with
    | cumulate ht hr hf hb =>
      obtain ⟨-, out, o1, o2⟩ := (allreduce_correct hN hs.1 (· + ·) false ht hr).2.2 hf
      have := cumulate_represents hN hs o2
      refine ⟨fun p hp => ?_, fun p hp n hn => ?_⟩
      · have e := o1 p hp
        rw [hb p hp, Option.some.injEq] at e
        dsimp only
        rw [e]
        exact this.1 p hp
      · have e := o1 p hp
        rw [hb p hp, Option.some.injEq] at e
        dsimp only
        rw [e]
        exact this.2 p hp n hn
    | cumulateNop _ => exact hs
    | distribute h => exact distribute_represents hN hs h
    | @distributeNop stat data h =>
      cases stat
      · exact hs.2.elim
      · exact hs
      · exact absurd rfl h

/-- **C74.** After `Cumulate` the status is `CUMULATED`, after `Distribute` it is `DISTRIBUTED`; so what is read from the array then has the
meaning the caller asked for -/
theorem attached_status {c : Call} {s t : Stat × (ℕ → List α)} (h : ACall np M c s t) {v : β → α}
    (hs : Represents np nn name s.1 s.2 v) : t.1 = match c with | .cumulate => .cumulated | .distribute => .distributed := by
  cases h with
  | cumulate => rfl
  | @cumulateNop stat _ h =>
    cases stat
    · exact hs.2.elim
    · exact absurd rfl h
    · rfl
  | distribute => rfl
  | distributeNop => rfl

/-- **C74.** The calls always have an outcome (no access out of range, some schedule ends; by `allreduce_correct` all of them do) -/
theorem attached_total (c : Call) {s : Stat × (ℕ → List α)} (hs : ∀ p < np, (s.2 p).length = nn p) : ∃ t, ACall np M c s t := by
  obtain ⟨stat, data⟩ := s
  cases c with
  | distribute =>
    by_cases h : stat = .cumulated
    · subst h
      have key : ∀ p, ∃ out, p < np → clearGhosts (M p) p (data p) = some out := by
        intro p
        by_cases hp : p < np
        · obtain ⟨o, o1, -⟩ := clearGhosts_spec hN hp (hs p hp)
          exact ⟨o, fun _ => o1⟩
        · exact ⟨[], fun h => absurd h hp⟩
      choose out hout using key
      exact ⟨_, .distribute hout⟩
    · exact ⟨_, .distributeNop h⟩
  | cumulate =>
    by_cases h : stat = .distributed
    · subst h
      have key : ∀ p, ∃ tab, p < np → allredTab (M p) false (data p) = some tab := by
        intro p
        by_cases hp : p < np
        · obtain ⟨o, o1, -⟩ := allredTab_spec hN hs hp false
          exact ⟨o, fun _ => o1⟩
        · exact ⟨[], fun h => absurd h hp⟩
      choose tab htab using key
      have hT : ∀ p < np, IsTab (M p) false (data p) (tab p) := by
        intro p hp
        obtain ⟨t, t1, t2⟩ := allredTab_spec hN hs hp false
        rw [htab p hp] at t1
        cases t1
        exact t2
      obtain ⟨n, s, hr, hf⟩ := dexists_final (matched (rows_of_tables hN.tabs) tab
        (fun _ _ ins => (combine (· + ·) ins).getD []) (fun p hp => (hT p hp).1))
      obtain ⟨-, out, o1, -⟩ := (allreduce_correct hN hs (· + ·) false htab hr).2.2 hf
      exact ⟨_, .cumulate htab hr hf o1⟩
    · exact ⟨_, .cumulateNop h⟩

end

/-- the hypotheses are met by the vertices of the mesh of `exNodes`; each history of calls has an outcome -/
example : ∃ (C : ℕ → Ctx) (M : ℕ → Verts), Nodes DCC.exPD.np (fun p => vertMesh (C p)) DCC.exPD.ndof (vname DCC.exPD M) ∧
    Represents DCC.exPD.np DCC.exPD.ndof (vname DCC.exPD M) .cumulated
      (fun p => (List.range (DCC.exPD.ndof p)).map fun n => 10 * vname DCC.exPD M p n + 1) (fun g => 10 * g + 1) ∧
    ∃ t : Stat × (ℕ → List ℕ), ACalls DCC.exPD.np (fun p => vertMesh (C p)) [.distribute, .cumulate]
      (.cumulated, fun p => (List.range (DCC.exPD.ndof p)).map fun n => 10 * vname DCC.exPD M p n + 1) t := by
  obtain ⟨C, M, E, h, -⟩ := exNodes
  have hrep : Represents DCC.exPD.np DCC.exPD.ndof (vname DCC.exPD M) .cumulated
      (fun p => (List.range (DCC.exPD.ndof p)).map fun n => 10 * vname DCC.exPD M p n + 1) (fun g => 10 * g + 1) := by
    refine ⟨fun p _ => by simp, fun p _ n hn => ?_⟩
    rw [List.getElem?_map, List.getElem?_range hn]; rfl
  refine ⟨C, M, h, hrep, ?_⟩
  obtain ⟨t, ht⟩ := attached_total h .distribute (s := (.cumulated, fun p => (List.range (DCC.exPD.ndof p)).map
    fun n => 10 * vname DCC.exPD M p n + 1)) (fun p _ => by simp)
  have h1 := attached_history h (.cons ht (.nil t)) hrep
  obtain ⟨u, hu⟩ := attached_total h .cumulate (s := t) h1.1
  exact ⟨u, .cons ht (.cons hu (.nil u))⟩

end NgsAMG.Nodal
