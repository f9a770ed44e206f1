import Verif.Props.RedTab2

/-!
# Properties of `ReduceTable` (C69), part 3, and of the scatter of class-wise data (C70)
-/

namespace NgsAMG.RedTab

open NgsAMG.Exch NgsAMG.EQC

variable {T R K : Type}

section
variable {np : ℕ} {dps : ℕ → List (List ℕ)} {key : ℕ → ℕ → K} (hR : Rows np dps key)
  (tab : ℕ → List (List T)) (lam : ℕ → ℕ → List (List T) → List R)

/-- sender and receiver with the same condition -/
theorem agree {a b c d e : Bool} (hab : a = c) (h : a = true → b = d) (he : e = true) : (a && b) = (c && e && d) := by
  subst hab he
  cases a
  · rfl
  · simp [h rfl]

include hR in
theorem slave_nil {p q : ℕ} (hp : p < np) (h : ¬ p < q) : slaveRows (dps p) p q = [] := by
  rw [List.eq_nil_iff_forall_not_mem]
  intro r hr
  obtain ⟨i, d, h1, -, h3, h4⟩ := (mem_slaveFrom _ _ _ _ _).mp hr
  exact h ((headD_mem (hR.valid p hp d (List.mem_of_getElem? h1)) h4).2.2 q h3)

include hR in
/-- in the lock-step execution, everybody waits for exactly the messages that are sent -/
theorem matched (htab : ∀ p < np, (tab p).length = (dps p).length) : DMatched np (prog np dps tab lam) fun _ => {} := by
  have hlt : ∀ {p q : ℕ}, p < np → (decide (q < p)) = true → q < np := by
    intro p q hp h; have := of_decide_eq_true h; omega
  have hgot : ∀ {p q}, p < q → q < np → gatherRows dps tab q p = gotRows np dps tab p q := fun h1 h2 => by
    rw [gotRows, if_pos ⟨h1, h2⟩]
  have hgotR : ∀ {p q}, q < p → scatterRows dps q (s4 np dps tab lam q) p = gotRed np dps tab lam p q := fun h1 => by
    rw [gotRed, if_pos h1]
  refine DMatched.cons (fun p hp => ⟨?_, ?_, ?_⟩) (DMatched.cons (fun p hp => ⟨?_, ?_, ?_⟩) (DMatched.cons (fun p hp => ⟨?_, ?_, ?_⟩)
    (DMatched.cons (fun p hp => ⟨fun _ _ => rfl, fun _ h => absurd h (by simp [reduceLocal]),
      fun _ h => absurd h (by simp [reduceLocal])⟩) (DMatched.cons (fun p hp => ⟨?_, ?_, ?_⟩)
    (DMatched.cons (fun p hp => ⟨?_, ?_, ?_⟩) (DMatched.cons (fun p hp => ⟨?_, ?_, ?_⟩)
    (DMatched.cons (fun p hp => ⟨fun _ _ => rfl, fun _ h => absurd h (by simp [outputLocal]),
      fun _ h => absurd h (by simp [outputLocal])⟩) (DMatched.nil _ _))))))))
  -- gatherMeta
  · intro q hq
    exact agree rfl (fun h => by rw [rows_length hR (of_decide_eq_true h) hp]) (by simpa using hp)
  · intro q h; exact hlt hp (Bool.and_eq_true _ _ ▸ h).1
  · intro q h; simp only [gatherMeta, Bool.and_eq_true, decide_eq_true_eq] at h; exact h.1.2
  -- gatherSizes
  · intro q hq
    refine agree rfl (fun h => ?_) (by simpa using hp)
    have := (s1_spec (R := R) hR tab q p).2.1
    show decide (0 < (gatherRows dps tab p q).length) = decide (0 < (s1 (R := R) np dps tab q).gNb p)
    rw [this, hgot (of_decide_eq_true h) hp]
  · intro q h; exact hlt hp (Bool.and_eq_true _ _ ▸ h).1
  · intro q h; simp only [gatherSizes, Bool.and_eq_true, decide_eq_true_eq] at h; exact h.1.2
  -- gatherData
  · intro q hq
    refine agree rfl (fun h => ?_) (by simpa using hp)
    have := (s2_spec (R := R) hR tab q).2.1 p
    show decide (0 < ((gatherRows dps tab p q).map List.length).sum) = decide (0 < (s2 (R := R) np dps tab q).gTot p)
    rw [this, hgot (of_decide_eq_true h) hp]
  · intro q h; exact hlt hp (Bool.and_eq_true _ _ ▸ h).1
  · intro q h; simp only [gatherData, Bool.and_eq_true, decide_eq_true_eq] at h; exact h.1.2
  -- scatterMeta
  · intro q hq
    symm
    exact agree rfl (fun h => by rw [rows_length hR (of_decide_eq_true h) hq]) (by simpa using hq)
  · intro q h; simp only [scatterMeta, Bool.and_eq_true, decide_eq_true_eq] at h; exact h.1.2
  · intro q h; exact hlt hp (Bool.and_eq_true _ _ ▸ h).1
  -- scatterSizes
  · intro q hq
    symm
    refine agree rfl (fun h => ?_) (by simpa using hq)
    have := (s5_spec hR tab lam hq p).1
    show decide (0 < (s5 np dps tab lam q).sTot p) = decide (0 < ((scatterRows dps p (s4 np dps tab lam p) q).map List.length).sum)
    rw [this, hgotR (of_decide_eq_true h)]
  · intro q h; simp only [scatterSizes, Bool.and_eq_true, decide_eq_true_eq] at h; exact h.1.2
  · intro q h; exact hlt hp (Bool.and_eq_true _ _ ▸ h).1
  -- scatterData
  · intro q hq
    symm
    refine agree rfl (fun h => ?_) (by simpa using hq)
    have := (s6_spec hR tab lam htab hq).2.1 p
    show decide (0 < (s6 np dps tab lam q).sTot p) = decide (0 < ((scatterRows dps p (s4 np dps tab lam p) q).map List.length).sum)
    rw [this, hgotR (of_decide_eq_true h)]
  · intro q h; simp only [scatterData, Bool.and_eq_true, decide_eq_true_eq] at h; exact h.1.2
  · intro q h; exact hlt hp (Bool.and_eq_true _ _ ▸ h).1

/-- specification: `ins` are the rows with key `κ` of the processes in `procs` -/
def RowsWithKey (key : ℕ → ℕ → K) (tab : ℕ → List (List T)) (κ : K) (procs : List ℕ) (ins : List (List T)) : Prop :=
  List.Forall₂ (fun r row => ∃ j : ℕ, key r j = κ ∧ (tab r)[j]? = some row) procs ins

/-- specification of the result `out` of process `p`: the lambda is called for every row once, by the smallest process of the row, with
the rows of all its processes ordered by rank, and all of them get the result. `L m k` is the result of the call for row `k` on process `m` -/
def Reduced (np : ℕ) (dps : ℕ → List (List ℕ)) (key : ℕ → ℕ → K) (tab : ℕ → List (List T)) (lam : ℕ → ℕ → List (List T) → List R)
    (p : ℕ) (out : List (Option (List R))) : Prop :=
  out.length = (dps p).length ∧
  ∀ (k : ℕ) (d : List ℕ), (dps p)[k]? = some d → ∃ m l ins, (m = p ∨ m ∈ d) ∧ (∀ r, r = p ∨ r ∈ d → m ≤ r) ∧
    l < (dps m).length ∧ key m l = key p k ∧
    RowsWithKey key tab (key p k) ((p :: d).insertionSort (· ≤ ·)) ins ∧ out[k]? = some (some (lam m l ins))

include hR in
/-- the row of process `r` with the key of the row `k` of `p` -/
theorem partner_row {p k : ℕ} {d : List ℕ} (hp : p < np) (hk : (dps p)[k]? = some d) {r : ℕ} (hr : r = p ∨ r ∈ d) :
    ∃ (j : ℕ) (e : List ℕ), (dps r)[j]? = some e ∧ key r j = key p k ∧ members r e = members p d := by
  rcases hr with rfl | hr
  · exact ⟨k, d, hk, rfl, rfl⟩
  · exact hR.partner p hp k d hk r hr

include hR in
theorem run_spec (htab : ∀ p < np, (tab p).length = (dps p).length) {p : ℕ} (hp : p < np) :
    (drun (prog np dps tab lam) (fun _ => {}) p).ok = true ∧
    Reduced np dps key tab lam p (drun (prog np dps tab lam) (fun _ => {}) p).out := by
  obtain ⟨t, h1, h2, h3⟩ := output_spec hR tab lam htab hp
  have hout : (drun (prog np dps tab lam) (fun _ => {}) p).out = t := by
    show (output dps p (s7 np dps tab lam p)).getD [] = t
    rw [h1]; rfl
  have hok : (drun (prog np dps tab lam) (fun _ => {}) p).ok = true := by
    show ((s7 np dps tab lam p).ok && (output dps p (s7 np dps tab lam p)).isSome) = true
    rw [h1, (s7_spec hR tab lam htab hp).2.2.1]; rfl
  refine ⟨hok, ?_⟩
  rw [hout]
  refine ⟨h2, ?_⟩
  intro k d hk
  have hv := hR.valid p hp d (List.mem_of_getElem? hk)
  have hms := masterOf_spec hv
  have hmm : masterOf p d = p ∨ masterOf p d ∈ d := mem_members.mp hms.1
  have hmn : masterOf p d < np := by
    rcases hmm with h | h
    · omega
    · exact hv.range _ h
  obtain ⟨l, e, g1, g2, g3⟩ := partner_row hR hp hk hmm
  have hve := hR.valid _ hmn e (List.mem_of_getElem? g1)
  have hme : masterOf (masterOf p d) e = masterOf p d := masterOf_eq hv hve g3
  have hl : l < (dps (masterOf p d)).length := (List.getElem?_eq_some_iff.mp g1).1
  refine ⟨masterOf p d, l, inputs dps key tab (masterOf p d) l e, hmm, fun r hr => hms.2 r (mem_members.mpr hr), hl, g2, ?_, ?_⟩
  · have hperm : (masterOf p d :: e).insertionSort (· ≤ ·) = (p :: d).insertionSort (· ≤ ·) := by
      refine sl_ext (sl_insertionSort ?_) (sl_insertionSort ?_) ?_
      · exact List.nodup_cons.mpr ⟨hve.notSelf, hve.sorted.imp fun h => Nat.ne_of_lt h⟩
      · exact List.nodup_cons.mpr ⟨hv.notSelf, hv.sorted.imp fun h => Nat.ne_of_lt h⟩
      · intro x
        rw [List.mem_insertionSort, List.mem_insertionSort, List.mem_cons, List.mem_cons, ← mem_members, ← mem_members, g3]
    rw [RowsWithKey, inputs, hperm, List.forall₂_map_right_iff, List.forall₂_same]
    intro r hr
    rw [List.mem_insertionSort, List.mem_cons] at hr
    obtain ⟨j, e', f1, f2, -⟩ := partner_row hR hp hk hr
    have hrn : r < np := by
      rcases hr with h | h
      · omega
      · exact hv.range _ h
    have hj : j < (dps r).length := (List.getElem?_eq_some_iff.mp f1).1
    refine ⟨j, f2, ?_⟩
    rw [g2, ← f2, contrib_eq hR tab hrn hj, List.getD_eq_getElem?_getD, List.getElem?_eq_getElem (by rw [htab r hrn]; exact hj)]
    rfl
  · rw [h3 k d hk, ← g2, contrib_eq hR _ hmn hl, List.getD_eq_getElem?_getD, (s4_spec hR tab lam htab hmn).2.2 l e g1 hme]
    rfl

include hR in
/-- C69: whatever the schedule, `ReduceTable` ends with the reduced rows on all processes; no message is left over, no buffer has the
wrong size -/
theorem reduceTable_correct (htab : ∀ p < np, (tab p).length = (dps p).length) {n : ℕ} {s : St (Loc T R) (Msg T R)}
    (h : DReach np (prog np dps tab lam) (fun _ => {}) n s) (hf : DFinal np (prog np dps tab lam) s) :
    (∀ p < np, (s.vec p).ok = true ∧ Reduced np dps key tab lam p (s.vec p).out) ∧
    ∀ i, ∀ p < np, ∀ q < np, s.chan i p q = none := by
  obtain ⟨h1, h2⟩ := dfinal_state (matched hR tab lam htab) h hf
  refine ⟨fun p hp => ?_, h2⟩
  rw [h1 p hp]
  exact run_spec hR tab lam htab hp

include hR in
/-- C69: `ReduceTable` does not block -/
theorem reduceTable_no_deadlock (htab : ∀ p < np, (tab p).length = (dps p).length) {n : ℕ} {s : St (Loc T R) (Msg T R)}
    (h : DReach np (prog np dps tab lam) (fun _ => {}) n s) (hf : ¬ DFinal np (prog np dps tab lam) s) :
    ∃ t, DStep np (prog np dps tab lam) s t := dno_deadlock (matched hR tab lam htab) h hf

include hR in
/-- C69: `ReduceTable` ends -/
theorem reduceTable_terminates (htab : ∀ p < np, (tab p).length = (dps p).length) {n : ℕ} {s : St (Loc T R) (Msg T R)}
    (h : DReach np (prog np dps tab lam) (fun _ => {}) n s) : n ≤ 16 * np := by
  have := dterminates (matched hR tab lam htab) h
  simpa [prog] using this

end

/-! ### tables with one row per equivalence class -/

/-- the tables of the equivalence-class hierarchy (C57, C58) have consistent rows: the key is the set of processes -/
theorem rows_of_tables {np : ℕ} {dps : ℕ → List (List ℕ)} (hT : Tables np dps) :
    Rows np dps fun p k => members p ((dps p).getD k []) := by
  have hget : ∀ {p k : ℕ} (h : k < (dps p).length), (dps p).getD k [] = (dps p)[k] := fun h => by
    rw [List.getD_eq_getElem?_getD, List.getElem?_eq_getElem h]; rfl
  refine ⟨fun p hp => (hT.ok p hp).2, ?_, ?_, ?_⟩
  · intro p hp k l hk hl h
    rw [hget hk, hget hl] at h
    have := members_inj ((hT.ok p hp).2 _ (List.getElem_mem hk)) ((hT.ok p hp).2 _ (List.getElem_mem hl)) h
    exact (List.Nodup.getElem_inj_iff (hT.ok p hp).1).mp this
  · intro p hp k d hk q hq
    obtain ⟨e, he, hm⟩ := hT.cons p hp d (List.mem_of_getElem? hk) q hq
    obtain ⟨l, hl, rfl⟩ := List.mem_iff_getElem.mp he
    refine ⟨l, _, List.getElem?_eq_getElem hl, ?_, hm⟩
    rw [hget hl, hm, List.getD_eq_getElem?_getD, hk]
    rfl
  · intro p q hpq hq k k' l l' hkk hk' hl hl' h h'
    have hp : p < np := by omega
    have hk : k < (dps p).length := by omega
    beta_reduce at h h'
    rw [hget hk, hget hl] at h
    rw [hget hk', hget hl'] at h'
    have h1 := (eqLt_iff ((hT.ok p hp).2 _ (List.getElem_mem hk)) ((hT.ok p hp).2 _ (List.getElem_mem hk'))).mp
      (List.pairwise_iff_getElem.mp (hT.sorted p hp) k k' hk hk' hkk)
    rw [h, h'] at h1
    rcases Nat.lt_trichotomy l l' with hlt | heq | hgt
    · exact hlt
    · subst heq
      exact absurd h1 (fun h => setLt_asymm h h)
    · have h2 := (eqLt_iff ((hT.ok q hq).2 _ (List.getElem_mem hl')) ((hT.ok q hq).2 _ (List.getElem_mem hl))).mp
        (List.pairwise_iff_getElem.mp (hT.sorted q hq) l' l hl' hl hgt)
      exact absurd h2 (fun h => setLt_asymm h1 h)

/-- C69: for tables with one row per equivalence class -/
theorem reduceTable_eqc {np : ℕ} {dps : ℕ → List (List ℕ)} (hT : Tables np dps) (tab : ℕ → List (List T))
    (lam : ℕ → ℕ → List (List T) → List R) (htab : ∀ p < np, (tab p).length = (dps p).length) {n : ℕ} {s : St (Loc T R) (Msg T R)}
    (h : DReach np (prog np dps tab lam) (fun _ => {}) n s) (hf : DFinal np (prog np dps tab lam) s) :
    ∀ p < np, (s.vec p).ok = true ∧
      Reduced np dps (fun p k => members p ((dps p).getD k [])) tab lam p (s.vec p).out :=
  (reduceTable_correct (rows_of_tables hT) tab lam htab h hf).1

end NgsAMG.RedTab
