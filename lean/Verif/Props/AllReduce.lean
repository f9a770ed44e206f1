import Verif.Model.AllReduce
import Verif.Props.Hybrid

/-! C50: reduction of DOF data over the processes that share a DOF. -/

namespace NgsAMG.AR

open NgsAMG.DCC NgsAMG.Exch NgsAMG.Hybrid NgsAMG.Traversal

variable {T : Type} {P : PD}

/-! ### specification -/

/-- the ranks that have a copy of the global DOF, increasing -/
def holders (P : PD) (g : ℕ) : List ℕ := (List.range P.np).filter fun q => P.shares q g

/-- values of all copies of a global DOF, by increasing rank -/
def copiesOf (P : PD) (v : ℕ → ℕ → T) (g : ℕ) : List T := (holders P g).map fun q => v q (P.loc q g)

/-! ### proof -/

theorem mem_exDofs {p q d : ℕ} : d ∈ exDofs P p q ↔ d < P.ndof p ∧ q ∈ P.dps p d := by
  simp [exDofs]

theorem exDofs_sorted (p q : ℕ) : (exDofs P p q).Pairwise (· < ·) := (List.pairwise_lt_range).filter _

/-- both processes list the DOFs that they share in the same order -/
theorem exDofs_eq_map (hP : P.WF) {p q : ℕ} (hp : p < P.np) (hq : q < P.np) (hne : p ≠ q) :
    exDofs P q p = (exDofs P p q).map fun d => P.loc q (P.glob p d) := by
  apply eq_of_pairwise_of_mem (exDofs_sorted q p)
  · rw [List.pairwise_map]
    refine (exDofs_sorted p q).imp_of_mem ?_
    intro a b ha hb hab
    rw [mem_exDofs, mem_dps] at ha hb
    have la := loc_spec ha.2.2.2
    have lb := loc_spec hb.2.2.2
    exact hP.mono p hp q hq a ha.1 b hb.1 _ la.1 _ lb.1 la.2.symm lb.2.symm hab
  · intro e
    rw [mem_exDofs, List.mem_map, mem_dps]
    constructor
    · rintro ⟨he, _, _, hs⟩
      have hl := loc_spec hs
      refine ⟨P.loc p (P.glob q e), ?_, ?_⟩
      · rw [mem_exDofs, mem_dps, hl.2]
        exact ⟨hl.1, hq, fun h => hne h.symm, shares_glob he⟩
      · rw [hl.2]; exact loc_glob hP hq he
    · rintro ⟨d, hd, rfl⟩
      rw [mem_exDofs, mem_dps] at hd
      have hl := loc_spec hd.2.2.2
      rw [hl.2]
      exact ⟨hl.1, hp, hne, shares_glob hd.1⟩

/-- the loop over `dps`: own value before the first higher rank -/
theorem foldlM_dofStep (p : ℕ) (lam : T → T → T) (own : T) (recv : ℕ → List T) (f : ℕ → T) (l : List ℕ)
    (hs : l.Pairwise (· < ·)) (hp : p ∉ l) (s : DofSt T) (hr : ∀ q ∈ l, (recv q)[s.perow q]? = some (f q))
    (hd : s.locDone = true → ∀ q ∈ l, p < q) :
    ∃ t, l.foldlM (dofStep p lam own recv) s = some t ∧
      t.perow = (fun q => if q ∈ l then s.perow q + 1 else s.perow q) ∧
      (if t.locDone then t.val else lam t.val own) =
        if s.locDone then (l.map f).foldl lam s.val
        else ((l.filter (· < p)).map f ++ [own] ++ (l.filter (p < ·)).map f).foldl lam s.val := by
  induction l generalizing s with
  | nil => exact ⟨s, rfl, by simp, by cases s.locDone <;> simp⟩
  | cons q l ih =>
    have hc := List.pairwise_cons.1 hs
    simp only [List.mem_cons, not_or] at hp
    have hq : q ∉ l := fun h => (hc.1 q h).false
    have hrq := hr q List.mem_cons_self
    have key : ∀ s1 : DofSt T, s1.perow = s.perow → (s1.locDone = true → p < q) →
        (dofStep p lam own recv s q = some ⟨lam s1.val (f q), s1.locDone, Function.update s.perow q (s.perow q + 1)⟩) →
        ∃ t, (q :: l).foldlM (dofStep p lam own recv) s = some t ∧
          t.perow = (fun r => if r ∈ q :: l then s.perow r + 1 else s.perow r) ∧
          (if t.locDone then t.val else lam t.val own) =
            if s1.locDone then (l.map f).foldl lam (lam s1.val (f q))
            else ((l.filter (· < p)).map f ++ [own] ++ (l.filter (p < ·)).map f).foldl lam (lam s1.val (f q)) := by
      intro s1 h1 h2 h3
      obtain ⟨t, t1, t2, t3⟩ := ih hc.2 hp.2 ⟨lam s1.val (f q), s1.locDone, Function.update s.perow q (s.perow q + 1)⟩
        (by
          intro r hrl
          have : r ≠ q := fun h => hq (h ▸ hrl)
          show (recv r)[Function.update s.perow q (s.perow q + 1) r]? = _
          rw [Function.update_of_ne this]
          exact hr r (List.mem_cons_of_mem _ hrl))
        (by intro h r hrl; have := hc.1 r hrl; have := h2 h; omega)
      refine ⟨t, ?_, ?_, t3⟩
      · rw [List.foldlM_cons, h3]; exact t1
      · rw [t2]
        funext r
        by_cases h : r = q
        · subst h; simp [hq]
        · simp [h]
    by_cases hlt : p < q
    · cases hld : s.locDone with
      | true =>
        obtain ⟨t, t1, t2, t3⟩ := key s rfl (fun _ => hlt) (by simp [dofStep, hld, hrq])
        refine ⟨t, t1, t2, ?_⟩
        rw [t3]; simp [hld]
      | false =>
        obtain ⟨t, t1, t2, t3⟩ := key ⟨lam s.val own, true, s.perow⟩ rfl (fun _ => hlt) (by simp [dofStep, hld, hrq, hlt])
        refine ⟨t, t1, t2, ?_⟩
        rw [t3]
        have h1 : l.filter (· < p) = [] := by
          rw [List.filter_eq_nil_iff]; intro r hr'; have := hc.1 r hr'; simp only [decide_eq_true_eq]; omega
        have h2 : (l.filter (p < ·)) = l := by
          rw [List.filter_eq_self]; intro r hr'; have := hc.1 r hr'; simp only [decide_eq_true_eq]; omega
        have h3 : ¬ q < p := by omega
        simp [h1, h2, h3, hlt]
    · have hld : s.locDone = false := by
        cases h : s.locDone with
        | false => rfl
        | true => exact absurd (hd h q List.mem_cons_self) hlt
      obtain ⟨t, t1, t2, t3⟩ := key s rfl (fun h => by rw [hld] at h; cases h) (by simp [dofStep, hld, hrq, hlt])
      refine ⟨t, t1, t2, ?_⟩
      rw [t3]
      have h3 : q < p := by omega
      simp [h3, hlt, hld]

/-- own rank inserted into the other holders -/
theorem holders_split {p d : ℕ} (hp : p < P.np) (hd : d < P.ndof p) :
    (P.dps p d).filter (· < p) ++ [p] ++ (P.dps p d).filter (p < ·) = holders P (P.glob p d) := by
  apply eq_of_pairwise_of_mem
  · rw [List.append_assoc, List.pairwise_append]
    refine ⟨(dps_sorted p d).filter _, ?_, ?_⟩
    · rw [List.singleton_append, List.pairwise_cons]
      refine ⟨fun b hb => by simpa using List.of_mem_filter hb, (dps_sorted p d).filter _⟩
    · intro a ha b hb
      have h1 : a < p := by simpa using List.of_mem_filter ha
      rw [List.singleton_append, List.mem_cons] at hb
      rcases hb with rfl | hb
      · exact h1
      · have h2 : p < b := by simpa using List.of_mem_filter hb
        omega
  · exact (List.pairwise_lt_range).filter _
  · intro x
    simp only [List.mem_append, List.mem_filter, mem_dps, decide_eq_true_eq, List.mem_singleton, holders, List.mem_range]
    constructor
    · rintro ((h | rfl) | h)
      · exact ⟨h.1.1, h.1.2.2⟩
      · exact ⟨hp, shares_glob hd⟩
      · exact ⟨h.1.1, h.1.2.2⟩
    · rintro ⟨h1, h2⟩
      rcases lt_trichotomy x p with h | rfl | h
      · exact Or.inl (Or.inl ⟨⟨h1, by omega, h2⟩, h⟩)
      · exact Or.inl (Or.inr rfl)
      · exact Or.inr ⟨⟨h1, by omega, h2⟩, h⟩

/-- the result for one DOF -/
def reduced (P : PD) (lam : T → T → T) (zero : T) (v : ℕ → ℕ → T) (p d : ℕ) : T :=
  if (P.dps p d).isEmpty then v p d else (copiesOf P v (P.glob p d)).foldl lam zero

theorem reduceLoop_spec (hP : P.WF) {p : ℕ} (hp : p < P.np) (lam : T → T → T) (zero : T) (v : ℕ → ℕ → T) (recv : ℕ → List T)
    (hrecv : ∀ q ∈ P.exProcs p, recv q = (exDofs P q p).map (v q)) {n : ℕ} (hn : n ≤ P.ndof p) :
    ∃ data perow, reduceLoop P p lam zero recv (v p) n = some (data, perow) ∧
      (∀ q, perow q = cnt (exDofs P p q) n) ∧
      ∀ d, data d = if d < n then reduced P lam zero v p d else v p d := by
  induction n with
  | zero => exact ⟨v p, fun _ => 0, rfl, fun q => by simp [cnt], fun d => by simp⟩
  | succ n ih =>
    obtain ⟨data, perow, h1, h2, h3⟩ := ih (by omega)
    have hdn : data n = v p n := by rw [h3, if_neg (lt_irrefl _)]
    have hcnt : ∀ q, cnt (exDofs P p q) (n + 1) = if q ∈ P.dps p n then cnt (exDofs P p q) n + 1 else cnt (exDofs P p q) n := by
      intro q
      by_cases hq : q ∈ P.dps p n
      · rw [if_pos hq]
        exact (cnt_mem (exDofs_sorted p q) (mem_exDofs.2 ⟨by omega, hq⟩)).2
      · rw [if_neg hq]
        exact (cnt_not_mem (exDofs_sorted p q) (fun h => hq (mem_exDofs.1 h).2)).2
    suffices h : ∃ perow', reduceDof P p lam zero data recv n perow = some (reduced P lam zero v p n, perow') ∧
        ∀ q, perow' q = cnt (exDofs P p q) (n + 1) by
      obtain ⟨perow', h4, h5⟩ := h
      refine ⟨Function.update data n (reduced P lam zero v p n), perow', ?_, h5, ?_⟩
      · rw [reduceLoop, h1]
        simp only [Option.bind_eq_bind, Option.bind_some, h4]
      · intro d
        by_cases hd : d = n
        · subst hd; simp
        · rw [Function.update_of_ne hd, h3]
          by_cases hlt : d < n
          · rw [if_pos hlt, if_pos (by omega)]
          · rw [if_neg hlt, if_neg (by omega)]
    rw [reduceDof]
    by_cases he : (P.dps p n).isEmpty = true
    · refine ⟨perow, ?_, ?_⟩
      · rw [if_pos he, reduced, if_pos he, hdn]
      · intro q
        rw [hcnt, if_neg, h2]
        rw [List.isEmpty_iff] at he
        simp [he]
    · have hex : ∀ q ∈ P.dps p n, q ∈ P.exProcs p := by
        intro q hq
        have := mem_dps.1 hq
        exact mem_exProcs.2 ⟨this.1, n, by omega, this.2⟩
      obtain ⟨t, t1, t2, t3⟩ := foldlM_dofStep p lam (data n) recv (fun q => v q (P.loc q (P.glob p n))) (P.dps p n)
        (dps_sorted p n) (fun h => (mem_dps.1 h).2.1 rfl) ⟨zero, false, perow⟩
        (by
          intro q hq
          have hq' := mem_dps.1 hq
          show (recv q)[perow q]? = _
          rw [hrecv q (hex q hq), exDofs_eq_map hP hp hq'.1 (fun h => hq'.2.1 h.symm), List.map_map, List.getElem?_map, h2,
            (cnt_mem (exDofs_sorted p q) (mem_exDofs.2 ⟨by omega, hq⟩)).1]
          rfl)
        (by intro h; cases h)
      refine ⟨t.perow, ?_, ?_⟩
      · rw [if_neg he, t1, Option.map_some, t3]
        congr 2
        rw [reduced, if_neg he, copiesOf, ← holders_split hp (by omega : n < P.ndof p)]
        simp only [Bool.false_eq_true, if_false, List.map_append, List.map_cons, List.map_nil, hdn]
        rw [loc_glob hP hp (by omega)]
      · intro q
        rw [t2, hcnt]
        simp only [h2]

theorem matched_allReduce (lam : T → T → T) (zero : T) : Matched P.np [allReduce P lam zero] := by
  have sym : ∀ p, p < P.np → ∀ q, q < P.np → q ∈ P.exProcs p → p ∈ P.exProcs q := by
    intro p hp q hq h
    obtain ⟨_, d, hd, hne, hs⟩ := mem_exProcs.1 h
    have hl := loc_spec hs
    exact mem_exProcs.2 ⟨hp, _, hl.1, fun h => hne h.symm, by rw [hl.2]; exact shares_glob hd⟩
  intro ph hph p hp
  rw [List.mem_singleton] at hph
  subst hph
  have hlt : ∀ q, (P.exProcs p).contains q = true → q < P.np := by
    intro q h
    rw [List.contains_iff_mem] at h
    exact (exProcs_ne h).1
  refine ⟨fun q hq => ?_, hlt, hlt⟩
  show (P.exProcs p).contains q = (P.exProcs q).contains p
  rw [Bool.eq_iff_iff, List.contains_iff_mem, List.contains_iff_mem]
  exact ⟨sym p hp q hq, sym q hq p hp⟩

/-- **C50.** For every number of processes and sharing pattern, every reduction function (it need not be associative or commutative,
like floating point addition) and every schedule: when all processes are done no access has left a buffer, a DOF that is not shared
keeps its value, and a shared DOF has, on every process that has it, the values of all copies reduced by increasing rank. -/
theorem allReduce_correct (hP : P.WF) (lam : T → T → T) (zero : T) (v : ℕ → ℕ → T) {n : ℕ} {s : St (Option (ℕ → T)) (List T)}
    (hr : Reach P.np [allReduce P lam zero] (fun p => some (v p)) n s) (hf : Final P.np [allReduce P lam zero] s) :
    ∀ p < P.np, ∃ data, s.vec p = some data ∧ ∀ d < P.ndof p,
      data d = if P.dps p d = [] then v p d else (copiesOf P v (P.glob p d)).foldl lam zero := by
  intro p hp
  rw [(final_state (matched_allReduce lam zero) hr hf).1 p hp]
  obtain ⟨data, perow, h1, _, h3⟩ := reduceLoop_spec hP hp lam zero v
    (fun q => if (P.exProcs p).contains q then (exDofs P q p).map (v q) else default)
    (by intro q hq; rw [if_pos (List.contains_iff_mem.2 hq)]) le_rfl
  refine ⟨data, ?_, fun d hd => ?_⟩
  · show (reduceLoop P p lam zero (fun q => if (P.exProcs p).contains q then (exDofs P q p).map (v q) else default) (v p)
      (P.ndof p)).map Prod.fst = _
    rw [h1]; rfl
  · rw [h3, if_pos hd, reduced]
    simp only [List.isEmpty_iff]

/-- **C50**, same result everywhere: two processes that share a DOF have exactly the same value, for every reduction function. -/
theorem allReduce_same (hP : P.WF) (lam : T → T → T) (zero : T) (v : ℕ → ℕ → T) {n : ℕ} {s : St (Option (ℕ → T)) (List T)}
    (hr : Reach P.np [allReduce P lam zero] (fun p => some (v p)) n s) (hf : Final P.np [allReduce P lam zero] s)
    {p q d e : ℕ} (hp : p < P.np) (hq : q < P.np) (hd : d < P.ndof p) (he : e < P.ndof q) (hg : P.glob p d = P.glob q e) :
    ∃ a b, s.vec p = some a ∧ s.vec q = some b ∧ a d = b e := by
  obtain ⟨a, ha, ha'⟩ := allReduce_correct hP lam zero v hr hf p hp
  obtain ⟨b, hb, hb'⟩ := allReduce_correct hP lam zero v hr hf q hq
  refine ⟨a, b, ha, hb, ?_⟩
  by_cases hpq : p = q
  · subst hpq
    rw [ha] at hb
    cases hb
    rw [hP.inj p hp d hd e he hg]
  · have h1 : q ∈ P.dps p d := mem_dps.2 ⟨hq, fun h => hpq h.symm, by rw [hg]; exact shares_glob he⟩
    have h2 : p ∈ P.dps q e := mem_dps.2 ⟨hp, hpq, by rw [← hg]; exact shares_glob hd⟩
    rw [ha' d hd, hb' e he, if_neg (List.ne_nil_of_mem h1), if_neg (List.ne_nil_of_mem h2), hg]

theorem sum_copiesOf {M : Type} [AddCommMonoid M] (hP : P.WF) (v : ℕ → ℕ → M) (p d : ℕ) :
    (copiesOf P v (P.glob p d)).foldl (· + ·) 0 = gsum P v (P.glob p d) := by
  rw [gsum_at hP, ← List.sum_eq_foldl, copiesOf, holders, ← Finset.sum_filter,
    show (Finset.range P.np).filter (fun q => P.shares q (P.glob p d) = true) =
      ((List.range P.np).filter fun q => P.shares q (P.glob p d)).toFinset by ext; simp,
    List.sum_toFinset _ (List.nodup_range.filter _)]

/-- **C50**, sums: with addition every copy has the sum over all copies. -/
theorem allReduce_sum {M : Type} [AddCommMonoid M] (hP : P.WF) (v : ℕ → ℕ → M) {n : ℕ} {s : St (Option (ℕ → M)) (List M)}
    (hr : Reach P.np [allReduce P (· + ·) 0] (fun p => some (v p)) n s) (hf : Final P.np [allReduce P (· + ·) 0] s) :
    ∀ p < P.np, ∃ data, s.vec p = some data ∧ ∀ d < P.ndof p, data d = gsum P v (P.glob p d) := by
  intro p hp
  obtain ⟨data, h1, h2⟩ := allReduce_correct hP (· + ·) 0 v hr hf p hp
  refine ⟨data, h1, fun d hd => ?_⟩
  rw [h2 d hd]
  split_ifs with h
  · rw [gsum_at hP, Finset.sum_eq_single p, if_pos (shares_glob hd), loc_glob hP hp hd]
    · intro q hq hne
      rw [if_neg]
      intro hs
      have : q ∈ P.dps p d := mem_dps.2 ⟨Finset.mem_range.1 hq, hne, hs⟩
      rw [h] at this
      simp at this
    · intro hn; exact absurd (Finset.mem_range.2 hp) hn
  · exact sum_copiesOf hP v p d

/-- **C50**: no process hangs. -/
theorem allReduce_progress (lam : T → T → T) (zero : T) (v : ℕ → Option (ℕ → T)) {n : ℕ} {s : St (Option (ℕ → T)) (List T)}
    (hr : Reach P.np [allReduce P lam zero] v n s) :
    (¬ Final P.np [allReduce P lam zero] s → ∃ t, Step P.np [allReduce P lam zero] s t) ∧ n ≤ 2 * P.np :=
  ⟨fun h => no_deadlock (matched_allReduce lam zero) hr h, by simpa using terminates (matched_allReduce lam zero) hr⟩

/-- a concrete case with subtraction, which is neither associative nor commutative: three processes share DOF 7 -/
example : ∃ n s, Reach exPD.np [allReduce exPD (· - ·) (0 : ℤ)] (fun p => some fun d => (10 * p + d : ℤ)) n s ∧
    Final exPD.np [allReduce exPD (· - ·) (0 : ℤ)] s ∧
    (copiesOf exPD (fun p d => (10 * p + d : ℤ)) 7) = [2, 12, 22] ∧ ∃ a b, s.vec 0 = some a ∧ s.vec 2 = some b ∧ a 2 = b 2 := by
  obtain ⟨n, s, hr, hf⟩ := exists_final (matched_allReduce (P := exPD) (· - ·) (0 : ℤ)) (fun p => some fun d => (10 * p + d : ℤ))
  exact ⟨n, s, hr, hf, by decide, allReduce_same exPD_WF _ _ (fun p d => (10 * p + d : ℤ)) hr hf (by decide) (by decide)
    (by decide) (by decide) (by decide)⟩

end NgsAMG.AR
