import Verif.Model.ModDiag
import Verif.Props.AllReduce
import Verif.Props.HybridEnergy2

/-! C52: the modified diagonal of the hybrid smoothers, and what it is for: a hybrid Gauss-Seidel call does not increase the energy of
the error. -/

namespace NgsAMG.ModDiag

open NgsAMG.DCC NgsAMG.Hybrid NgsAMG.Exch NgsAMG.GS NgsAMG.HybSm Matrix

variable {k : ℕ} {P : PD}

/-! ### specification -/

/-- strength of the couplings of component `l` of the global DOF `g` to DOFs of other masters, relative to the diagonal of the global
operator; the contributions of the processes are taken separately -/
noncomputable def strength (P : PD) (A : ℕ → CSR (Blk k)) (g : ℕ) (l : Fin k) : ℝ :=
  ∑ p ∈ Finset.range P.np, ∑ d ∈ Finset.range (P.ndof p), ∑ e ∈ Finset.range (P.ndof p),
    if P.glob p d = g ∧ P.owner (P.glob p e) ≠ P.owner g then
      ∑ m, |(A p).entry d e l m| / (√(gop P A g g l l) * √(gop P A (P.glob p e) (P.glob p e) m m)) else 0

/-- `f` is the largest of `1` and `0.51 (1 + a_l)` -/
def IsFactor (f : ℝ) (a : Fin k → ℝ) : Prop :=
  1 ≤ f ∧ (∀ l, 51 / 100 * (1 + a l) ≤ f) ∧ (f = 1 ∨ ∃ l, f = 51 / 100 * (1 + a l))

/-! ### local operations -/

theorem maxfac_isFactor (a : Fin k → ℝ) : IsFactor (maxfac a) a := by
  have key : ∀ (L : List (Fin k)) (f : ℝ), f ≤ L.foldl (fun f i => max f (51 / 100 * (1 + a i))) f ∧
      (∀ l ∈ L, 51 / 100 * (1 + a l) ≤ L.foldl (fun f i => max f (51 / 100 * (1 + a i))) f) ∧
      (L.foldl (fun f i => max f (51 / 100 * (1 + a i))) f = f ∨ ∃ l, L.foldl (fun f i => max f (51 / 100 * (1 + a i))) f = 51 / 100 * (1 + a l)) := by
    intro L
    induction L with
    | nil => intro f; simp
    | cons i L ih =>
      intro f
      obtain ⟨h1, h2, h3⟩ := ih (max f (51 / 100 * (1 + a i)))
      refine ⟨le_trans (le_max_left _ _) h1, ?_, ?_⟩
      · intro l hl
        rcases List.mem_cons.1 hl with rfl | hl
        · exact le_trans (le_max_right _ _) h1
        · exact h2 l hl
      · rcases h3 with h3 | h3
        · rcases max_choice f (51 / 100 * (1 + a i)) with h | h
          · left; rw [List.foldl_cons, h3, h]
          · right; exact ⟨i, by rw [List.foldl_cons, h3, h]⟩
        · exact Or.inr h3
  obtain ⟨h1, h2, h3⟩ := key (List.finRange k) 1
  exact ⟨h1, fun l => h2 l (List.mem_finRange l), h3⟩

theorem foldl_add_sum {α : Type*} (f : α → ℝ) (L : List α) (s : ℝ) : L.foldl (fun s m => s + f m) s = s + (L.map f).sum := by
  induction L generalizing s with
  | nil => simp
  | cons a L ih => rw [List.foldl_cons, ih, List.map_cons, List.sum_cons, add_assoc]

theorem addRow_eq (sq : ℕ → Fin k → ℝ) (d : ℕ) (row : List (ℕ × Blk k)) (l : Fin k) :
    addRow sq d row l = (row.map fun e => ∑ m, |e.2 l m| / (sq d l * sq e.1 m)).sum := by
  have key : ∀ (row : List (ℕ × Blk k)) (ad : Fin k → ℝ), row.foldl (fun ad e => fun l => (List.finRange k).foldl
      (fun s m => s + |e.2 l m| / (sq d l * sq e.1 m)) (ad l)) ad l = ad l + (row.map fun e => ∑ m, |e.2 l m| / (sq d l * sq e.1 m)).sum := by
    intro row
    induction row with
    | nil => intro ad; simp
    | cons e row ih =>
      intro ad
      rw [List.foldl_cons, ih, foldl_add_sum, List.map_cons, List.sum_cons, add_assoc, Fin.sum_univ_def]
  rw [addRow, key, Pi.zero_apply, zero_add]

/-- sum over the entries of a row of a sparse matrix -/
theorem row_sum (A : CSR (Blk k)) (hA : A.WF) (d n : ℕ) (hn : A.width ≤ n) (f : ℕ → Blk k → ℝ) (h0 : ∀ c, f c 0 = 0) :
    ((A.row d).map fun e => f e.1 e.2).sum = ∑ c ∈ Finset.range n, f c (A.entry d c) := by
  have hs := hA.sorted d
  have hr : ∀ e ∈ A.row d, e.1 < n := fun e he => lt_of_lt_of_le (hA.inRange d e he) hn
  rw [show (∑ c ∈ Finset.range n, f c (A.entry d c)) =
    ∑ c ∈ Finset.range n, f c (((A.row d).filter (fun e => e.1 = c)).map Prod.snd).sum from rfl]
  revert hs hr
  induction A.row d with
  | nil => intro _ _; simp [h0]
  | cons a l ih =>
    intro hs hr
    rw [List.map_cons, List.pairwise_cons] at hs
    rw [List.map_cons, List.sum_cons, ih hs.2 (fun e he => hr e (List.mem_cons_of_mem _ he))]
    have hane : ∀ e ∈ l, e.1 ≠ a.1 := fun e he h => by
      have := hs.1 e.1 (List.mem_map.2 ⟨e, he, rfl⟩); omega
    have e1 : ∀ c, f c (((a :: l).filter (fun e => e.1 = c)).map Prod.snd).sum =
        (if c = a.1 then f a.1 a.2 else 0) + f c ((l.filter (fun e => e.1 = c)).map Prod.snd).sum := by
      intro c
      by_cases hc : c = a.1
      · subst hc
        have : l.filter (fun e => e.1 = a.1) = [] := by
          rw [List.filter_eq_nil_iff]; intro e he; simpa using hane e he
        simp [this, h0]
      · have : ¬ a.1 = c := fun h => hc h.symm
        simp [this, hc]
    simp only [e1]
    rw [Finset.sum_add_distrib, Finset.sum_ite_eq', if_pos (Finset.mem_range.2 (hr a List.mem_cons_self))]

/-! ### the program -/

theorem runPhase_sum {M : Type} [AddCommMonoid M] (hP : P.WF) (v : ℕ → ℕ → M) {p : ℕ} (hp : p < P.np) :
    ∃ data, runPhase (AR.allReduce P (· + ·) 0) (fun p => some (v p)) p = some data ∧ ∀ d < P.ndof p, data d = gsum P v (P.glob p d) := by
  obtain ⟨n, s, hr, hf⟩ := exists_final (AR.matched_allReduce (P := P) (· + ·) (0 : M)) (fun p => some (v p))
  obtain ⟨data, h1, h2⟩ := AR.allReduce_sum hP v hr hf p hp
  refine ⟨data, ?_, h2⟩
  rw [← h1, (final_state (AR.matched_allReduce (P := P) (· + ·) (0 : M)) hr hf).1 p hp]
  rfl

theorem matched_calcModDiag (G : ℕ → Option (CSR (Blk k))) (free : ℕ → Option (ℕ → Bool)) : Matched P.np (calcModDiag P G free) := by
  intro ph hph p hp
  simp only [calcModDiag, List.mem_cons, List.not_mem_nil, or_false] at hph
  rcases hph with rfl | rfl
  · exact AR.matched_allReduce (P := P) (· + ·) (0 : Blk k) _ (List.mem_singleton.2 rfl) p hp
  · exact AR.matched_allReduce (P := P) (· + ·) (0 : Fin k → ℝ) _ (List.mem_singleton.2 rfl) p hp

/-- diagonal of the global operator from the diagonals of `M` -/
theorem gsum_diagM (hP : P.WF) {A M : ℕ → CSR (Blk k)} {G : ℕ → Option (CSR (Blk k))}
    (hMG : ∀ p < P.np, LocalSpec P A p (M p) (G p)) {p d : ℕ} (hp : p < P.np) (hd : d < P.ndof p) :
    gsum P (fun p d => (M p).lookup d d) (P.glob p d) = gop P A (P.glob p d) (P.glob p d) := by
  rw [← gsum_masters hP (fun g => gop P A g g) hp hd]
  apply gsum_congr
  intro q hq e he
  rw [CSR.lookup_eq_entry _ (hMG q hq).wfM, (hMG q hq).entryM e he e he]
  simp only [and_self]

theorem noNeighbours {p : ℕ} (h : P.exProcs p = []) {d : ℕ} (hd : d < P.ndof p) {q : ℕ} (hq : q < P.np)
    (hs : P.shares q (P.glob p d) = true) : q = p := by
  by_contra hne
  have : q ∈ P.exProcs p := mem_exProcs.2 ⟨hq, d, hd, hne, hs⟩
  rw [h] at this; simp at this

theorem strength_noNeighbours (A : ℕ → CSR (Blk k)) {p : ℕ} (hp : p < P.np) (h : P.exProcs p = []) {d : ℕ} (hd : d < P.ndof p) :
    strength P A (P.glob p d) = 0 := by
  have own : ∀ e < P.ndof p, P.owner (P.glob p e) = p := by
    intro e he
    have := owner_spec hp (shares_glob he)
    exact noNeighbours h he (by omega) this.1
  funext l
  rw [strength]
  refine Finset.sum_eq_zero fun q hq => Finset.sum_eq_zero fun d' hd' => Finset.sum_eq_zero fun e he => ?_
  rw [Finset.mem_range] at hq hd' he
  rw [if_neg]
  rintro ⟨h1, h2⟩
  have := noNeighbours h hd hq (by rw [← h1]; exact shares_glob hd')
  subst this
  exact h2 (by rw [own e he, own d hd])

/-- **C52**, the modified diagonal: for every number of processes, sharing pattern, global operator and consistent set of free DOFs, in
every schedule: when all processes are done, each has, for each of its free master DOFs, the diagonal of the *global* operator scaled
by the largest of `1` and `0.51 (1 + strength)`. -/
theorem calcModDiag_correct (hP : P.WF) {A M : ℕ → CSR (Blk k)} {G : ℕ → Option (CSR (Blk k))}
    (hMG : ∀ p < P.np, LocalSpec P A p (M p) (G p)) (free : ℕ → Option (ℕ → Bool)) (F : ℕ → Bool)
    (hF : ∀ p < P.np, ∀ d < P.ndof p, inSubset (free p) d = F (P.glob p d)) {n : ℕ} {s : St (Vars k) (Msg k)}
    (hr : Reach P.np (calcModDiag P G free) (start M) n s) (hf : Final P.np (calcModDiag P G free) s) :
    ∀ p < P.np, ∃ md, usedDiag P M p (s.vec p) = some md ∧ ∀ d < P.ndof p, P.owner (P.glob p d) = p → F (P.glob p d) = true →
      ∃ f, IsFactor f (strength P A (P.glob p d)) ∧ md d = f • gop P A (P.glob p d) (P.glob p d) := by
  intro p hp
  rw [(final_state (matched_calcModDiag G free) hr hf).1 p hp]
  -- first reduction
  have h1 : ∀ q < P.np, ∃ orig, (runPhase (phase1 P G free) (start M) q).orig = some orig ∧
      (runPhase (phase1 P G free) (start M) q).add = some (addDiag orig ((G q).getD emptyM) (free q)) ∧
      ∀ d < P.ndof q, orig d = gop P A (P.glob q d) (P.glob q d) := by
    intro q hq
    obtain ⟨orig, e1, e2⟩ := runPhase_sum hP (fun p d => (M p).lookup d d) hq
    have e : (runPhase (phase1 P G free) (start M) q).orig = some orig := by
      have hR : (fun r => (if (AR.allReduce (T := Blk k) P (· + ·) 0).recvs q r = true then
          (phase1 P G free).msg r (start M r) q else default : Msg k).1) =
          fun r => if (AR.allReduce (T := Blk k) P (· + ·) 0).recvs q r = true then
            (AR.allReduce (T := Blk k) P (· + ·) 0).msg r (some fun d => (M r).lookup d d) q else default := by
        funext r
        by_cases hr : (AR.allReduce (T := Blk k) P (· + ·) 0).recvs q r = true
        · rw [if_pos hr, if_pos hr]; rfl
        · rw [if_neg hr, if_neg hr]; rfl
      exact (congrArg ((AR.allReduce (T := Blk k) P (· + ·) 0).apply q (some fun d => (M q).lookup d d)) hR).trans e1
    refine ⟨orig, e, ?_, fun d hd => ?_⟩
    · show ((runPhase (phase1 P G free) (start M) q).orig).map _ = _
      rw [e]; rfl
    · rw [e2 d hd, gsum_diagM hP hMG hq hd]
  choose! orig o1 o2 o3 using h1
  -- second reduction
  have h2 : ∃ ad, (runPhase (phase2 P free) (runPhase (phase1 P G free) (start M)) p).md =
      some (modify P p (free p) (orig p) ad) ∧
      ∀ d < P.ndof p, ad d = gsum P (fun q => addDiag (orig q) ((G q).getD emptyM) (free q)) (P.glob p d) := by
    obtain ⟨ad, e1, e2⟩ := runPhase_sum hP (fun q => addDiag (orig q) ((G q).getD emptyM) (free q)) hp
    have e : (AR.allReduce (T := Fin k → ℝ) P (· + ·) 0).apply p (runPhase (phase1 P G free) (start M) p).add
        (fun q => (if (AR.allReduce (T := Fin k → ℝ) P (· + ·) 0).recvs p q = true then
          (phase2 P free).msg q (runPhase (phase1 P G free) (start M) q) p else default : Msg k).2) = some ad := by
      rw [← e1, o2 p hp]
      show (AR.allReduce P (· + ·) 0).apply p _ _ = (AR.allReduce P (· + ·) 0).apply p _ _
      congr 1
      funext r
      by_cases hr : (AR.allReduce (T := Fin k → ℝ) P (· + ·) 0).recvs p r = true
      · have hrn : r < P.np := (exProcs_ne (List.contains_iff_mem.1 hr)).1
        rw [if_pos hr, if_pos hr]
        show (AR.allReduce P (· + ·) 0).msg r (runPhase (phase1 P G free) (start M) r).add p = _
        rw [o2 r hrn]
      · rw [if_neg hr, if_neg hr]; rfl
    refine ⟨ad, ?_, e2⟩
    show (runPhase (phase1 P G free) (start M) p).orig.bind (fun orig => Option.map _ ((AR.allReduce (T := Fin k → ℝ) P (· + ·) 0).apply p _ _)) = _
    rw [o1 p hp, Option.bind_some]
    exact congrArg (Option.map (fun ad => modify P p (free p) (orig p) ad)) e
  obtain ⟨ad, hmd, had⟩ := h2
  by_cases hex : P.exProcs p = []
  · refine ⟨fun d => (M p).lookup d d, by rw [usedDiag, if_pos (by simp [hex])], fun d hd ho _ => ⟨1, ?_, ?_⟩⟩
    · rw [strength_noNeighbours A hp hex hd]
      exact ⟨le_rfl, fun l => by norm_num, Or.inl rfl⟩
    · show (M p).lookup d d = _
      rw [one_smul, CSR.lookup_eq_entry _ (hMG p hp).wfM, (hMG p hp).entryM d hd d hd, if_pos ⟨ho, ho⟩]
  · refine ⟨modify P p (free p) (orig p) ad, by rw [usedDiag, if_neg (by simpa using hex)]; exact hmd, fun d hd ho hfr => ?_⟩
    refine ⟨maxfac (ad d), ?_, ?_⟩
    · have : ad d = strength P A (P.glob p d) := by
        rw [had d hd]
        funext l
        rw [DCC.gsum, strength]
        rw [Finset.sum_apply]
        apply Finset.sum_congr rfl; intro q hq
        rw [Finset.sum_apply]
        apply Finset.sum_congr rfl; intro d' hd'
        rw [Finset.mem_range] at hq hd'
        by_cases hg : P.glob q d' = P.glob p d
        · rw [if_pos hg, addDiag, hF q hq d' hd', hg, if_pos hfr, addRow_eq]
          have hs := hMG q hq
          rw [row_sum _ hs.wfG d' (P.ndof q) hs.dimG.1 (fun c v => ∑ m, |v l m| / (scalSqrt (orig q) d' l * scalSqrt (orig q) c m))
            (by simp)]
          apply Finset.sum_congr rfl; intro e he
          rw [Finset.mem_range] at he
          rw [hs.entryG d' hd' e he]
          simp only [scalSqrt, o3 q hq d' hd', o3 q hq e he, hg]
          by_cases ho2 : P.owner (P.glob p d) = P.owner (P.glob q e)
          · simp [ho2]
          · rw [if_pos ho2, if_pos ⟨trivial, Ne.symm ho2⟩]
        · rw [if_neg hg]
          symm
          exact Finset.sum_eq_zero fun e _ => if_neg fun h => hg h.1
      rw [← this]
      exact maxfac_isFactor _
    · rw [modify, hF p hp d hd, hfr, (isMaster_iff hp hd).2 ho, o3 p hp d hd]
      rfl

/-- **C52**: no process hangs. -/
theorem calcModDiag_progress (G : ℕ → Option (CSR (Blk k))) (free : ℕ → Option (ℕ → Bool)) (v : ℕ → Vars k) {n : ℕ}
    {s : St (Vars k) (Msg k)} (hr : Reach P.np (calcModDiag P G free) v n s) :
    (¬ Final P.np (calcModDiag P G free) s → ∃ t, Step P.np (calcModDiag P G free) s t) ∧ n ≤ 4 * P.np :=
  ⟨fun h => no_deadlock (matched_calcModDiag G free) hr h, by
    have := terminates (matched_calcModDiag G free) hr
    simpa [calcModDiag] using this⟩

end NgsAMG.ModDiag
