import Verif.Props.HybridDyn5

/-! C84, sixth part: construction for positive definite matrices, and the claim of dyn_block_smoother.hpp:120-125. -/

namespace NgsAMG.HybDyn
open NgsAMG.DCC NgsAMG.Hybrid NgsAMG.HybSm NgsAMG.DynBlock NgsAMG.GS NgsAMG.Spec NgsAMG.BlkGS Matrix

/-- **C84**: for a symmetric positive definite matrix the whole construction succeeds: both parts are converted, every complete run of `CalcScalModDiag` gives
the diagonals, and with these the smoother is constructed and works as specified. -/
theorem hybridDyn_posDef_partial {P : PD} (hP : P.WF) (A : ℕ → CSR (Blk 1)) (hA : GSymm P A) (hpd : ModDiag.PosDef P A) (hsym : ∀ q < P.np, SymPattern (A q))
    (hdiag : ∀ q < P.np, HasDiag (A q)) {M : ℕ → CSR (Blk 1)} {G : ℕ → Option (CSR (Blk 1))} (hMG : ∀ p < P.np, LocalSpec P A p (M p) (G p))
    (hpat : ∀ p < P.np, PatternSpec P A p (M p) (G p)) {inv : SInv} (hinv : Inverts inv) (order : ℕ → List ℕ)
    (ho : ∀ p < P.np, SortedBy (toScal (M p)) (rowBlocking (toScal (M p))) (order p)) (orderG : ℕ → List ℕ)
    (hoG : ∀ p < P.np, ∀ g, G p = some g → SortedBy (toScal g) (rowBlocking (toScal g)) (orderG p))
    (free : ℕ → Option (ℕ → Bool)) (F : ℕ → Bool) (hF : ∀ p < P.np, ∀ d < P.ndof p, inSubset (free p) d = F (P.glob p d)) (omega : ℝ) :
    ∃ (D : ℕ → Dyn ℝ) (DG : ℕ → Option (Dyn ℝ)),
      (∀ p < P.np, finalize (toScal (M p)) (rowBlocking (toScal (M p))) (rowBlocking (toScal (M p))) (order p) = some (D p)) ∧
      (∀ p < P.np, (G p).map (fun g => finalize (toScal g) (rowBlocking (toScal g)) (rowBlocking (toScal g)) (orderG p)) = (DG p).map some) ∧
      ∀ (dp0 dp1 : ℕ → ℕ → ℕ) (n : ℕ) (s : Exch.St (ModDiag.Vars 1) (ModDiag.Msg 1)) (_ : Exch.Reach P.np (calcScalModDiag P DG free) (scalStart D dp0) n s)
        (_ : Exch.Final P.np (calcScalModDiag P DG free) s),
        ∃ md : ℕ → Option (ℕ → ℝ), (∀ p < P.np, scalMd P p (s.vec p) = some (md p)) ∧
          (∀ p < P.np, ∀ d < P.ndof p, P.owner (P.glob p d) = p → F (P.glob p d) = true →
            ∃ f, ModDiag.IsFactor f (ModDiag.strength P A (P.glob p d)) ∧ mdE (toScal (M p)) (md p) d d = f * gop P A (P.glob p d) (P.glob p d) 0 0) ∧
          ∃ (Fs : ℕ → List (List ℕ)) (S : ℕ → HDyn) (ord : ℕ → ℕ → List (SBlock 1)),
            (∀ p < P.np, mkHDyn inv P p (D p) (md p) (free p) omega (dp1 p) = some (S p)) ∧
            ClassGroups P A (fun p => toScal (M p)) md omega free Fs ord ∧ Smooths P A M G (dynKernels S) ord := by
  have hsymT : ∀ {X : CSR (Blk 1)}, SymPattern X → SymPattern (toScal X) := by
    intro X hX i j
    rw [toScal_cols, toScal_cols]
    exact hX i j
  have hsM : ∀ p < P.np, SymPattern (M p) ∧ SymPattern ((G p).getD emptyM) := fun p hp => (hpat p hp).symm hp (hMG p hp) hsym
  have key : ∀ p, ∃ D : Dyn ℝ, p < P.np → finalize (toScal (M p)) (rowBlocking (toScal (M p))) (rowBlocking (toScal (M p))) (order p) = some D ∧ DynOK (toScal (M p)) D := by
    intro p
    by_cases hp : p < P.np
    · have hc : DynBlock.Consistent (toScal (M p)) (rowBlocking (toScal (M p))) (rowBlocking (toScal (M p))) :=
        rowBlocking_consistent _ ((hMG p hp).dimM.1.trans (hMG p hp).dimM.2.symm) (hsymT (hsM p hp).1)
      obtain ⟨D, h⟩ := finalize_ok _ (toScal_wf (hMG p hp).wfM) _ _ hc (order p) (ho p hp)
      exact ⟨D, fun _ => h⟩
    · exact ⟨⟨⟨0, 0, fun _ => 0⟩, ⟨0, 0, fun _ => 0⟩, [], 0, 0⟩, fun h => absurd h hp⟩
  choose D hD using key
  have keyG : ∀ p, ∃ DG : Option (Dyn ℝ), p < P.np → (G p).map (fun g => finalize (toScal g) (rowBlocking (toScal g)) (rowBlocking (toScal g)) (orderG p)) = DG.map some ∧
      (G p = none → DG = none) ∧ ∀ g, G p = some g → ∃ E, DG = some E ∧ DynOK (toScal g) E := by
    intro p
    by_cases hp : p < P.np
    · cases hg : G p with
      | none => exact ⟨none, fun _ => ⟨rfl, fun _ => rfl, fun g h => by cases h⟩⟩
      | some g =>
        have hgd := (hpat p hp).sqG g hg
        have hgw : g.WF := by
          have := (hMG p hp).wfG
          rwa [hg] at this
        have hsg : SymPattern g := by
          have := (hsM p hp).2
          rwa [hg] at this
        have hc : DynBlock.Consistent (toScal g) (rowBlocking (toScal g)) (rowBlocking (toScal g)) := rowBlocking_consistent _ (hgd.1.trans hgd.2.symm) (hsymT hsg)
        obtain ⟨E, hE, hok⟩ := finalize_ok _ (toScal_wf hgw) _ _ hc (orderG p) (hoG p hp g hg)
        refine ⟨some E, fun _ => ⟨?_, (fun h => by cases h), ?_⟩⟩
        · rw [Option.map_some, Option.map_some, hE]
        · intro g' h1
          cases h1
          exact ⟨E, rfl, hok⟩
    · exact ⟨none, fun h => absurd h hp⟩
  choose DG hDG using keyG
  have hparts : DynParts P M G D DG := ⟨fun p hp => (hD p hp).2, fun p hp => (hDG p hp).2.1, fun p hp => (hDG p hp).2.2⟩
  refine ⟨D, DG, fun p hp => (hD p hp).1, fun p hp => (hDG p hp).1, ?_⟩
  intro dp0 dp1 n s hr hf
  have hmd := calcScalModDiag_correct hP hMG (fun p hp => (hpat p hp).diag (hMG p hp) hdiag) hparts dp0 free F hF hr hf
  choose! md hm1 hm2 using hmd
  refine ⟨md, hm1, hm2, ?_⟩
  have hdet : ∀ p < P.np, DetOK (toScal (M p)) (md p) (maf P p (free p)) := fun p hp => detOK_of_posDef hP hA hpd hp (hMG p hp) fun d hd ho hfr => by
    obtain ⟨f, h1, h2⟩ := hm2 p hp d hd ho (by rw [← hF p hp d hd]; exact hfr)
    exact ⟨f, h1.1, h2⟩
  obtain ⟨D', DG', Fs, h1, h2, -, h4⟩ := hybridDyn_correct_partial hP A hA hsym hdiag hMG hpat hinv order ho orderG hoG md free hdet omega
  obtain ⟨S, ord, g1, g2, g3⟩ := h4 dp1
  refine ⟨Fs, S, ord, fun p hp => ?_, g2, g3⟩
  have e : D p = D' p := Option.some.inj ((hD p hp).1.symm.trans (h1 p hp))
  rw [e]
  exact g1 p hp

/-! ### the claim of the header -/

/-- the last process has all unknowns, the other two have two each -/
def dnPD : PD where
  np := 3
  ndof p := if p = 2 then 6 else 2
  glob p d := if p = 2 then d else 2 * p + d

theorem dnPD_WF : dnPD.WF where
  inj := by
    intro p hp d hd e he h
    simp only [dnPD] at *
    split_ifs at * <;> omega
  mono := by
    intro p hp q hq d hd d' hd' e he e' he' h h' hlt
    simp only [dnPD] at *
    split_ifs at * <;> omega

/-- entries -/
noncomputable def dnE (i j : ℕ) : ℝ := if i = j then 1 else if i / 2 = j / 2 then -9 / 10 else 1 / 25

/-- only the last process has entries -/
noncomputable def dnA (p : ℕ) : CSR (Blk 1) := if p = 2 then ⟨6, 6, fun i => if i < 6 then (List.range 6).map fun j => (j, sc (dnE i j)) else []⟩ else ⟨2, 2, fun _ => []⟩

theorem dnA_wf (p : ℕ) : (dnA p).WF := by
  by_cases h : p = 2
  · subst h
    refine ⟨?_, ?_, ?_⟩
    · intro i
      by_cases hi : i < 6
      · simp only [dnA, if_true, hi, List.map_map, Function.comp_def]
        decide
      · simp [dnA, hi]
    · intro i e he
      by_cases hi : i < 6
      · simp only [dnA, if_true, hi, List.mem_map, List.mem_range] at he
        obtain ⟨j, hj, rfl⟩ := he
        exact hj
      · simp [dnA, hi] at he
    · intro i hi
      have : ¬ i < 6 := by simpa [dnA] using hi
      simp [dnA, this]
  · refine ⟨?_, ?_, ?_⟩ <;> simp [dnA, h]

theorem dnA_fits : Fits dnPD dnA := by
  intro p hp
  refine ⟨dnA_wf p, ?_, ?_⟩ <;> by_cases h : p = 2 <;> simp [dnA, dnPD, h]

theorem dnA_cols (p i : ℕ) : cols (dnA p) i = if p = 2 ∧ i < 6 then [0, 1, 2, 3, 4, 5] else [] := by
  by_cases h : p = 2
  · by_cases hi : i < 6
    · rw [if_pos ⟨h, hi⟩]
      simp only [cols, dnA, h, if_true, hi, List.map_map, Function.comp_def]
      decide
    · rw [if_neg fun h => hi h.2]
      simp [cols, dnA, h, hi]
  · rw [if_neg fun h' => h h'.1]
    simp [cols, dnA, h]

theorem dnA_sym (q : ℕ) : SymPattern (dnA q) := by
  intro i j
  rw [dnA_cols, dnA_cols]
  by_cases h : q = 2
  · by_cases hi : i < 6 <;> by_cases hj : j < 6 <;> simp [h, hi, hj] <;> omega
  · simp [h]

theorem dnA_diag (q : ℕ) : HasDiag (dnA q) := by
  intro i hi
  rw [dnA_cols] at hi ⊢
  split at hi
  · rename_i h
    rw [if_pos h]
    have := h.2
    simp; omega
  · exact absurd rfl hi

theorem dn_lt : ∀ p < 3, ∀ d < dnPD.ndof p, dnPD.glob p d < 6 := by decide

theorem dn_gop (g h : ℕ) (hg : g < 6) (hh : h < 6) : gop dnPD dnA g h = sc (dnE g h) := by
  rw [gop]
  rw [show dnPD.np = 3 from rfl, Finset.sum_range_succ, Finset.sum_eq_zero, zero_add]
  · rw [show dnPD.ndof 2 = 6 from rfl, Finset.sum_eq_single g, Finset.sum_eq_single h]
    · rw [if_pos ⟨rfl, rfl⟩]
      simp only [CSR.entry, dnA, if_true, hg]
      interval_cases h <;> simp [List.range_succ]
    · intro c _ hc
      rw [if_neg]
      rintro ⟨-, h2⟩
      exact hc h2
    · intro h'
      exact absurd (Finset.mem_range.2 hh) h'
    · intro c _ hc
      refine Finset.sum_eq_zero fun x _ => if_neg ?_
      rintro ⟨h1, -⟩
      exact hc h1
    · intro h'
      exact absurd (Finset.mem_range.2 hg) h'
  · intro p hp
    rw [Finset.mem_range] at hp
    refine Finset.sum_eq_zero fun d _ => Finset.sum_eq_zero fun c _ => ?_
    have : p ≠ 2 := by omega
    simp [CSR.entry, dnA, this]

theorem dn_gop_out (g h : ℕ) (h' : ¬ (g < 6 ∧ h < 6)) : gop dnPD dnA g h = 0 := by
  rw [gop]
  refine Finset.sum_eq_zero fun p hp => Finset.sum_eq_zero fun d hd => Finset.sum_eq_zero fun e he => if_neg ?_
  rw [Finset.mem_range] at hp hd he
  rintro ⟨rfl, rfl⟩
  exact h' ⟨dn_lt p hp d hd, dn_lt p hp e he⟩

theorem dn_symm : GSymm dnPD dnA := by
  intro g h
  by_cases h' : g < 6 ∧ h < 6
  · rw [dn_gop g h h'.1 h'.2, dn_gop h g h'.2 h'.1]
    have : dnE g h = dnE h g := by
      unfold dnE
      by_cases e : g = h
      · rw [if_pos e, if_pos e.symm]
      · rw [if_neg e, if_neg (Ne.symm e)]
        by_cases e2 : g / 2 = h / 2
        · rw [if_pos e2, if_pos e2.symm]
        · rw [if_neg e2, if_neg (Ne.symm e2)]
    rw [this]
    ext a b
    rfl
  · rw [dn_gop_out g h h', dn_gop_out h g (fun h2 => h' ⟨h2.2, h2.1⟩), Matrix.transpose_zero]

theorem dn_allDofs : allDofs dnPD = Finset.range 6 := by decide

theorem dn_energy (e : ℕ → Fin 1 → ℝ) : genergy dnPD dnA e =
    1 / 100 * ((e 0 0 + e 1 0) ^ 2 + (e 2 0 + e 3 0) ^ 2 + (e 4 0 + e 5 0) ^ 2) +
    19 / 20 * ((e 0 0 - e 1 0) ^ 2 + (e 2 0 - e 3 0) ^ 2 + (e 4 0 - e 5 0) ^ 2) +
    1 / 25 * (e 0 0 + e 1 0 + e 2 0 + e 3 0 + e 4 0 + e 5 0) ^ 2 := by
  have hm : ∀ g < 6, gmul dnPD dnA e g 0 = ∑ h ∈ Finset.range 6, dnE g h * e h 0 := by
    intro g hg
    rw [gmul, dn_allDofs, Finset.sum_apply]
    refine Finset.sum_congr rfl fun h hh => ?_
    rw [dn_gop g h hg (Finset.mem_range.1 hh)]
    simp [Matrix.mulVec, dotProduct, sc]
  rw [genergy, gip, dn_allDofs]
  have : ∑ g ∈ Finset.range 6, gmul dnPD dnA e g ⬝ᵥ e g = ∑ g ∈ Finset.range 6, (∑ h ∈ Finset.range 6, dnE g h * e h 0) * e g 0 := by
    refine Finset.sum_congr rfl fun g hg => ?_
    rw [← hm g (Finset.mem_range.1 hg)]
    simp [dotProduct]
  rw [this]
  simp only [Finset.sum_range_succ, Finset.sum_range_zero, dnE]
  norm_num
  ring

theorem dn_posDef : ModDiag.PosDef dnPD dnA := by
  rintro e ⟨g, hg, hne⟩
  have h0 : e g 0 ≠ 0 := fun h => hne (by funext l; rw [Subsingleton.elim l 0, h]; rfl)
  rw [dn_energy]
  rw [dn_allDofs, Finset.mem_range] at hg
  have key : ∀ a b : ℝ, a ≠ 0 ∨ b ≠ 0 → 0 < 1 / 100 * (a + b) ^ 2 + 19 / 20 * (a - b) ^ 2 := by
    intro a b h
    rcases h with h | h
    · have := sq_pos_of_ne_zero h
      nlinarith [sq_nonneg (a + b), sq_nonneg (a - b)]
    · have := sq_pos_of_ne_zero h
      nlinarith [sq_nonneg (a + b), sq_nonneg (a - b)]
  have nn : ∀ a b : ℝ, 0 ≤ 1 / 100 * (a + b) ^ 2 + 19 / 20 * (a - b) ^ 2 := fun a b => by positivity
  have h7 := sq_nonneg (e 0 0 + e 1 0 + e 2 0 + e 3 0 + e 4 0 + e 5 0)
  have a1 := nn (e 0 0) (e 1 0)
  have a2 := nn (e 2 0) (e 3 0)
  have a3 := nn (e 4 0) (e 5 0)
  interval_cases g
  · have := key (e 0 0) (e 1 0) (.inl h0); linarith
  · have := key (e 0 0) (e 1 0) (.inr h0); linarith
  · have := key (e 2 0) (e 3 0) (.inl h0); linarith
  · have := key (e 2 0) (e 3 0) (.inr h0); linarith
  · have := key (e 4 0) (e 5 0) (.inl h0); linarith
  · have := key (e 4 0) (e 5 0) (.inr h0); linarith

theorem dn_owner (g : ℕ) (hg : g < 6) : dnPD.owner g = g / 2 := by
  interval_cases g <;> decide

/-- the class of the unknowns of process `p` -/
def dnF (p : ℕ) : List ℕ := if p = 2 then [4, 5] else [0, 1]

theorem dn_cols {M : ℕ → CSR (Blk 1)} {G : ℕ → Option (CSR (Blk 1))} (hMG : ∀ p < 3, LocalSpec dnPD dnA p (M p) (G p)) (hpat : ∀ p < 3, PatternSpec dnPD dnA p (M p) (G p))
    {p d : ℕ} (hp : p < 3) (hd : d < dnPD.ndof p) : colsOf (toScal (M p)) d = if d ∈ dnF p then dnF p else [] := by
  have hs := hMG p hp
  show cols (toScal (M p)) d = _
  rw [toScal_cols]
  have hsorted : (cols (M p) d).Pairwise (· < ·) := hs.wfM.sorted d
  have hmem : ∀ e, e ∈ cols (M p) d ↔ e ∈ (if d ∈ dnF p then dnF p else []) := by
    intro e
    have hdec : ∀ p < 3, ∀ d < dnPD.ndof p, ∀ e < dnPD.ndof p, (dnPD.owner (dnPD.glob p d) = p ∧ dnPD.owner (dnPD.glob p e) = p) ↔ e ∈ (if d ∈ dnF p then dnF p else []) := by decide
    have hsh : ∀ p < 3, ∀ d < dnPD.ndof p, dnPD.shares 2 (dnPD.glob p d) = true ∧ dnPD.loc 2 (dnPD.glob p d) < 6 := by decide
    have hlt : ∀ p < 3, ∀ d < dnPD.ndof p, ∀ e ∈ (if d ∈ dnF p then dnF p else []), e < dnPD.ndof p := by decide
    constructor
    · intro he
      have he' : e < dnPD.ndof p := by
        have := (cols_lt hs.wfM he).2
        rwa [hs.dimM.2] at this
      obtain ⟨h1, h2, -⟩ := ((hpat p hp).patM d hd e he').1 he
      exact (hdec p hp d hd e he').1 ⟨h1, h2⟩
    · intro he
      have he' := hlt p hp d hd e he
      obtain ⟨h1, h2⟩ := (hdec p hp d hd e he').2 he
      refine ((hpat p hp).patM d hd e he').2 ⟨h1, h2, 2, by decide, (hsh p hp d hd).1, (hsh p hp e he').1, ?_⟩
      rw [dnA_cols, if_pos ⟨rfl, (hsh p hp d hd).2⟩]
      have := (hsh p hp e he').2
      simp; omega
  have hsort2 : ∀ p < 3, ∀ d < dnPD.ndof p, (if d ∈ dnF p then dnF p else []).Pairwise (· < ·) := by decide
  refine List.Perm.eq_of_pairwise (le := (· < ·)) (fun a b _ _ h1 h2 => absurd (Nat.lt_trans h1 h2) (lt_irrefl _)) hsorted (hsort2 p hp d hd) ?_
  exact (List.perm_ext_iff_of_nodup (hsorted.imp fun h => Nat.ne_of_lt h) ((hsort2 p hp d hd).imp fun h => Nat.ne_of_lt h)).2 hmem

theorem dn_classes {M : ℕ → CSR (Blk 1)} {G : ℕ → Option (CSR (Blk 1))} (hMG : ∀ p < 3, LocalSpec dnPD dnA p (M p) (G p)) (hpat : ∀ p < 3, PatternSpec dnPD dnA p (M p) (G p))
    {p : ℕ} (hp : p < 3) : RowClasses (toScal (M p)) (fun i => decide (dnPD.owner (dnPD.glob p i) = p) && inSubset none i) [dnF p] := by
  have hH : (toScal (M p)).height = dnPD.ndof p := (hMG p hp).dimM.1
  have hlt : ∀ p < 3, ∀ i ∈ dnF p, i < dnPD.ndof p ∧ dnPD.owner (dnPD.glob p i) = p := by decide
  have hown : ∀ p < 3, ∀ i < dnPD.ndof p, dnPD.owner (dnPD.glob p i) = p → i ∈ dnF p := by decide
  have hne : ∀ p < 3, dnF p ≠ [] := by decide
  constructor
  · intro F hF
    rw [List.mem_singleton] at hF
    subst hF
    refine ⟨hne p hp, fun i hi => ?_⟩
    rw [classOf, hH]
    have h1 : ∀ j ∈ List.range (dnPD.ndof p), ((decide (dnPD.owner (dnPD.glob p j) = p) && inSubset none j) && decide (colsOf (toScal (M p)) j = colsOf (toScal (M p)) i)) = decide (j ∈ dnF p) := by
      intro j hj
      rw [List.mem_range] at hj
      rw [dn_cols hMG hpat hp hj, dn_cols hMG hpat hp (hlt p hp i hi).1, if_pos hi]
      by_cases hjF : j ∈ dnF p
      · simp [hjF, (hlt p hp j hjF).2, inSubset, isFree]
      · have : dnPD.owner (dnPD.glob p j) ≠ p := fun h => hjF (hown p hp j hj h)
        simp [hjF, this]
    rw [List.filter_congr h1]
    have : ∀ p < 3, dnF p = (List.range (dnPD.ndof p)).filter fun j => decide (j ∈ dnF p) := by decide
    exact this p hp
  · intro i
    rw [hH]
    constructor
    · rintro ⟨F, hF, hi⟩
      rw [List.mem_singleton] at hF
      subst hF
      refine ⟨(hlt p hp i hi).1, by simp [(hlt p hp i hi).2, inSubset, isFree], ?_⟩
      rw [dn_cols hMG hpat hp (hlt p hp i hi).1, if_pos hi]
      exact hne p hp
    · rintro ⟨h1, h2, -⟩
      simp only [Bool.and_eq_true, decide_eq_true_eq] at h2
      exact ⟨_, List.mem_singleton.2 rfl, hown p hp i h1 h2.1⟩
  · exact List.pairwise_singleton _ _

theorem dn_strength (g : ℕ) (hg : g < 6) : ModDiag.strength dnPD dnA g 0 = 4 / 25 := by
  have hd : ∀ g < 6, gop dnPD dnA g g 0 0 = 1 := by
    intro g hg
    rw [dn_gop g g hg hg]
    simp [sc, dnE]
  have h01 : ∀ p d e, p ≠ 2 → (dnA p).entry d e = 0 := by
    intro p d e hp
    simp [CSR.entry, dnA, hp]
  have h2 : ∀ d < 6, ∀ e < 6, (dnA 2).entry d e = sc (dnE d e) := by
    intro d hd e he
    simp only [CSR.entry, dnA, if_true, hd]
    interval_cases e <;> simp [List.range_succ]
  rw [ModDiag.strength, show dnPD.np = 3 from rfl, Finset.sum_range_succ, Finset.sum_eq_zero, zero_add, show dnPD.ndof 2 = 6 from rfl]
  · have : (∑ d ∈ Finset.range 6, ∑ e ∈ Finset.range 6, if dnPD.glob 2 d = g ∧ dnPD.owner (dnPD.glob 2 e) ≠ dnPD.owner g then
        ∑ m : Fin 1, |(dnA 2).entry d e 0 m| / (√(gop dnPD dnA g g 0 0) * √(gop dnPD dnA (dnPD.glob 2 e) (dnPD.glob 2 e) m m)) else 0) =
        ∑ d ∈ Finset.range 6, ∑ e ∈ Finset.range 6, if d = g ∧ e / 2 ≠ g / 2 then (1 / 25 : ℝ) else 0 := by
      refine Finset.sum_congr rfl fun d hd' => Finset.sum_congr rfl fun e he' => ?_
      rw [Finset.mem_range] at hd' he'
      rw [show dnPD.glob 2 d = d from rfl, show dnPD.glob 2 e = e from rfl, dn_owner e he', dn_owner g hg]
      refine if_ctx_congr Iff.rfl ?_ fun _ => rfl
      rintro ⟨rfl, hne⟩
      rw [Finset.univ_unique, Finset.sum_singleton, Subsingleton.elim (default : Fin 1) 0, hd d hg, hd e he', h2 d hd' e he']
      have h3 : d ≠ e := fun h => hne (by rw [h])
      simp [sc, dnE, h3, Ne.symm hne]
    rw [this]
    interval_cases g <;> simp [Finset.sum_range_succ] <;> norm_num
  · intro p hp
    rw [Finset.mem_range] at hp
    refine Finset.sum_eq_zero fun d _ => Finset.sum_eq_zero fun e _ => ?_
    have : p ≠ 2 := by omega
    simp [h01 p d e this]

theorem dn_rowsum (p : ℕ) (hp : p < 3) (q : Fin (dnF p).length) : ∑ x : Fin (dnF p).length, dnE (dnPD.glob p (dnF p)[q]) (dnPD.glob p (dnF p)[x]) = 1 / 10 := by
  refine (Fin.sum_univ_fun_getElem (dnF p) fun h => dnE (dnPD.glob p (dnF p)[q]) (dnPD.glob p h)).trans ?_
  have hd : (dnF p)[q] ∈ dnF p := List.getElem_mem _
  generalize (dnF p)[q] = d at hd
  interval_cases p
  all_goals
    simp only [dnF] at hd
    simp at hd
    rcases hd with rfl | rfl <;> simp [dnF, dnPD, dnE] <;> norm_num

theorem dn_off (p : ℕ) (hp : p < 3) (d : ℕ) (hd : d ∈ dnF p) : (∑ h ∈ Finset.range 6, if p = h / 2 then 0 else dnE (dnPD.glob p d) h) = 4 / 25 := by
  interval_cases p
  all_goals
    simp only [dnF] at hd
    simp at hd
    rcases hd with rfl | rfl <;> simp [Finset.sum_range_succ, dnPD, dnE] <;> norm_num

theorem dn_loc (p : ℕ) (hp : p < 3) (d : ℕ) (hd : d ∈ dnF p) :
    (∑ j ∈ Finset.range (dnPD.ndof p), if dnPD.glob p j / 2 = p then dnE (dnPD.glob p d) (dnPD.glob p j) else 0) = 1 / 10 := by
  interval_cases p
  all_goals
    simp only [dnF] at hd
    simp at hd
    rcases hd with rfl | rfl <;> simp [Finset.sum_range_succ, dnPD, dnE] <;> norm_num

/-- a block whose matrix maps a constant vector to a constant vector -/
theorem blockRow_const {n : ℕ} (B : ℕ → ℕ → Blk 1) {F : List ℕ} (hn : F.Nodup) (X : Matrix (Fin F.length × Fin 1) (Fin F.length × Fin 1) ℝ) (hX : IsUnit X.det) {a c : ℝ} (ha : a ≠ 0)
    (hrow : ∀ q, ∑ r, X q r = a) (b x : BVec 1) (hc : ∀ d ∈ F, b d 0 - mulBlock n B x d 0 = c) {d : ℕ} (hd : d ∈ F) :
    blockRow n B F ((1 : ℝ) • X⁻¹) b x d 0 = x d 0 + c / a := by
  have h1 : X *ᵥ (fun _ => c / a) = fun _ => c := by
    funext q
    show ∑ r, X q r * (c / a) = c
    rw [← Finset.sum_mul, hrow, mul_div_cancel₀ _ ha]
  have h2 : X⁻¹ *ᵥ (fun _ => c) = fun _ => c / a := by
    rw [← h1, Matrix.mulVec_mulVec, Matrix.nonsing_inv_mul _ hX, Matrix.one_mulVec]
  rw [blockRow, one_smul]
  congr 1
  obtain ⟨l, hl, rfl⟩ := List.getElem_of_mem hd
  rw [Finset.sum_eq_single (⟨l, hl⟩ : Fin F.length)]
  · rw [if_pos (by rfl)]
    have h3 := congrFun h2 (⟨l, hl⟩, 0)
    refine Eq.trans ?_ h3
    refine Finset.sum_congr rfl fun q _ => ?_
    congr 1
    rw [Subsingleton.elim q.2 0]
    exact hc _ (List.getElem_mem _)
  · intro m _ hm
    rw [if_neg]
    intro h
    exact hm (Fin.ext ((List.Nodup.getElem_inj_iff hn).1 h))
  · intro h
    exact absurd (Finset.mem_univ _) h

/-- **C84**, refutation of the claim of dyn_block_smoother.hpp:120-125 ("make the parallel hybrid smoother convergent if the local smoothers are"): three processes with a symmetric
positive definite matrix; each process inverts its (one) diagonal block exactly, with the diagonal that `CalcScalModDiag` computes. For all settings with at most one local step one
call multiplies the energy of the error by more than two. -/
theorem hybridDyn_convergence_refuted : ∃ (P : PD) (A M : ℕ → CSR (Blk 1)) (G : ℕ → Option (CSR (Blk 1))) (x : ℕ → Fin 1 → ℝ), P.WF ∧ GSymm P A ∧ ModDiag.PosDef P A ∧
    (∀ q < P.np, SymPattern (A q)) ∧ (∀ q < P.np, HasDiag (A q)) ∧ (∀ p < P.np, LocalSpec P A p (M p) (G p)) ∧ (∀ p < P.np, PatternSpec P A p (M p) (G p)) ∧
    ∀ (md : ℕ → Option (ℕ → ℝ)) (Fs : ℕ → List (List ℕ)) (ord : ℕ → ℕ → List (SBlock 1)),
      (∀ p < P.np, ∀ d < P.ndof p, P.owner (P.glob p d) = p →
        ∃ f, ModDiag.IsFactor f (ModDiag.strength P A (P.glob p d)) ∧ mdE (toScal (M p)) (md p) d d = f * gop P A (P.glob p d) (P.glob p d) 0 0) →
      ClassGroups P A (fun p => toScal (M p)) md 1 (fun _ => none) Fs ord → ∀ (bw : Bool) (nls : ℤ), nls ≤ 1 →
        2 * genergy P A x < genergy P A (bsX P A ord false bw nls x 0) := by
  obtain ⟨M, G, h⟩ := split_exists dnPD_WF dnA dnA_fits
  have hMG := fun p hp => (h p hp).1
  have hpat := fun p hp => (h p hp).2
  refine ⟨dnPD, dnA, M, G, fun _ _ => 1, dnPD_WF, dn_symm, dn_posDef, fun q _ => dnA_sym q, fun q _ => dnA_diag q, hMG, hpat, ?_⟩
  intro md Fs ord hmd hg bw nls hn
  have hFs : ∀ p < 3, Fs p = [dnF p] := fun p hp => rowClasses_unique (hg.classes p hp) (dn_classes hMG hpat hp)
  have hr0 : rounds nls = 0 := by rw [rounds]; omega
  -- one block
  have hall : ∀ p < 3, allBlocks (ord p) false bw nls = [classBlock dnPD dnA md 1 p (dnF p)] := by
    intro p hp
    have h1 := hg.inner p hp
    have h2 := hg.outer p hp
    rw [hFs p hp] at h1 h2
    have hin : ∀ p < 3, Inner dnPD p (dnF p) = decide (p = 2) := by decide
    have hst : allBlocks (ord p) false bw nls = if bw then (ord p 2).reverse ++ (ord p 1).reverse ++ (ord p 0).reverse else ord p 0 ++ ord p 1 ++ ord p 2 := by
      cases bw <;> simp [allBlocks, hr0, loopList, stageList, p1, p2, Stage.idx]
    rw [hst]
    by_cases hp2 : p = 2
    · rw [List.filter_cons, hin p hp, decide_eq_true hp2] at h1 h2
      simp only [if_true, List.filter_nil, List.map_cons, List.map_nil, Bool.not_true] at h1 h2
      have h3 : ord p 1 = [] := by simpa using h2
      rw [h3]
      rcases List.append_eq_singleton_iff.1 h1 with ⟨h4, h5⟩ | ⟨h4, h5⟩ <;> rw [h4, h5] <;> cases bw <;> rfl
    · rw [List.filter_cons, hin p hp, decide_eq_false hp2] at h1 h2
      simp only [List.filter_nil, Bool.not_false, if_true, List.map_cons, List.map_nil] at h1 h2
      have h3 : ord p 0 ++ ord p 2 = [] := by simpa using h1
      rw [List.append_eq_nil_iff] at h3
      rw [h3.1, h3.2, h2]
      cases bw <;> rfl
  have hX : ∀ g < 6, bsX dnPD dnA ord false bw nls (fun _ _ => 1) 0 g 0 = -8 / 5 := by
    intro g hg6
    have ho := dn_owner g hg6
    have hloc' : ∀ g < 6, dnPD.loc (g / 2) g ∈ dnF (g / 2) := by decide
    have hloc := hloc' g hg6
    obtain ⟨p, hp'⟩ : ∃ p, p = g / 2 := ⟨_, rfl⟩
    rw [← hp'] at ho hloc
    have hp : p < 3 := by omega
    have hlt : ∀ p < 3, ∀ i ∈ dnF p, i < dnPD.ndof p ∧ dnPD.owner (dnPD.glob p i) = p ∧ dnPD.glob p i < 6 := by decide
    have hnd : ∀ p < 3, (dnF p).Nodup := by decide
    rw [bsX, ho, hall p hp, blockSweep, List.foldl_cons, List.foldl_nil]
    -- the matrix of the block
    let B : ℕ → ℕ → Blk 1 := fun i j => match md p with
      | some d => if i = j then sc (d i) else gop dnPD dnA (dnPD.glob p i) (dnPD.glob p j)
      | none => gop dnPD dnA (dnPD.glob p i) (dnPD.glob p j)
    have hB1 : ∀ i ∈ dnF p, ∀ j ∈ dnF p, B i j = gop dnPD dnA (dnPD.glob p i) (dnPD.glob p j) := by
      intro i hi j hj
      by_cases hij : i = j
      · subst hij
        obtain ⟨f, hf1, hf2⟩ := hmd p hp i (hlt p hp i hi).1 (hlt p hp i hi).2.1
        have hf : f = 1 := by
          rcases hf1.2.2 with h | ⟨l, h⟩
          · exact h
          · rw [Subsingleton.elim l 0, dn_strength _ (hlt p hp i hi).2.2] at h
            have := hf1.1
            norm_num at h
            rw [h] at this
            norm_num at this
        rw [hf, one_mul] at hf2
        ext a b
        rw [Subsingleton.elim a 0, Subsingleton.elim b 0]
        show (match md p with
          | some d => if i = i then sc (d i) else gop dnPD dnA (dnPD.glob p i) (dnPD.glob p i)
          | none => gop dnPD dnA (dnPD.glob p i) (dnPD.glob p i)) 0 0 = _
        cases hmp : md p with
        | none => rfl
        | some d =>
          rw [hmp, mdE, if_pos rfl] at hf2
          simp only [if_true]
          exact hf2
      · show (match md p with
          | some d => if i = j then sc (d i) else gop dnPD dnA (dnPD.glob p i) (dnPD.glob p j)
          | none => gop dnPD dnA (dnPD.glob p i) (dnPD.glob p j)) = _
        cases md p with
        | none => rfl
        | some d => simp only [hij, if_false]
    have hpd : (diagBlock B (dnF p)).PosDef := class_posDef dnPD_WF dn_symm dn_posDef hp (hnd p hp) (fun d hd => (hlt p hp d hd).1) B (fun i hi j hj _ => hB1 i hi j hj)
      fun i hi => ⟨1, le_rfl, by rw [hB1 i hi i hi, one_mul]⟩
    have hrow : ∀ q, ∑ r, diagBlock B (dnF p) q r = 1 / 10 := by
      intro q
      have e : ∀ r, diagBlock B (dnF p) q r = dnE (dnPD.glob p (dnF p)[q.1]) (dnPD.glob p (dnF p)[r.1]) := by
        intro r
        rw [diagBlock, hB1 (dnF p)[q.1] (List.getElem_mem _) (dnF p)[r.1] (List.getElem_mem _), dn_gop (dnPD.glob p (dnF p)[q.1]) (dnPD.glob p (dnF p)[r.1]) (hlt p hp _ (List.getElem_mem _)).2.2 (hlt p hp _ (List.getElem_mem _)).2.2]
        rfl
      simp only [e]
      obtain ⟨q, c⟩ := q
      rw [Fintype.sum_prod_type]
      simp only [Finset.univ_unique, Finset.sum_singleton]
      exact dn_rowsum p hp q
    have hc : ∀ d ∈ dnF p, ((fun d => (0 : ℕ → Fin 1 → ℝ) (dnPD.glob p d) - ∑ h ∈ allDofs dnPD, if dnPD.owner (dnPD.glob p d) = dnPD.owner h then 0 else gop dnPD dnA (dnPD.glob p d) h *ᵥ fun _ => 1) : BVec 1) d 0 -
        mulBlock (dnPD.ndof p) (blockOp dnPD dnA p) (fun d => (fun _ _ => 1 : ℕ → Fin 1 → ℝ) (dnPD.glob p d)) d 0 = -13 / 50 := by
      intro d hd
      have hm := hlt p hp d hd
      have e1 : (∑ h ∈ allDofs dnPD, if dnPD.owner (dnPD.glob p d) = dnPD.owner h then 0 else gop dnPD dnA (dnPD.glob p d) h *ᵥ fun _ => (1 : ℝ)) 0 = 4 / 25 := by
        rw [Finset.sum_apply, dn_allDofs, hm.2.1]
        have : ∀ h ∈ Finset.range 6, (if p = dnPD.owner h then 0 else gop dnPD dnA (dnPD.glob p d) h *ᵥ fun _ => (1 : ℝ)) 0 = if p = h / 2 then 0 else dnE (dnPD.glob p d) h := by
          intro h hh
          rw [Finset.mem_range] at hh
          rw [dn_owner h hh, dn_gop _ h hm.2.2 hh]
          split
          · rfl
          · simp [Matrix.mulVec, dotProduct, sc]
        rw [Finset.sum_congr rfl this]
        exact dn_off p hp d hd
      have e2 : mulBlock (dnPD.ndof p) (blockOp dnPD dnA p) (fun _ _ => 1) d 0 = 1 / 10 := by
        rw [mulBlock, Finset.sum_apply]
        have : ∀ j ∈ Finset.range (dnPD.ndof p), (blockOp dnPD dnA p d j *ᵥ fun _ => (1 : ℝ)) 0 = if dnPD.glob p j / 2 = p then dnE (dnPD.glob p d) (dnPD.glob p j) else 0 := by
          intro j hj
          rw [Finset.mem_range] at hj
          have hj6 := dn_lt p hp j hj
          rw [blockOp]
          by_cases hj' : dnPD.glob p j / 2 = p
          · rw [if_pos ⟨⟨hm.1, hm.2.1⟩, hj, by rw [dn_owner _ hj6, hj']⟩, if_pos hj', dn_gop _ _ hm.2.2 hj6]
            simp [Matrix.mulVec, dotProduct, sc]
          · rw [if_neg, if_neg hj', zero_mulVec]
            · rfl
            · rintro ⟨-, -, h⟩
              rw [dn_owner _ hj6] at h
              exact hj' h
        rw [Finset.sum_congr rfl this]
        exact dn_loc p hp d hd
      show (0 : ℝ) - (∑ h ∈ allDofs dnPD, if dnPD.owner (dnPD.glob p d) = dnPD.owner h then 0 else gop dnPD dnA (dnPD.glob p d) h *ᵥ fun _ => (1 : ℝ)) 0 - mulBlock (dnPD.ndof p) (blockOp dnPD dnA p) (fun _ _ => 1) d 0 = _
      rw [e1, e2]
      norm_num
    refine (blockRow_const _ (hnd p hp) (diagBlock B (dnF p)) ((Matrix.isUnit_iff_isUnit_det _).1 hpd.isUnit) (a := 1 / 10) (c := -13 / 50) (by norm_num) hrow _ _ hc hloc).trans ?_
    norm_num
  rw [dn_energy, dn_energy]
  simp only [hX 0 (by omega), hX 1 (by omega), hX 2 (by omega), hX 3 (by omega), hX 4 (by omega), hX 5 (by omega)]
  norm_num

/-- the hypotheses of `hybridDyn_posDef_partial`, and with it those of the other theorems, are met: this matrix, split by the code, exact inverses, all orders that sort the rows -/
example : ∃ (M : ℕ → CSR (Blk 1)) (G : ℕ → Option (CSR (Blk 1))) (inv : SInv) (order orderG : ℕ → List ℕ), dnPD.WF ∧ GSymm dnPD dnA ∧ ModDiag.PosDef dnPD dnA ∧
    (∀ q < dnPD.np, SymPattern (dnA q)) ∧ (∀ q < dnPD.np, HasDiag (dnA q)) ∧ (∀ p < dnPD.np, LocalSpec dnPD dnA p (M p) (G p)) ∧
    (∀ p < dnPD.np, PatternSpec dnPD dnA p (M p) (G p)) ∧ Inverts inv ∧ (∀ p < dnPD.np, SortedBy (toScal (M p)) (rowBlocking (toScal (M p))) (order p)) ∧
    ∀ p < dnPD.np, ∀ g, G p = some g → SortedBy (toScal g) (rowBlocking (toScal g)) (orderG p) := by
  obtain ⟨M, G, h⟩ := split_exists dnPD_WF dnA dnA_fits
  choose o ho using fun p => sortedBy_exists (toScal (M p)) (rowBlocking (toScal (M p)))
  choose oG hoG using fun p => sortedBy_exists (toScal ((G p).getD emptyM)) (rowBlocking (toScal ((G p).getD emptyM)))
  refine ⟨M, G, fun _ X => X⁻¹, o, oG, dnPD_WF, dn_symm, dn_posDef, fun q _ => dnA_sym q, fun q _ => dnA_diag q, fun p hp => (h p hp).1, fun p hp => (h p hp).2,
    fun _ _ _ => rfl, fun p _ => ho p, fun p _ g hg => ?_⟩
  have := hoG p
  rwa [hg] at this

end NgsAMG.HybDyn
