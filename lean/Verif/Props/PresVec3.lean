import Verif.Props.PresVec2
import Mathlib.LinearAlgebra.Matrix.DotProduct

/-!
# Property C102: when the representation is exact; flows of the basis functions
-/

namespace NgsAMG.Pres
variable {n : ℕ}

/-- the vectors before number `l` -/
def before (V : ℕ → Vec n) (l : ℕ) : Submodule ℝ (Vec n) := Submodule.span ℝ {x | ∃ j < l, x = V j}

theorem before_mono (V : ℕ → Vec n) {l m : ℕ} (h : l ≤ m) : before V l ≤ before V m :=
  Submodule.span_mono fun _ ⟨j, hj, hx⟩ => ⟨j, by omega, hx⟩

theorem before_le (V : ℕ → Vec n) {l : ℕ} {S : Submodule ℝ (Vec n)} (h : ∀ j < l, V j ∈ S) : before V l ≤ S :=
  Submodule.span_le.2 fun _ ⟨j, hj, hx⟩ => hx ▸ h j hj

theorem before_self (V : ℕ → Vec n) {l j : ℕ} (h : j < l) : V j ∈ before V l := Submodule.subset_span ⟨j, h, rfl⟩

theorem zero_of_span {P : List (Vec n)} {p : Vec n} (ho : ∀ j < P.length, p ⬝ᵥ P.getD j 0 = 0) (hp : p ∈ Submodule.span ℝ {x | x ∈ P}) : p = 0 := by
  have h : ∀ y ∈ Submodule.span ℝ {x | x ∈ P}, p ⬝ᵥ y = 0 := by
    intro y hy
    induction hy using Submodule.span_induction with
    | mem x hx =>
      obtain ⟨i, hi, he⟩ := List.getElem_of_mem (show x ∈ P from hx)
      have := ho i hi
      rwa [List.getD_eq_getElem?_getD, List.getElem?_eq_getElem hi, Option.getD_some, he] at this
    | zero => exact dotProduct_zero p
    | add x y _ _ hx hy => rw [dotProduct_add, hx, hy, add_zero]
    | smul a x _ hx => rw [dotProduct_smul, hx, smul_zero]
  exact dotProduct_self_eq_zero.1 (h p hp)

/-- every vector is in the span of those before, or not almost in it -/
def Clear (V : ℕ → Vec n) (nPres k : ℕ) : Prop := ∀ l, nPres ≤ l → l < k →
  V l ∈ Submodule.span ℝ {x | ∃ j < l, x = V j} ∨
    ∀ x ∈ Submodule.span ℝ {x | ∃ j < l, x = V j}, 1 / 10 ^ 8 * Real.sqrt (V l ⬝ᵥ V l) < Real.sqrt ((V l - x) ⬝ᵥ (V l - x))

theorem columns_clear {V : ℕ → Vec n} {nPres k : ℕ} (hc : Clear V nPres k) : ∀ (c l : ℕ) (s : St n), nPres ≤ l → l + c = k →
    Ok (fun _ _ => False) V nPres k l s → Sys s.P nPres → Submodule.span ℝ {x | x ∈ s.P} = before V l →
    ∃ s', (List.range' l c).foldlM (column dot (fun l => dot (V l) (V l)) nPres k V) s = some s' ∧
      Ok (fun _ _ => False) V nPres k k s' ∧ Submodule.span ℝ {x | x ∈ s'.P} = before V k := by
  intro c
  induction c with
  | zero => intro l s _ h2 h _ h''; exact ⟨s, rfl, by simpa using h2 ▸ h, by simpa using h2 ▸ h''⟩
  | succ c ih =>
    intro l s h1 h2 h h' h''
    have hzero : ∀ p, p - V l ∈ Submodule.span ℝ {x | x ∈ s.P} → (∀ j < s.P.length, p ⬝ᵥ s.P.getD j 0 = 0) →
        Real.sqrt (dot p p) ≤ lowerTol * Real.sqrt (dot (V l) (V l)) → p = 0 := by
      intro p hp ho hle
      rcases hc l h1 (by omega) with hin | hfar
      · refine zero_of_span ho ?_
        have hin : V l ∈ before V l := hin
        rw [← h''] at hin
        have := Submodule.add_mem _ hp hin
        rwa [sub_add_cancel] at this
      · have hx : V l - p ∈ before V l := by
          rw [← h'', ← neg_sub]
          exact Submodule.neg_mem _ hp
        have := hfar _ hx
        rw [sub_sub_cancel] at this
        exact absurd this (not_lt.2 hle)
    obtain ⟨s1, p, a1, a2, a3, a4, a5, a6⟩ := column_exact h h' h1 (by omega) fun p q1 q2 q3 => Or.inl (hzero p q1 q2 q3)
    have hs : Submodule.span ℝ {x | x ∈ s1.P} = before V (l + 1) := by
      rw [h''] at a4
      rcases a6 with ⟨hlt, hP⟩ | ⟨hle, hP⟩
      · have hpos : Real.sqrt (dot p p) ≠ 0 := by
          refine ne_of_gt (lt_of_le_of_lt ?_ hlt)
          exact mul_nonneg (by unfold lowerTol; norm_num) (Real.sqrt_nonneg _)
        apply le_antisymm
        · refine Submodule.span_le.2 fun x hx => ?_
          have hx : x ∈ s1.P := hx
          rw [hP, List.mem_append, List.mem_singleton] at hx
          rcases hx with hx | rfl
          · refine before_mono V (Nat.le_succ l) ?_
            rw [← h'']
            exact Submodule.subset_span hx
          · refine Submodule.smul_mem _ _ ?_
            have := Submodule.add_mem _ (before_mono V (Nat.le_succ l) a4) (before_self V (Nat.lt_succ_self l))
            rwa [sub_add_cancel] at this
        · have hsub : before V l ≤ Submodule.span ℝ {x | x ∈ s1.P} := by
            rw [← h'', hP]
            exact Submodule.span_mono fun x hx => List.mem_append_left _ hx
          have hp : p ∈ Submodule.span ℝ {x | x ∈ s1.P} := by
            have h3 : (1 / Real.sqrt (dot p p)) • p ∈ Submodule.span ℝ {x | x ∈ s1.P} :=
              Submodule.subset_span (show _ ∈ s1.P by rw [hP]; exact List.mem_append_right _ (List.mem_singleton.2 rfl))
            have := Submodule.smul_mem _ (Real.sqrt (dot p p)) h3
            rwa [smul_smul, mul_one_div_cancel hpos, one_smul] at this
          refine before_le V fun j hj => ?_
          rcases Nat.lt_succ_iff_lt_or_eq.1 hj with hj | rfl
          · exact hsub (before_self V hj)
          · have := Submodule.sub_mem _ hp (hsub a4)
            rwa [sub_sub_cancel] at this
      · have hp0 : p = 0 := hzero p (by rw [h'']; exact a4) a5 hle
        rw [hP, h'']
        refine le_antisymm (before_mono V (Nat.le_succ l)) (before_le V fun j hj => ?_)
        rcases Nat.lt_succ_iff_lt_or_eq.1 hj with hj | rfl
        · exact before_self V hj
        · rw [hp0, zero_sub] at a4
          exact (Submodule.neg_mem_iff _).1 a4
    obtain ⟨s2, b1, b2⟩ := ih (l + 1) s1 (by omega) (by omega) a2 a3 hs
    refine ⟨s2, ?_, b2⟩
    rw [List.range'_succ, List.foldlM_cons, a1]
    exact b1

theorem start_span (V : ℕ → Vec n) (nPres k : ℕ) (W0 : ℕ → ℕ → ℝ) : Submodule.span ℝ {x | x ∈ (start V nPres k W0).P} = before V nPres := by
  unfold before start
  congr 1
  ext x
  simp only [Set.mem_setOf_eq, List.mem_map, List.mem_range]
  exact ⟨fun ⟨j, h1, h2⟩ => ⟨j, h1, h2.symm⟩, fun ⟨j, h1, h2⟩ => ⟨j, h1, h2.symm⟩⟩

/-- **C102**: if every column of `V` is in the span of those before, or at a distance of more than `10⁻⁸` of its length, the columns of `V` are exactly
the combinations of those of `P`, and both have the same span; `P` has as many columns as this span has dimensions -/
theorem computePW_exact (V : ℕ → Vec n) {nPres k : ℕ} (hk : nPres ≤ k) (W0 : ℕ → ℕ → ℝ) (h0 : ∀ l < nPres, V l ⬝ᵥ V l ≠ 0)
    (ho : ∀ i j, i < nPres → j < nPres → i ≠ j → V i ⬝ᵥ V j = 0) (hc : Clear V nPres k) :
    ∃ s, computePW dot V nPres k W0 = some s ∧ (∀ j < k, V j = ∑ i ∈ Finset.range s.P.length, s.W i j • s.P.getD i 0) ∧
      Submodule.span ℝ {x | x ∈ s.P} = Submodule.span ℝ {x | ∃ j < k, x = V j} ∧
      s.P.length = Module.finrank ℝ (Submodule.span ℝ {x | ∃ j < k, x = V j}) := by
  obtain ⟨s, h1, h2, h3⟩ := columns_clear hc (k - nPres) nPres (start V nPres k W0) le_rfl (by omega) (ok_start _ V hk W0) (sys_start k W0 h0 ho) (start_span V nPres k W0)
  have hs : computePW dot V nPres k W0 = some s := by
    unfold computePW
    rw [if_neg]
    · exact h1
    · rintro ⟨_, l, hl, h⟩
      exact h0 l hl h
  refine ⟨s, hs, ?_, h3, ?_⟩
  · intro j hj
    obtain ⟨r, r1, r2⟩ := h2.rep j hj
    rcases r2 with rfl | ⟨_, r2⟩
    · rw [add_zero] at r1
      exact r1
    · exact r2.elim
  · obtain ⟨s', g1, _, _, g2, _⟩ := computePW_orth V hk W0 h0 ho
    obtain rfl : s = s' := Option.some.inj (hs.symm.trans g1)
    have h3' : Submodule.span ℝ {x | x ∈ s.P} = Submodule.span ℝ {x | ∃ j < k, x = V j} := h3
    rw [← h3', show {x | x ∈ s.P} = Set.range fun i : Fin s.P.length => s.P.getD i 0 from ?_, finrank_span_eq_card g2, Fintype.card_fin]
    ext x
    simp only [Set.mem_setOf_eq, Set.mem_range]
    constructor
    · intro hx
      obtain ⟨i, hi, he⟩ := List.getElem_of_mem hx
      exact ⟨⟨i, hi⟩, by rw [List.getD_eq_getElem?_getD, List.getElem?_eq_getElem hi, Option.getD_some, he]⟩
    · rintro ⟨i, rfl⟩
      rw [List.getD_eq_getElem?_getD, List.getElem?_eq_getElem i.2, Option.getD_some]
      exact List.getElem_mem i.2

/-! ### flows -/

theorem getD_set (P : List (Vec n)) (j i : ℕ) (x : Vec n) (hj : j < P.length) : (P.set j x).getD i 0 = if i = j then x else P.getD i 0 := by
  rw [List.getD_eq_getElem?_getD, List.getD_eq_getElem?_getD, List.getElem?_set]
  by_cases h : j = i
  · subst h
    rw [if_pos rfl, if_pos hj, if_pos rfl]
    rfl
  · rw [if_neg h, if_neg (Ne.symm h)]

theorem zfStep_comb (ip : Vec n → Vec n → ℝ) (f : Vec n) (nF : ℝ) (s : St n) {j : ℕ} (h0 : 0 < j) (hj : j < s.P.length) (l : ℕ) :
    (∑ i ∈ Finset.range (zfStep ip f nF s j).P.length, (zfStep ip f nF s j).W i l • (zfStep ip f nF s j).P.getD i 0) =
      ∑ i ∈ Finset.range s.P.length, s.W i l • s.P.getD i 0 := by
  unfold zfStep
  simp only [List.length_set]
  generalize ip f (s.P.getD j 0) / nF = α
  have h : ∀ i, (if i = 0 then s.W 0 l + α * s.W j l else s.W i l) • (s.P.set j (s.P.getD j 0 - α • s.P.getD 0 0)).getD i 0 =
      (s.W i l • s.P.getD i 0 + if i = 0 then (α * s.W j l) • s.P.getD 0 0 else 0) - if i = j then (α * s.W j l) • s.P.getD 0 0 else 0 := by
    intro i
    rw [getD_set _ _ _ _ hj]
    by_cases hi : i = 0
    · subst hi
      rw [if_pos rfl, if_pos rfl, if_neg h0.ne, if_neg h0.ne, add_smul, sub_zero]
    · rw [if_neg hi, if_neg hi, add_zero]
      by_cases hij : i = j
      · subst hij
        rw [if_pos rfl, if_pos rfl, smul_sub, smul_smul, mul_comm]
      · rw [if_neg hij, if_neg hij, sub_zero]
  rw [Finset.sum_congr rfl fun i _ => h i, Finset.sum_sub_distrib, Finset.sum_add_distrib, Finset.sum_ite_eq', Finset.sum_ite_eq',
    if_pos (Finset.mem_range.2 (by omega)), if_pos (Finset.mem_range.2 hj), add_sub_cancel_right]

theorem zfStep_indep (ip : Vec n → Vec n → ℝ) (f : Vec n) (nF : ℝ) (s : St n) {j : ℕ} (h0 : 0 < j) (hj : j < s.P.length)
    (h : ∀ g : ℕ → ℝ, (∑ i ∈ Finset.range s.P.length, g i • s.P.getD i 0) = 0 → ∀ i < s.P.length, g i = 0) :
    ∀ g : ℕ → ℝ, (∑ i ∈ Finset.range (zfStep ip f nF s j).P.length, g i • (zfStep ip f nF s j).P.getD i 0) = 0 → ∀ i < (zfStep ip f nF s j).P.length, g i = 0 := by
  intro g hg
  unfold zfStep at hg ⊢
  simp only [List.length_set] at hg ⊢
  generalize ip f (s.P.getD j 0) / nF = α at hg
  have hk := h (fun i => if i = 0 then g 0 - α * g j else g i) (by
    refine Eq.trans ?_ hg
    have e : ∀ i, g i • (s.P.set j (s.P.getD j 0 - α • s.P.getD 0 0)).getD i 0 =
        (g i • s.P.getD i 0) - if i = j then (α * g j) • s.P.getD 0 0 else 0 := by
      intro i
      rw [getD_set _ _ _ _ hj]
      by_cases hij : i = j
      · subst hij
        rw [if_pos rfl, if_pos rfl, smul_sub, smul_smul, mul_comm]
      · rw [if_neg hij, if_neg hij, sub_zero]
    have e' : ∀ i, (if i = 0 then g 0 - α * g j else g i) • s.P.getD i 0 = (g i • s.P.getD i 0) - if i = 0 then (α * g j) • s.P.getD 0 0 else 0 := by
      intro i
      by_cases hi : i = 0
      · subst hi
        rw [if_pos rfl, if_pos rfl, sub_smul]
      · rw [if_neg hi, if_neg hi, sub_zero]
    rw [Finset.sum_congr rfl fun i _ => e i, Finset.sum_congr rfl fun i _ => e' i, Finset.sum_sub_distrib, Finset.sum_sub_distrib, Finset.sum_ite_eq',
      Finset.sum_ite_eq', if_pos (Finset.mem_range.2 (by omega)), if_pos (Finset.mem_range.2 hj)])
  have hne : ∀ i < s.P.length, i ≠ 0 → g i = 0 := fun i hi hi0 => by
    have := hk i hi
    rwa [if_neg hi0] at this
  intro i hi
  by_cases hi0 : i = 0
  · subst hi0
    have := hk 0 hi
    rw [if_pos rfl, hne j hj h0.ne', mul_zero, sub_zero] at this
    exact this
  · exact hne i hi hi0

/-- what the loop of `computePWZF` keeps and does -/
theorem zf_fold (ip : Vec n → Vec n → ℝ) (f : Vec n) (nF : ℝ) : ∀ (c a : ℕ) (s : St n), 0 < a → a + c = s.P.length →
    ((List.range' a c).foldl (zfStep ip f nF) s).P.length = s.P.length ∧
    (∀ l, (∑ i ∈ Finset.range s.P.length, ((List.range' a c).foldl (zfStep ip f nF) s).W i l • ((List.range' a c).foldl (zfStep ip f nF) s).P.getD i 0) =
      ∑ i ∈ Finset.range s.P.length, s.W i l • s.P.getD i 0) ∧
    (∀ i < a, ((List.range' a c).foldl (zfStep ip f nF) s).P.getD i 0 = s.P.getD i 0) ∧
    (∀ i, a ≤ i → i < s.P.length → ((List.range' a c).foldl (zfStep ip f nF) s).P.getD i 0 = s.P.getD i 0 - (ip f (s.P.getD i 0) / nF) • s.P.getD 0 0) ∧
    (∀ i l, i ≠ 0 → ((List.range' a c).foldl (zfStep ip f nF) s).W i l = s.W i l) ∧
    (∀ l, (∀ i, a ≤ i → i < s.P.length → s.W i l = 0) → ((List.range' a c).foldl (zfStep ip f nF) s).W 0 l = s.W 0 l) ∧
    ((∀ g : ℕ → ℝ, (∑ i ∈ Finset.range s.P.length, g i • s.P.getD i 0) = 0 → ∀ i < s.P.length, g i = 0) →
      ∀ g : ℕ → ℝ, (∑ i ∈ Finset.range s.P.length, g i • ((List.range' a c).foldl (zfStep ip f nF) s).P.getD i 0) = 0 → ∀ i < s.P.length, g i = 0) := by
  intro c
  induction c with
  | zero => intro a s _ h; exact ⟨rfl, fun _ => rfl, fun _ _ => rfl, fun i h1 h2 => by omega, fun _ _ _ => rfl, fun _ _ => rfl, fun h => h⟩
  | succ c ih =>
    intro a s ha hl
    have haP : a < s.P.length := by omega
    have hlen : (zfStep ip f nF s a).P.length = s.P.length := by unfold zfStep; simp
    have hP : ∀ i, (zfStep ip f nF s a).P.getD i 0 = if i = a then s.P.getD a 0 - (ip f (s.P.getD a 0) / nF) • s.P.getD 0 0 else s.P.getD i 0 :=
      fun i => getD_set _ _ _ _ haP
    obtain ⟨b1, b2, b3, b4, b5, b6, b7⟩ := ih (a + 1) (zfStep ip f nF s a) (by omega) (by rw [hlen]; omega)
    rw [hlen] at b1 b2 b4 b6 b7
    rw [List.range'_succ, List.foldl_cons]
    refine ⟨b1, ?_, ?_, ?_, ?_, ?_, ?_⟩
    · intro l
      rw [b2 l]
      have := zfStep_comb ip f nF s ha haP l
      rw [hlen] at this
      exact this
    · intro i hi
      rw [b3 i (by omega), hP, if_neg (by omega)]
    · intro i h1 h2
      by_cases hia : i = a
      · subst hia
        rw [b3 i (by omega), hP, if_pos rfl]
      · rw [b4 i (by omega) h2, hP, if_neg hia, hP 0, if_neg (by omega)]
    · intro i l hi
      rw [b5 i l hi]
      unfold zfStep
      simp only [if_neg hi]
    · intro l hz
      rw [b6 l fun i h1 h2 => ?_]
      · unfold zfStep
        simp only [if_true]
        rw [hz a le_rfl haP, mul_zero, add_zero]
      · unfold zfStep
        simp only [if_neg (show i ≠ 0 by omega)]
        exact hz i (by omega) h2
    · intro hi
      refine b7 ?_
      have := zfStep_indep ip f nF s ha haP hi
      rw [hlen] at this
      exact this

/-- **C102**, for every inner product `ip`: `computePWZF` returns if the special vector has flow, and represents the columns of `V` as `computePW` does;
the special vector is still the first basis function, and the first column of `W` the first unit vector -/
theorem computePWZF_rep (ip : Vec n → Vec n → ℝ) (f : Vec n) (V : ℕ → Vec n) {nPres k : ℕ} (hk : nPres ≤ k) (hp : 0 < nPres) (W0 : ℕ → ℕ → ℝ)
    (h0 : ∀ l < nPres, ip (V l) (V l) ≠ 0) (hf : ip f (V 0) ≠ 0) :
    ∃ s, computePWZF ip f V nPres k W0 = some s ∧ nPres ≤ s.P.length ∧ s.P.length ≤ k ∧ (∀ i < nPres, s.P.getD i 0 = V i) ∧
      (∀ j < nPres, ∀ i < s.P.length, s.W i j = if i = j then 1 else 0) ∧
      ∀ j < k, ∃ r, V j = (∑ i ∈ Finset.range s.P.length, s.W i j • s.P.getD i 0) + r ∧
        (r = 0 ∨ nPres ≤ j ∧ Real.sqrt (ip r r) ≤ 1 / 10 ^ 6 * Real.sqrt (ip (V j) (V j))) := by
  obtain ⟨s, h1, h2, h3, h4, h5, h6⟩ := computePW_rep ip V hk W0 h0
  obtain ⟨b1, b2, b3, b4, b5, b6, b7⟩ := zf_fold ip f (ip f (s.P.getD 0 0)) (s.P.length - nPres) nPres s hp (by omega)
  refine ⟨_, ?_, b1.symm ▸ h2, b1.le.trans h3, fun i hi => (b3 i hi).trans (h4 i hi), ?_, ?_⟩
  · unfold computePWZF
    rw [h1, Option.bind_some, if_neg]
    rintro ⟨_, h⟩
    rw [h4 0 hp] at h
    exact hf h
  · intro j hj i hi
    rw [b1] at hi
    by_cases hi0 : i = 0
    · subst hi0
      rw [b6 j fun i q1 q2 => by rw [h5 j hj i (by omega), if_neg (by omega)]]
      exact h5 j hj 0 (by omega)
    · rw [b5 i j hi0]
      exact h5 j hj i (by omega)
  · intro j hj
    obtain ⟨r, r1, r2⟩ := h6 j hj
    refine ⟨r, ?_, r2⟩
    rw [b1, b2 j]
    exact r1

/-- **C102**: with the exact inner product the basis functions after the special ones have no flow, and they are independent; the rests are at most
`10⁻⁸` of the columns of `V`, and zero if each of them is in the span of those before or not almost in it -/
theorem computePWZF_flow (f : Vec n) (V : ℕ → Vec n) {nPres k : ℕ} (hk : nPres ≤ k) (hp : 0 < nPres) (W0 : ℕ → ℕ → ℝ) (h0 : ∀ l < nPres, V l ⬝ᵥ V l ≠ 0)
    (ho : ∀ i j, i < nPres → j < nPres → i ≠ j → V i ⬝ᵥ V j = 0) (hf : f ⬝ᵥ V 0 ≠ 0) :
    ∃ s, computePWZF dot f V nPres k W0 = some s ∧ (∀ i, nPres ≤ i → i < s.P.length → f ⬝ᵥ s.P.getD i 0 = 0) ∧
      (∀ g : ℕ → ℝ, (∑ i ∈ Finset.range s.P.length, g i • s.P.getD i 0) = 0 → ∀ i < s.P.length, g i = 0) ∧ s.P.length ≤ n ∧
      (∀ j < k, ∃ r, V j = (∑ i ∈ Finset.range s.P.length, s.W i j • s.P.getD i 0) + r ∧ Real.sqrt (r ⬝ᵥ r) ≤ 1 / 10 ^ 8 * Real.sqrt (V j ⬝ᵥ V j)) ∧
      (Clear V nPres k → ∀ j < k, V j = ∑ i ∈ Finset.range s.P.length, s.W i j • s.P.getD i 0) := by
  obtain ⟨s, h1, h2, h3, h4, h5, h6⟩ := computePW_rep dot V hk W0 h0
  obtain ⟨s', g1, _, _, g2, g3, g4⟩ := computePW_orth V hk W0 h0 ho
  obtain rfl : s = s' := Option.some.inj (h1.symm.trans g1)
  obtain ⟨b1, b2, b3, b4, b5, b6, b7⟩ := zf_fold dot f (dot f (s.P.getD 0 0)) (s.P.length - nPres) nPres s hp (by omega)
  have hf' : dot f (s.P.getD 0 0) ≠ 0 := by rw [h4 0 hp]; exact hf
  refine ⟨_, ?_, ?_, ?_, b1.le.trans g3, ?_, ?_⟩
  · unfold computePWZF
    rw [h1, Option.bind_some, if_neg]
    rintro ⟨_, h⟩
    exact hf' h
  · intro i h1 h2
    rw [b1] at h2
    rw [b4 i h1 h2, dotProduct_sub, dotProduct_smul, smul_eq_mul]
    show f ⬝ᵥ s.P.getD i 0 - dot f (s.P.getD i 0) / dot f (s.P.getD 0 0) * dot f (s.P.getD 0 0) = 0
    rw [div_mul_cancel₀ _ hf']
    exact sub_self _
  · rw [b1]
    refine b7 fun g hg i hi => ?_
    have := Fintype.linearIndependent_iff.1 g2 (fun i => g i) ((Fin.sum_univ_eq_sum_range (fun i => g i • s.P.getD i 0) s.P.length).trans hg) ⟨i, hi⟩
    exact this
  · intro j hj
    obtain ⟨r, r1, r2⟩ := g4 j hj
    refine ⟨r, ?_, r2⟩
    rw [b1, b2 j]
    exact r1
  · intro hc j hj
    obtain ⟨s', g1, g2, _⟩ := computePW_exact V hk W0 h0 ho hc
    obtain rfl : s = s' := Option.some.inj (h1.symm.trans g1)
    rw [b1, b2 j]
    exact g2 j hj

/-- a concrete case of the hypotheses: the special vector, a vector in its span and one orthogonal to it -/
example : ∃ s, computePWZF dot (![2, 1] : Vec 2) (fun l => if l = 0 then ![1, 1] else if l = 1 then ![3, 3] else ![1, -1]) 1 3 (fun _ _ => 0) = some s ∧
    (![1, -1] : Vec 2) = ∑ i ∈ Finset.range s.P.length, s.W i 2 • s.P.getD i 0 := by
  obtain ⟨s, h1, _, _, _, _, h2⟩ := computePWZF_flow (![2, 1] : Vec 2) (fun l => if l = 0 then ![1, 1] else if l = 1 then ![3, 3] else ![1, -1]) (nPres := 1) (k := 3)
    (by norm_num) one_pos (fun _ _ => 0) (by intro l hl; obtain rfl : l = 0 := by omega
                                             simp [dotProduct, Fin.sum_univ_two])
    (by intro i j hi hj hij; omega) (by simp [dotProduct, Fin.sum_univ_two]; norm_num)
  refine ⟨s, h1, h2 ?_ 2 (by norm_num)⟩
  intro l hl1 hl3
  obtain rfl | rfl : l = 1 ∨ l = 2 := by omega
  · left
    have : (![3, 3] : Vec 2) = (3 : ℝ) • ![1, 1] := by ext i; fin_cases i <;> simp
    simp only [one_ne_zero, if_false, if_true, this]
    exact Submodule.smul_mem _ _ (Submodule.subset_span ⟨0, by norm_num, by simp⟩)
  · right
    intro x hx
    have hx01 : x 0 = x 1 := by
      induction hx using Submodule.span_induction with
      | mem x hx =>
        obtain ⟨j, hj, rfl⟩ := hx
        obtain rfl | rfl : j = 0 ∨ j = 1 := by omega
        · simp
        · simp
      | zero => rfl
      | add x y _ _ hx hy => simp [hx, hy]
      | smul a x _ hx => simp [hx]
    refine (Real.lt_sqrt (by positivity)).2 ?_
    simp only [show (2 : ℕ) ≠ 0 by norm_num, show (2 : ℕ) ≠ 1 by norm_num, if_false, dotProduct, Fin.sum_univ_two, Pi.sub_apply, hx01]
    rw [mul_pow, Real.sq_sqrt (by simp)]
    simp
    nlinarith [sq_nonneg (x 1)]

end NgsAMG.Pres
