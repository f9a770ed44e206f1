import Verif.Props.PresVec1
import Mathlib.LinearAlgebra.Dimension.Constructions
import Mathlib.LinearAlgebra.Dimension.Finite

/-!
# Property C102: the basis functions are orthonormal and independent; when the representation is exact
-/

namespace NgsAMG.Pres
variable {n : ℕ}

/-- columns of `P`: orthogonal, after the first `nPres` of length one -/
structure Sys (P : List (Vec n)) (nPres : ℕ) : Prop where
  orth : ∀ i j, i < P.length → j < P.length → i ≠ j → P.getD i 0 ⬝ᵥ P.getD j 0 = 0
  pos : ∀ i < nPres, P.getD i 0 ⬝ᵥ P.getD i 0 ≠ 0
  unit : ∀ i, nPres ≤ i → i < P.length → P.getD i 0 ⬝ᵥ P.getD i 0 = 1

/-- the euclidean inner product -/
def dot (v w : Vec n) : ℝ := v ⬝ᵥ w

theorem fold_exact {P : List (Vec n)} {nPres : ℕ} (hP : Sys P nPres) (fac : Vec n → ℕ → ℝ) (put : ℝ → ℝ → ℝ) :
    ∀ (L : List ℕ) (s : Vec n × (ℕ → ℝ)), (∀ i ∈ L, i < P.length) → (∀ i ∈ L, ∀ p, fac p i * (P.getD i 0 ⬝ᵥ P.getD i 0) = p ⬝ᵥ P.getD i 0) →
    (∀ j < P.length, (j ∈ L ∨ s.1 ⬝ᵥ P.getD j 0 = 0) → (L.foldl (orthStep fac P put) s).1 ⬝ᵥ P.getD j 0 = 0) := by
  intro L
  induction L with
  | nil => intro s _ _ j _ h; simpa using h
  | cons l t ih =>
    intro s hL hf j hj h
    rw [List.foldl_cons]
    refine ih _ (fun i hi => hL i (List.mem_cons_of_mem _ hi)) (fun i hi => hf i (List.mem_cons_of_mem _ hi)) j hj ?_
    by_cases hjt : j ∈ t
    · exact Or.inl hjt
    · right
      unfold orthStep
      rw [sub_dotProduct, smul_dotProduct, smul_eq_mul]
      by_cases hjl : j = l
      · subst hjl
        rw [hf j List.mem_cons_self, sub_self]
      · have h0 : s.1 ⬝ᵥ P.getD j 0 = 0 := by
          rcases h with h | h
          · exact absurd ((List.mem_cons.1 h).resolve_left hjl) hjt
          · exact h
        rw [h0, hP.orth l j (hL l List.mem_cons_self) hj (Ne.symm hjl), mul_zero, sub_zero]

theorem fold_same {P : List (Vec n)} (fac : Vec n → ℕ → ℝ) (put : ℝ → ℝ → ℝ) : ∀ (L : List ℕ) (s : Vec n × (ℕ → ℝ)), (∀ i ∈ L, fac s.1 i = 0) →
    (L.foldl (orthStep fac P put) s).1 = s.1 := by
  intro L
  induction L with
  | nil => intro s _; rfl
  | cons l t ih =>
    intro s hf
    have h1 : (orthStep fac P put s l).1 = s.1 := by
      unfold orthStep
      rw [hf l List.mem_cons_self, zero_smul, sub_zero]
    rw [List.foldl_cons, ih _ fun i hi => by rw [h1]; exact hf i (List.mem_cons_of_mem _ hi), h1]

theorem orth_exact {P : List (Vec n)} {nPres : ℕ} (hP : Sys P nPres) (hn : nPres ≤ P.length) (V : ℕ → Vec n) (hV : ∀ i < nPres, P.getD i 0 = V i) (put : ℝ → ℝ → ℝ)
    (s : Vec n × (ℕ → ℝ)) : ∀ j < P.length, (orth dot (fun l => dot (V l) (V l)) P nPres P.length put s).1 ⬝ᵥ P.getD j 0 = 0 := by
  intro j hj
  unfold orth
  have f1 : ∀ i ∈ List.range nPres, ∀ p : Vec n, dot p (P.getD i 0) / dot (V i) (V i) * (P.getD i 0 ⬝ᵥ P.getD i 0) = p ⬝ᵥ P.getD i 0 := by
    intro i hi p
    rw [List.mem_range] at hi
    rw [← hV i hi]
    exact div_mul_cancel₀ _ (hP.pos i hi)
  have f2 : ∀ i ∈ List.range' nPres (P.length - nPres), ∀ p : Vec n, dot p (P.getD i 0) * (P.getD i 0 ⬝ᵥ P.getD i 0) = p ⬝ᵥ P.getD i 0 := by
    intro i hi p
    rw [List.mem_range'_1] at hi
    rw [hP.unit i hi.1 (by omega), mul_one]
    rfl
  refine fold_exact hP _ put _ _ (fun i hi => by rw [List.mem_range'_1] at hi; omega) f2 j hj ?_
  by_cases h : j < nPres
  · right
    exact fold_exact hP _ put _ _ (fun i hi => lt_of_lt_of_le (List.mem_range.1 hi) hn) f1 j hj (Or.inl (List.mem_range.2 h))
  · left
    rw [List.mem_range'_1]
    omega

theorem orth_same {P : List (Vec n)} {nPres : ℕ} (hn : nPres ≤ P.length) (sq : ℕ → ℝ) (put : ℝ → ℝ → ℝ) (s : Vec n × (ℕ → ℝ))
    (h : ∀ j < P.length, s.1 ⬝ᵥ P.getD j 0 = 0) : (orth dot sq P nPres P.length put s).1 = s.1 := by
  unfold orth
  have h1 : ((List.range nPres).foldl (orthStep (fun p ll => dot p (P.getD ll 0) / sq ll) P put) s).1 = s.1 := by
    refine fold_same _ put _ s fun i hi => ?_
    have : dot s.1 (P.getD i 0) = 0 := h i (lt_of_lt_of_le (List.mem_range.1 hi) hn)
    rw [this, zero_div]
  rw [fold_same, h1]
  intro i hi
  rw [h1]
  rw [List.mem_range'_1] at hi
  exact h i (by omega)

theorem sys_accept {P : List (Vec n)} {nPres : ℕ} (hP : Sys P nPres) (hn : nPres ≤ P.length) {p : Vec n} (h : ∀ j < P.length, p ⬝ᵥ P.getD j 0 = 0)
    (hp : 0 < Real.sqrt (dot p p)) : Sys (P ++ [(1 / Real.sqrt (dot p p)) • p]) nPres := by
  have hl : (P ++ [(1 / Real.sqrt (dot p p)) • p]).length = P.length + 1 := by simp
  have g1 : ∀ i < P.length, (P ++ [(1 / Real.sqrt (dot p p)) • p]).getD i 0 = P.getD i 0 := fun i hi => List.getD_append _ _ _ _ hi
  have g2 : (P ++ [(1 / Real.sqrt (dot p p)) • p]).getD P.length 0 = (1 / Real.sqrt (dot p p)) • p := by
    rw [List.getD_append_right _ _ _ _ le_rfl, Nat.sub_self]
    rfl
  refine ⟨?_, ?_, ?_⟩
  · intro i j hi hj hij
    rw [hl] at hi hj
    rcases Nat.lt_succ_iff_lt_or_eq.1 hi with hi | rfl
    · rcases Nat.lt_succ_iff_lt_or_eq.1 hj with hj | rfl
      · rw [g1 i hi, g1 j hj]
        exact hP.orth i j hi hj hij
      · rw [g1 i hi, g2, dotProduct_smul, dotProduct_comm, h i hi, smul_zero]
    · rcases Nat.lt_succ_iff_lt_or_eq.1 hj with hj | rfl
      · rw [g1 j hj, g2, smul_dotProduct, h j hj, smul_zero]
      · exact absurd rfl hij
  · intro i hi
    rw [g1 i (lt_of_lt_of_le hi hn)]
    exact hP.pos i hi
  · intro i hi hil
    rw [hl] at hil
    rcases Nat.lt_succ_iff_lt_or_eq.1 hil with hil | rfl
    · rw [g1 i hil]
      exact hP.unit i hi hil
    · rw [g2, smul_dotProduct, dotProduct_smul, smul_eq_mul, smul_eq_mul]
      have h1 : p ⬝ᵥ p = Real.sqrt (dot p p) * Real.sqrt (dot p p) := (Real.mul_self_sqrt (le_of_lt (Real.sqrt_pos.1 hp))).symm
      rw [h1]
      field_simp

/-- one column, with the exact inner product -/
theorem column_exact {bad : Vec n → Vec n → Prop} {V : ℕ → Vec n} {nPres k l : ℕ} {s : St n} (h : Ok bad V nPres k l s) (hP : Sys s.P nPres) (hl : nPres ≤ l) (hlk : l < k)
    (hb : ∀ p, p - V l ∈ Submodule.span ℝ {x | x ∈ s.P} → (∀ j < s.P.length, p ⬝ᵥ s.P.getD j 0 = 0) →
      Real.sqrt (dot p p) ≤ lowerTol * Real.sqrt (dot (V l) (V l)) → p = 0 ∨ bad (V l) p) :
    ∃ s' p, column dot (fun l => dot (V l) (V l)) nPres k V s l = some s' ∧ Ok bad V nPres k (l + 1) s' ∧ Sys s'.P nPres ∧
      p - V l ∈ Submodule.span ℝ {x | x ∈ s.P} ∧ (∀ j < s.P.length, p ⬝ᵥ s.P.getD j 0 = 0) ∧
      ((lowerTol * Real.sqrt (dot (V l) (V l)) < Real.sqrt (dot p p) ∧ s'.P = s.P ++ [(1 / Real.sqrt (dot p p)) • p]) ∨
        (Real.sqrt (dot p p) ≤ lowerTol * Real.sqrt (dot (V l) (V l)) ∧ s'.P = s.P)) := by
  have hs0 : 0 ≤ Real.sqrt (dot (V l) (V l)) := Real.sqrt_nonneg _
  obtain ⟨a1, a2⟩ := first_rep dot (fun l => dot (V l) (V l)) h.pres h.len (V l) (h.len.trans hlk.le) (k := k)
  have hmin : min l s.P.length = s.P.length := min_eq_right h.len
  have a3 : ∀ j < s.P.length, (first dot (fun l => dot (V l) (V l)) nPres k s l (V l)).1 ⬝ᵥ s.P.getD j 0 = 0 := by
    unfold first
    simp only [hmin]
    exact orth_exact hP h.pres V h.spec _ _
  unfold column
  simp only
  generalize first dot (fun l => dot (V l) (V l)) nPres k s l (V l) = r at a1 a2 a3 ⊢
  have hspan : r.1 - V l ∈ Submodule.span ℝ {x | x ∈ s.P} := by
    have : r.1 - V l = - comb s.P r.2 := by rw [a1]; abel
    rw [this]
    refine Submodule.neg_mem _ (Submodule.sum_mem _ fun i hi => Submodule.smul_mem _ _ (Submodule.subset_span ?_))
    have hi := Finset.mem_range.1 hi
    show s.P.getD i 0 ∈ s.P
    rw [List.getD_eq_getElem?_getD, List.getElem?_eq_getElem hi, Option.getD_some]
    exact List.getElem_mem hi
  have hlow : (0 : ℝ) ≤ lowerTol := by unfold lowerTol; norm_num
  have hup : lowerTol ≤ upperTol := by unfold lowerTol upperTol; norm_num
  split
  · rename_i hu
    have hu' : lowerTol * Real.sqrt (dot (V l) (V l)) < Real.sqrt (dot r.1 r.1) := lt_of_le_of_lt (mul_le_mul_of_nonneg_right hup hs0) hu
    have hpos : 0 < Real.sqrt (dot r.1 r.1) := lt_of_le_of_lt (mul_nonneg hlow hs0) hu'
    obtain ⟨s', b1, b2, b3⟩ := ok_accept h hl hlk a2 a1 hpos.ne'
    exact ⟨s', r.1, b1, b3, b2 ▸ sys_accept hP h.pres a3 hpos, hspan, a3, Or.inl ⟨hu', b2⟩⟩
  · split
    · rename_i hlo
      have hpos : 0 < Real.sqrt (dot r.1 r.1) := lt_of_le_of_lt (mul_nonneg hlow hs0) hlo
      obtain ⟨c1, c2⟩ := again_rep dot (fun l => dot (V l) (V l)) h.pres h.len a1 a2
      have c3 : (orth dot (fun l => dot (V l) (V l)) s.P nPres (min l s.P.length) (fun o f => o + f) r).1 = r.1 := by
        rw [hmin]
        exact orth_same h.pres _ _ r a3
      unfold retry
      simp only
      rw [c3, if_pos]
      · rw [c3] at c1
        obtain ⟨s', b1, b2, b3⟩ := ok_accept h hl hlk c2 c1 hpos.ne'
        exact ⟨s', r.1, b1, b3, b2 ▸ sys_accept hP h.pres a3 hpos, hspan, a3, Or.inl ⟨hlo, b2⟩⟩
      · have : upperTol < 1 := by unfold upperTol; norm_num
        nlinarith
    · rename_i hlo
      have hle := not_lt.1 hlo
      exact ⟨_, r.1, rfl, ok_drop h hl a2 a1 (hb r.1 hspan a3 hle), hP, hspan, a3, Or.inr ⟨hle, rfl⟩⟩

theorem sys_start {V : ℕ → Vec n} {nPres : ℕ} (k : ℕ) (W0 : ℕ → ℕ → ℝ) (h0 : ∀ l < nPres, dot (V l) (V l) ≠ 0)
    (ho : ∀ i j, i < nPres → j < nPres → i ≠ j → dot (V i) (V j) = 0) : Sys (start V nPres k W0).P nPres := by
  have hl : (start V nPres k W0).P.length = nPres := by simp [start]
  have hs : ∀ i < nPres, (start V nPres k W0).P.getD i 0 = V i := by
    intro i hi
    unfold start
    rw [List.getD_eq_getElem?_getD, List.getElem?_map, List.getElem?_range hi]
    rfl
  refine ⟨?_, ?_, ?_⟩
  · intro i j hi hj hij
    rw [hl] at hi hj
    rw [hs i hi, hs j hj]
    exact ho i j hi hj hij
  · intro i hi
    rw [hs i hi]
    exact h0 i hi
  · intro i h1 h2
    omega

theorem columns_exact {V : ℕ → Vec n} {nPres k : ℕ} : ∀ (c l : ℕ) (s : St n), nPres ≤ l → l + c = k →
    Ok (fun v r => Real.sqrt (dot r r) ≤ lowerTol * Real.sqrt (dot v v)) V nPres k l s → Sys s.P nPres →
    ∃ s', (List.range' l c).foldlM (column dot (fun l => dot (V l) (V l)) nPres k V) s = some s' ∧
      Ok (fun v r => Real.sqrt (dot r r) ≤ lowerTol * Real.sqrt (dot v v)) V nPres k k s' ∧ Sys s'.P nPres := by
  intro c
  induction c with
  | zero => intro l s _ h2 h h'; exact ⟨s, rfl, by simpa using h2 ▸ h, h'⟩
  | succ c ih =>
    intro l s h1 h2 h h'
    obtain ⟨s1, p, a1, a2, a3, _⟩ := column_exact h h' h1 (by omega) fun p _ _ hp => Or.inr hp
    obtain ⟨s2, b1, b2⟩ := ih (l + 1) s1 (by omega) (by omega) a2 a3
    refine ⟨s2, ?_, b2⟩
    rw [List.range'_succ, List.foldlM_cons, a1]
    exact b1

/-- orthogonal vectors that are not zero are independent -/
theorem sys_indep {P : List (Vec n)} {nPres : ℕ} (hP : Sys P nPres) : LinearIndependent ℝ fun i : Fin P.length => P.getD i 0 := by
  rw [Fintype.linearIndependent_iff]
  intro g hg i
  have h1 : (∑ j : Fin P.length, g j • P.getD j 0) ⬝ᵥ P.getD i 0 = 0 := by rw [hg, zero_dotProduct]
  rw [sum_dotProduct, Finset.sum_eq_single_of_mem i (Finset.mem_univ _)] at h1
  · rw [smul_dotProduct, smul_eq_mul] at h1
    refine (mul_eq_zero.1 h1).resolve_right ?_
    by_cases hi : i.1 < nPres
    · exact hP.pos i hi
    · rw [hP.unit i (by omega) i.2]
      exact one_ne_zero
  · intro j _ hj
    rw [smul_dotProduct, hP.orth j i j.2 i.2 fun h => hj (Fin.ext h), smul_zero]

/-- **C102**: with the exact inner product the columns of `P` are orthogonal to each other, of length one after the first `nPres`, and independent, at
most as many as rows; the rests are at most `10⁻⁸` of the columns of `V` -/
theorem computePW_orth (V : ℕ → Vec n) {nPres k : ℕ} (hk : nPres ≤ k) (W0 : ℕ → ℕ → ℝ) (h0 : ∀ l < nPres, V l ⬝ᵥ V l ≠ 0)
    (ho : ∀ i j, i < nPres → j < nPres → i ≠ j → V i ⬝ᵥ V j = 0) :
    ∃ s, computePW dot V nPres k W0 = some s ∧ (∀ i j, i < s.P.length → j < s.P.length → i ≠ j → s.P.getD i 0 ⬝ᵥ s.P.getD j 0 = 0) ∧
      (∀ i, nPres ≤ i → i < s.P.length → s.P.getD i 0 ⬝ᵥ s.P.getD i 0 = 1) ∧ (LinearIndependent ℝ fun i : Fin s.P.length => s.P.getD i 0) ∧
      s.P.length ≤ n ∧ ∀ j < k, ∃ r, V j = (∑ i ∈ Finset.range s.P.length, s.W i j • s.P.getD i 0) + r ∧
        Real.sqrt (r ⬝ᵥ r) ≤ 1 / 10 ^ 8 * Real.sqrt (V j ⬝ᵥ V j) := by
  obtain ⟨s, h1, h2, h3⟩ := columns_exact (k - nPres) nPres (start V nPres k W0) le_rfl (by omega) (ok_start _ V hk W0) (sys_start k W0 h0 ho)
  refine ⟨s, ?_, h3.orth, h3.unit, sys_indep h3, ?_, ?_⟩
  · unfold computePW
    rw [if_neg]
    · exact h1
    · rintro ⟨_, l, hl, h⟩
      exact h0 l hl h
  · have := (sys_indep h3).fintype_card_le_finrank
    simpa using this
  · intro j hj
    obtain ⟨r, r1, r2⟩ := h2.rep j hj
    refine ⟨r, r1, ?_⟩
    rcases r2 with rfl | ⟨_, r2⟩
    · rw [zero_dotProduct, Real.sqrt_zero]
      exact mul_nonneg (by norm_num) (Real.sqrt_nonneg _)
    · exact r2

end NgsAMG.Pres
