import Verif.Props.HProl2
import Mathlib.Algebra.BigOperators.Fin

/-!
# Property C103: the local problem
-/

namespace NgsAMG.HProl
open NgsAMG.Spec
variable {K : Type} [Field K] [LinearOrder K]

theorem sum_fin {α : Type} (L : List α) (f : α → K) : ∑ i : Fin L.length, f L[i] = (L.map f).sum := Fin.sum_univ_fun_getElem L f

theorem sum_dofs (nd : ℕ → ℕ) (L : List ℕ) (f : Dof → K) : ((dofs nd L).map f).sum = (L.map fun e => ((List.range (nd e)).map fun l => f (e, l)).sum).sum := by
  unfold dofs
  induction L with
  | nil => rfl
  | cons a t ih =>
    rw [List.flatMap_cons, List.map_append, List.sum_append, ih, List.map_cons, List.sum_cons, List.map_map]
    rfl

theorem foldl_last : ∀ (L : Row K) (y : Dof) (a : K), (L.map Prod.fst).Nodup →
    L.foldl (fun a z => if z.1 = y then z.2 else a) a = if y ∈ L.map Prod.fst then (L.map fun z => if z.1 = y then z.2 else 0).sum else a := by
  intro L
  induction L with
  | nil => intro y a _; simp
  | cons x L ih =>
    intro y a hn
    rw [List.map_cons, List.nodup_cons] at hn
    rw [List.foldl_cons, ih y _ hn.2]
    by_cases hx : x.1 = y
    · subst hx
      rw [if_neg hn.1, if_pos rfl, if_pos (by simp), List.map_cons, List.sum_cons, if_pos rfl, List.sum_eq_zero, add_zero]
      intro z hz
      obtain ⟨w, hw, rfl⟩ := List.mem_map.1 hz
      have hne : ¬ w.1 = x.1 := fun he => hn.1 (he ▸ List.mem_map_of_mem hw)
      exact if_neg hne
    · simp only [List.map_cons, List.sum_cons, if_neg hx, zero_add]
      by_cases hm : y ∈ L.map Prod.fst
      · rw [if_pos hm, if_pos (List.mem_cons_of_mem _ hm)]
      · rw [if_neg hm, if_neg fun h => ?_]
        rcases List.mem_cons.1 h with h | h
        · exact hx h.symm
        · exact hm h

/-- the entries of a row, times the values of its columns -/
theorem sum_entries {L : Row K} (hn : (L.map Prod.fst).Nodup) {S : List Dof} (hS : S.Nodup) (hsub : ∀ y ∈ L, y.1 ∈ S) (c : Dof → K) :
    (S.map fun y => L.foldl (fun a z => if z.1 = y then z.2 else a) 0 * c y).sum = rowVal L c := by
  have h1 : ∀ y, L.foldl (fun a z => if z.1 = y then z.2 else a) 0 = (L.map fun z => if z.1 = y then z.2 else 0).sum := by
    intro y
    rw [foldl_last L y 0 hn]
    split_ifs with h
    · rfl
    · rw [List.sum_eq_zero]
      intro z hz
      obtain ⟨w, hw, rfl⟩ := List.mem_map.1 hz
      have hne : ¬ w.1 = y := fun he => h (he ▸ List.mem_map_of_mem hw)
      exact if_neg hne
  simp only [h1]
  unfold rowVal
  rw [← List.sum_toFinset _ hS]
  clear h1 hn
  induction L with
  | nil => simp
  | cons a L ih =>
    simp only [List.map_cons, List.sum_cons, add_mul, Finset.sum_add_distrib]
    rw [ih fun y hy => hsub y (by simp [hy])]
    congr 1
    simp only [ite_mul, zero_mul]
    rw [Finset.sum_ite_eq, if_pos (List.mem_toFinset.2 (hsub a (by simp)))]

/-- the solution of the local problem for a coarse field -/
theorem solve_eq {I : Inp K} (hI : MeshOK I) {P2 P3 : Mat K} {C : ℕ} (h : solveAgg I P2 (I.agg C) C = some P3) (c : Dof → K) :
    ∃ z : Unk I (I.agg C) → K, (∀ p, ∑ q, matM I (I.agg C) p q * z q = ∑ k : Crs I C, rhs I P2 (I.agg C) C p k * c (dofs I.cnd (edgesC I C))[k]) ∧
      (∀ k : Fin (dofs I.nd (edgesI I (I.agg C))).length, rowVal (P3 (dofs I.nd (edgesI I (I.agg C)))[k]) c = z (.inl k)) ∧
      IsUnit (matM I (I.agg C)).det ∧ I.cvol C ≠ 0 ∧ (∀ v ∈ I.agg C, ¬ I.vol v < 0) ∧ okIdx I P2 (I.agg C) C = true := by
  unfold solveAgg at h
  split_ifs at h with h1 h2 h3 h4
  have hn : ((extRows I P2 (I.agg C) C).map Prod.fst).Nodup := by
    rw [extRows_fst]
    exact dofs_nodup (edgesI_nodup hI C)
  refine ⟨fun p => ∑ k : Crs I C, ext I P2 (I.agg C) C p k * c (dofs I.cnd (edgesC I C))[k], ?_, ?_, h4, h2, ?_, by simpa using h3⟩
  · intro p
    calc ∑ q, matM I (I.agg C) p q * ∑ k : Crs I C, ext I P2 (I.agg C) C q k * c (dofs I.cnd (edgesC I C))[k]
        = ∑ k : Crs I C, (∑ q, matM I (I.agg C) p q * ext I P2 (I.agg C) C q k) * c (dofs I.cnd (edgesC I C))[k] := by
          simp only [Finset.mul_sum, Finset.sum_mul]
          rw [Finset.sum_comm]
          exact Finset.sum_congr rfl fun k _ => Finset.sum_congr rfl fun q _ => (mul_assoc _ _ _).symm
      _ = _ := by
          refine Finset.sum_congr rfl fun k _ => congrArg (· * _) ?_
          have : matM I (I.agg C) * ext I P2 (I.agg C) C = rhs I P2 (I.agg C) C := by
            unfold ext
            rw [Matrix.mul_nonsing_inv_cancel_left _ _ h4]
          rw [← this]
          rfl
  · intro k
    have hm : ((dofs I.nd (edgesI I (I.agg C)))[k], (List.finRange (dofs I.cnd (edgesC I C)).length).map fun c => ((dofs I.cnd (edgesC I C))[c], ext I P2 (I.agg C) C (.inl k) c)) ∈
        extRows I P2 (I.agg C) C := List.mem_map.2 ⟨k, List.mem_finRange k, rfl⟩
    rw [((writes_spec _ _ _ h hn).2 _ hm).1]
    unfold rowVal
    rw [List.map_map, ← List.ofFn_eq_map, List.sum_ofFn]
    rfl
  · intro v hv hneg
    exact h1 (List.any_eq_true.2 ⟨v, hv, by simpa using hneg⟩)

theorem idxOf_iff {L : List ℕ} (hn : L.Nodup) {r : ℕ} (hr : r < L.length) {x : ℕ} : r = L.idxOf x ↔ L[r] = x := by
  constructor
  · intro h
    subst h
    exact List.getElem_idxOf hr
  · intro h
    rw [← h, List.Nodup.idxOf_getElem hn]

theorem matBI_sigma {I : Inp K} (hI : MeshOK I) {C : ℕ} {e : ℕ} (he : e < I.nE) {r : ℕ} (hr : r < (I.agg C).length) (l : ℕ) :
    matBI I (I.agg C) r (e, l) = sigma I (I.agg C)[r] e * if l = 0 then I.flow e else 0 := by
  have hn : (I.agg C).Nodup := c2f_nodup _ _ _
  have := ends_ne hI he
  unfold matBI sigma
  simp only [idxOf_iff hn hr]
  by_cases h1 : (I.edge e).1 = (I.agg C)[r]
  · have h2 : (I.agg C)[r] ≠ (I.edge e).2 := h1 ▸ this
    rw [if_neg h2, if_pos h1.symm, if_pos h1, one_mul]
  · by_cases h2 : (I.edge e).2 = (I.agg C)[r]
    · rw [if_pos h2.symm, if_neg h1, if_pos h2]
      split <;> simp
    · rw [if_neg (Ne.symm h2), if_neg (Ne.symm h1), if_neg h1, if_neg h2, zero_mul]

theorem matBF_sigma {I : Inp K} (hI : MeshOK I) {C : ℕ} {e : ℕ} (hx : Exterior I C e) {r : ℕ} (hr : r < (I.agg C).length) (l : ℕ) :
    matBF I (I.agg C) r (e, l) = sigma I (I.agg C)[r] e * if l = 0 then I.flow e else 0 := by
  have hn : (I.agg C).Nodup := c2f_nodup _ _ _
  obtain ⟨v, w, hv, hw, hc⟩ := hx
  have hne : ¬ w = (I.agg C)[r] := fun h => hw (h ▸ List.getElem_mem hr)
  unfold matBF sigma
  simp only [idxOf_iff hn hr]
  obtain ⟨h1 | h1, h2⟩ := hI.ends _ _ _ hc
  · simp only [h1]
    rw [if_pos (by simpa using hv)]
    by_cases q : (I.agg C)[r] = v
    · rw [if_pos q, if_pos q.symm, one_mul]
    · rw [if_neg q, if_neg (Ne.symm q), if_neg hne, zero_mul]
  · simp only [h1]
    rw [if_neg (by simpa using hw), if_neg hne]
    by_cases q : (I.agg C)[r] = v
    · rw [if_pos q, if_pos q.symm]
      split <;> simp
    · rw [if_neg q, if_neg (Ne.symm q), zero_mul]

/-- the coarse flow of line 946 -/
theorem sum_bcRow (I : Inp K) (C : ℕ) (c : Dof → K) :
    ∑ k : Crs I C, bcRow I C (dofs I.cnd (edgesC I C))[k] * c (dofs I.cnd (edgesC I C))[k] =
      1 / I.cvol C * outOf I.ccon I.cedge (edgeFlow (cflow I) I.cnd c) C := by
  rw [sum_fin (dofs I.cnd (edgesC I C)) fun x => bcRow I C x * c x, sum_dofs]
  unfold edgesC outOf
  rw [((List.perm_insertionSort (· ≤ ·) ((I.ccon C).map Prod.snd)).map _).sum_eq, List.map_map, ← List.sum_map_mul_left]
  refine congrArg List.sum (List.map_congr_left fun x _ => ?_)
  simp only [Function.comp_apply, bcRow, edgeFlow]
  have h : ∀ (a b : K) (L : List ℕ), (L.map fun l => a * b * (if l = 0 then cflow I x.2 else 0) * c (x.2, l)).sum =
      a * (b * (L.map fun l => (if l = 0 then cflow I x.2 else 0) * c (x.2, l)).sum) := by
    intro a b L
    rw [← List.sum_map_mul_left, ← List.sum_map_mul_left]
    exact congrArg List.sum (List.map_congr_left fun l _ => by ring)
  refine (h (1 / I.cvol C) (if (I.cedge x.2).1 = C then 1 else -1) _).trans (congrArg _ ?_)
  split <;> simp

/-- the flow out of a vertex of the agglomerate, as in the rows of the local problem -/
theorem rows_outOf {I : Inp K} (hI : MeshOK I) (C : ℕ) (u : Dof → K) {r : ℕ} (hr : r < (I.agg C).length) :
    ((dofs I.nd (edgesI I (I.agg C))).map fun x => matBI I (I.agg C) r x * u x).sum + ((dofs I.nd (edgesF I (I.agg C))).map fun x => matBF I (I.agg C) r x * u x).sum =
      outOf I.con I.edge (edgeFlow I.flow I.nd u) (I.agg C)[r] := by
  have hdisj : Disjoint (edgesI I (I.agg C)).toFinset (edgesF I (I.agg C)).toFinset := by
    rw [Finset.disjoint_left]
    intro e h1 h2
    exact exterior_not_interior hI ((mem_edgesF hI).1 (List.mem_toFinset.1 h2)) ((mem_edgesI hI).1 (List.mem_toFinset.1 h1))
  have hIr : ∀ e ∈ edgesI I (I.agg C), e < I.nE := by
    intro e he
    obtain ⟨v, w, _, _, hc⟩ := (mem_edgesI hI).1 he
    exact (hI.range _ _ _ hc).2
  have hFr : ∀ e ∈ edgesF I (I.agg C), e < I.nE := by
    intro e he
    obtain ⟨v, w, _, _, hc⟩ := (mem_edgesF hI).1 he
    exact (hI.range _ _ _ hc).2
  have hfac : ∀ (s : K) (e : ℕ) (L : List ℕ), (L.map fun l => s * (if l = 0 then I.flow e else 0) * u (e, l)).sum =
      s * (L.map fun l => (if l = 0 then I.flow e else 0) * u (e, l)).sum := by
    intro s e L
    rw [← List.sum_map_mul_left]
    exact congrArg List.sum (List.map_congr_left fun l _ => by ring)
  have e1 : ((dofs I.nd (edgesI I (I.agg C))).map fun x => matBI I (I.agg C) r x * u x).sum =
      ∑ e ∈ (edgesI I (I.agg C)).toFinset, sigma I (I.agg C)[r] e * edgeFlow I.flow I.nd u e := by
    rw [sum_dofs, List.sum_toFinset _ (edgesI_nodup hI C)]
    refine congrArg List.sum (List.map_congr_left fun e he => ?_)
    simp only [matBI_sigma hI (hIr e he) hr]
    exact hfac _ _ _
  have e2 : ((dofs I.nd (edgesF I (I.agg C))).map fun x => matBF I (I.agg C) r x * u x).sum =
      ∑ e ∈ (edgesF I (I.agg C)).toFinset, sigma I (I.agg C)[r] e * edgeFlow I.flow I.nd u e := by
    rw [sum_dofs, List.sum_toFinset _ (edgesF_nodup hI C)]
    refine congrArg List.sum (List.map_congr_left fun e he => ?_)
    simp only [matBF_sigma hI ((mem_edgesF hI).1 he) hr]
    exact hfac _ _ _
  rw [e1, e2, ← Finset.sum_union hdisj]
  refine (outOf_sigma hI _ _ ?_ ?_).symm
  · intro e he
    rcases Finset.mem_union.1 he with he | he
    · exact hIr e (List.mem_toFinset.1 he)
    · exact hFr e (List.mem_toFinset.1 he)
  · intro w e hc
    rw [Finset.mem_union, List.mem_toFinset, List.mem_toFinset, mem_edgesI hI, mem_edgesF hI]
    by_cases hw : w ∈ I.agg C
    · exact Or.inl ⟨_, w, List.getElem_mem hr, hw, hc⟩
    · exact Or.inr ⟨_, w, List.getElem_mem hr, hw, hc⟩

/-- the products with `P_FC` -/
theorem sum_matPF {I : Inp K} (hI : MeshOK I) {P : Mat K} {C : ℕ} {x : Dof} (hn : ((P x).map Prod.fst).Nodup) (hs : ∀ y ∈ P x, y.1 ∈ dofs I.cnd (edgesC I C))
    (c : Dof → K) : ∑ k : Crs I C, matPF P x (dofs I.cnd (edgesC I C))[k] * c (dofs I.cnd (edgesC I C))[k] = rowVal (P x) c := by
  rw [sum_fin (dofs I.cnd (edgesC I C)) fun y => matPF P x y * c y]
  exact sum_entries hn (dofs_nodup (edgesC_nodup hI C)) hs c

/-- the rows of the local problem -/
theorem local_rows {I : Inp K} (hI : MeshOK I) {P2 P3 : Mat K} {C : ℕ} (h : solveAgg I P2 (I.agg C) C = some P3)
    (hF : ∀ x ∈ dofs I.nd (edgesF I (I.agg C)), ((P2 x).map Prod.fst).Nodup) (c u : Dof → K)
    (hu : ∀ x ∈ dofs I.nd (edgesI I (I.agg C)), u x = rowVal (P3 x) c) (hv : ∀ x ∈ dofs I.nd (edgesF I (I.agg C)), u x = rowVal (P2 x) c) :
    ∃ μ : K, ∀ v ∈ I.agg C, outOf I.con I.edge (edgeFlow I.flow I.nd u) v + μ =
      I.vol v * (1 / I.cvol C * outOf I.ccon I.cedge (edgeFlow (cflow I) I.cnd c) C) := by
  obtain ⟨z, h1, h2, _, _, _, hok⟩ := solve_eq hI h c
  unfold okIdx at hok
  rw [Bool.and_eq_true] at hok
  have hcols : ∀ x ∈ dofs I.nd (edgesF I (I.agg C)), ∀ y ∈ P2 x, y.1 ∈ dofs I.cnd (edgesC I C) := by
    intro x hx y hy
    have := List.all_eq_true.1 (List.all_eq_true.1 hok.2 x hx) y hy
    simpa using this
  refine ⟨z (.inr (.inr ())), fun v hvm => ?_⟩
  obtain ⟨r, hr, rfl⟩ := List.getElem_of_mem hvm
  have := h1 (.inr (.inl ⟨r, hr⟩))
  rw [Fintype.sum_sum_type, Fintype.sum_sum_type] at this
  simp only [matM, rhs, Finset.univ_unique, Finset.sum_singleton, one_mul, zero_mul, Finset.sum_const_zero, zero_add] at this
  have e1 : ∑ i : Fin (dofs I.nd (edgesI I (I.agg C))).length, matBI I (I.agg C) r (dofs I.nd (edgesI I (I.agg C)))[i] * z (.inl i) =
      ((dofs I.nd (edgesI I (I.agg C))).map fun x => matBI I (I.agg C) r x * u x).sum := by
    rw [← sum_fin (dofs I.nd (edgesI I (I.agg C))) fun x => matBI I (I.agg C) r x * u x]
    refine Finset.sum_congr rfl fun i _ => ?_
    rw [← h2 i]
    exact congrArg _ (hu _ (List.getElem_mem i.isLt)).symm
  have e2 : ∑ k : Crs I C, (I.vol (I.agg C)[r] * bcRow I C (dofs I.cnd (edgesC I C))[k] - ∑ f : Fin (dofs I.nd (edgesF I (I.agg C))).length,
      matBF I (I.agg C) r (dofs I.nd (edgesF I (I.agg C)))[f] * matPF P2 (dofs I.nd (edgesF I (I.agg C)))[f] (dofs I.cnd (edgesC I C))[k]) *
        c (dofs I.cnd (edgesC I C))[k] =
      I.vol (I.agg C)[r] * (1 / I.cvol C * outOf I.ccon I.cedge (edgeFlow (cflow I) I.cnd c) C) -
        ((dofs I.nd (edgesF I (I.agg C))).map fun x => matBF I (I.agg C) r x * u x).sum := by
    simp only [sub_mul, Finset.sum_sub_distrib]
    congr 1
    · rw [← sum_bcRow, Finset.mul_sum]
      exact Finset.sum_congr rfl fun k _ => mul_assoc _ _ _
    · rw [← sum_fin (dofs I.nd (edgesF I (I.agg C))) fun x => matBF I (I.agg C) r x * u x]
      simp only [Finset.sum_mul]
      rw [Finset.sum_comm]
      refine Finset.sum_congr rfl fun f _ => ?_
      have e := (hv _ (List.getElem_mem f.isLt)).trans (sum_matPF hI (hF _ (List.getElem_mem f.isLt)) (hcols _ (List.getElem_mem f.isLt)) c).symm
      refine Eq.trans ?_ (congrArg (matBF I (I.agg C) r (dofs I.nd (edgesF I (I.agg C)))[f] * ·) e.symm)
      simp only [Finset.mul_sum, mul_assoc]
      rfl
  have e3 := rows_outOf hI C u hr
  rw [← e3]
  have : ((dofs I.nd (edgesI I (I.agg C))).map fun x => matBI I (I.agg C) r x * u x).sum + z (.inr (.inr ())) =
      I.vol (I.agg C)[r] * (1 / I.cvol C * outOf I.ccon I.cedge (edgeFlow (cflow I) I.cnd c) C) -
        ((dofs I.nd (edgesF I (I.agg C))).map fun x => matBF I (I.agg C) r x * u x).sum := by
    rw [← e1, ← e2]
    exact this
  rw [eq_sub_iff_add_eq] at this
  rw [← this]
  ring

end NgsAMG.HProl
