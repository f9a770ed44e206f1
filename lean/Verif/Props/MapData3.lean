import Verif.Props.MapData2
import Mathlib.Tactic.IntervalCases

/-! C65: cases that meet the hypotheses of the positive theorems, and the two situations in which the claim fails for
elasticity. -/

namespace NgsAMG.MapData

open Matrix Finset Elast

/-- three vertices on a line, the first two are one aggregate, the third is a coarse vertex of its own; a fourth one is at the
ground -/
def exC : CMap where
  vmap v := [some 0, some 0, some 1, none].getD v none
  emap e := [none, some 0, none].getD e none
  ncv := 2
  cedges := [(0, 1)]

/-- edges inside of the aggregate, between the aggregates, and to the ground -/
def exEdges : List (ℕ × ℕ) := [(0, 1), (1, 2), (0, 3)]

/-- `MapOK` only looks at the edges -/
theorem exC_ok {VD ED : Type} (F : Mesh VD ED) (h1 : F.nv = 4) (h2 : F.edges = exEdges) : MapOK F exC := by
  have hlen : F.edges.length = 3 := by rw [h2]; rfl
  refine ⟨?_, ?_, ?_, ?_⟩
  · intro e he
    rw [hlen] at he
    unfold Mesh.edge
    rw [h1, h2]
    interval_cases e <;> decide
  · intro v cv h
    by_cases hv : v < 4
    · interval_cases v <;> simp [exC] at h ⊢ <;> omega
    · have : [some 0, some 0, some 1, none][v]? = none := List.getElem?_eq_none (by simp; omega)
      simp [exC, List.getD_eq_getElem?_getD, this] at h
  · intro e he ce h
    rw [hlen] at he
    unfold Mesh.edge
    rw [h2]
    interval_cases e
    · simp [exC] at h
    · simp only [exC, List.getD_cons_succ, List.getD_cons_zero, Option.some.injEq] at h
      subst h
      exact ⟨by decide, 0, 1, by decide, by decide, Or.inl (by decide)⟩
    · simp [exC] at h
  · intro e he h
    rw [hlen] at he
    unfold Mesh.edge
    rw [h2]
    interval_cases e
    · exact Or.inl (by decide)
    · simp [exC] at h
    · exact Or.inr (Or.inr (by decide))

/-- H1 data on the example -/
def exH1 : Mesh (ℝ × ℝ) ℝ := ⟨4, fun v => ((v : ℝ), 1), exEdges, fun e => (e : ℝ) + 1⟩

example : MapOK exH1 exC := exC_ok _ rfl rfl

/-- the coarse energy of the example is a non-trivial number -/
example : h1Energy (h1Map exH1 exC) (fun c (_ : Fin 1) => (c : ℝ) + 1) = 14 := by
  simp only [h1Energy, h1Map, h1MapV, h1MapE, scatterAdd_apply]
  norm_num [exH1, exC, exEdges, groundVertex, Mesh.edge, List.range_succ, Finset.sum_range_succ]
  simp only [dotProduct, reduceCtorEq, if_false, Prod.fst_zero]
  norm_num

/-- elasticity data on the example: the vertices are on a line -/
noncomputable def exEl : Mesh (VData 2 1) (TM 2 1) := ⟨4, fun v => ⟨![(v : ℝ), 0], 1, 1⟩, exEdges, fun _ => 1⟩

/-- the first member of the aggregate is its center, and has the edge to the ground -/
example : MapOK exEl exC ∧ DataOK exEl ∧ (∀ cv < exC.ncv, c2f exEl exC cv ≠ []) ∧
    (∀ v < exEl.nv, ∀ cv, exC.vmap v = some cv → (decide (v = 0 ∨ v = 2) = true ↔ v = rep exEl exC cv)) ∧
    (∀ e < exEl.edges.length, ∀ cv, groundVertex exC (exEl.edge e) e = some cv →
      (groundFine exC (exEl.edge e)).1 = rep exEl exC cv) := by
  refine ⟨exC_ok _ rfl rfl, ⟨fun v => by simp [exEl], fun v => by simp [exEl], fun e => by simp [exEl]⟩, ?_, ?_, ?_⟩
  · intro cv hcv
    change cv < 2 at hcv
    interval_cases cv <;> simp [c2f, exEl, exC, List.range_succ]
  · intro v hv cv h
    change v < 4 at hv
    interval_cases v <;> simp [exC] at h <;> subst h <;> simp [rep, c2f, exEl, exC, List.range_succ]
  · intro e he cv h
    change e < 3 at he
    interval_cases e <;> simp [groundVertex, exC, exEl, exEdges, Mesh.edge] at h
    subst h
    simp [groundFine, rep, c2f, exEl, exC, exEdges, Mesh.edge, List.range_succ]

/-! ### the two situations in which it fails -/

/-- two vertices at the same place, one aggregate; only the first one has a weight -/
def badV : Mesh (VData 2 1) (TM 2 1) := ⟨2, fun v => ⟨0, if v = 0 then 1 else 0, 1⟩, [], fun _ => 0⟩

/-- all vertices are mapped to the first coarse vertex -/
def badVC : CMap := ⟨fun v => if v < 2 then some 0 else none, fun _ => none, 1, []⟩

theorem quad_one {ι : Type} [Fintype ι] [DecidableEq ι] (u : ι → ℝ) : quad u 1 = u ⬝ᵥ u := by
  show u ⬝ᵥ (1 *ᵥ u) = u ⬝ᵥ u
  rw [Matrix.one_mulVec]

/-- a displacement -/
def shift : ℕ → Fin 2 ⊕ Fin 1 → ℝ := fun _ => Sum.elim ![1, 0] 0

theorem badV_ok : MapOK badV badVC ∧ DataOK badV := by
  refine ⟨⟨?_, ?_, ?_, ?_⟩, ⟨?_, ?_, ?_⟩⟩
  · intro e he; simp [badV] at he
  · intro v cv h
    simp only [badVC] at h
    split at h <;> simp_all [badVC]
  · intro e he; simp [badV] at he
  · intro e he; simp [badV] at he
  · intro v; simp [badV]
  · intro v
    simp only [badV]
    split <;> simp
  · intro e; simp [badV]

/-- **C65** fails for elasticity if the center of an aggregate is not its member with the lowest number: that member's weight is
counted twice -/
theorem elMap_center_wrong : MapOK badV badVC ∧ DataOK badV ∧ (∀ cv < badVC.ncv, c2f badV badVC cv ≠ []) ∧
    elEnergy ops2 (elMap ops2 badV badVC fun v => v = 1) shift
      = 2 * elEnergy ops2 badV (act (pwProl (calcQHh ops2) badV badVC (elMapV ops2 badV badVC fun v => v = 1)) shift) ∧
    elEnergy ops2 (elMap ops2 badV badVC fun v => v = 1) shift ≠ 0 := by
  refine ⟨badV_ok.1, badV_ok.2, ?_, ?_⟩
  · intro cv hcv
    change cv < 1 at hcv
    interval_cases cv
    simp [c2f, badV, badVC, List.range_succ]
  have hrep : rep badV badVC 0 = 0 := by simp [rep, c2f, badV, badVC, List.range_succ]
  have hw : (elMapV ops2 badV badVC (fun v => v = 1) 0) = ⟨0, 1 + 1, 1⟩ := by
    rw [elMapV_spec _ _ _ badV_ok.2, hrep]
    simp only [badV]
    congr 1
    simp [badVC, List.range_succ, calcQHh]
    have := transport_self laws2 (⟨0, 1, 1⟩ : VData 2 1) (by norm_num)
    rw [calcQHh] at this
    rw [this]
    simp
  have hl : elEnergy ops2 (elMap ops2 badV badVC fun v => v = 1) shift = 2 := by
    simp only [elEnergy, elMap, badVC, List.length_nil, sum_range_zero, add_zero, sum_range_one]
    rw [show elMapV ops2 badV ⟨fun v => if v < 2 then some 0 else none, fun _ => none, 1, []⟩ (fun v => decide (v = 1)) 0
      = ⟨0, 1 + 1, 1⟩ from hw]
    simp [elGround, badV, shift, Matrix.add_mulVec, dotProduct, Fintype.sum_sum_type]
    norm_num
  have hr : elEnergy ops2 badV (act (pwProl (calcQHh ops2) badV badVC (elMapV ops2 badV badVC fun v => v = 1)) shift) = 1 := by
    simp only [elEnergy]
    rw [show badV.edges.length = 0 from rfl, show badV.nv = 2 from rfl, sum_range_zero, add_zero, sum_range_succ, sum_range_one]
    rw [act_pwProl _ _ _ _ _ _ (show 0 < badV.nv by decide), act_pwProl _ _ _ _ _ _ (show 1 < badV.nv by decide)]
    simp only [show badVC.vmap 0 = some 0 from rfl, show badVC.vmap 1 = some 0 from rfl, hw]
    have h0 : (badV.vdata 0).wt = 1 := by simp [badV]
    have h1 : (badV.vdata 1).wt = 0 := by simp [badV]
    rw [h0, h1]
    simp only [Matrix.one_mulVec, Matrix.zero_mulVec, dotProduct_zero, add_zero]
    have hq : calcQHh ops2 (⟨0, 1 + 1, 1⟩ : VData 2 1) (badV.vdata 0) = 1 := by
      have := transport_self laws2 (⟨0, 1, 1⟩ : VData 2 1) (by norm_num)
      rw [← this]
      simp [calcQHh, getQiToj, badV]
    rw [hq]
    simp [shift, dotProduct, Fintype.sum_sum_type]
  rw [hl, hr]
  norm_num

/-- vertices at `0`, `1`, `2` on a line; the first two are an aggregate, the third is at the ground, with an edge to the second -/
def badG : Mesh (VData 2 1) (TM 2 1) := ⟨3, fun v => ⟨![(v : ℝ), 0], 0, 1⟩, [(1, 2)], fun _ => 1⟩

/-- a rotation -/
def rotate : ℕ → Fin 2 ⊕ Fin 1 → ℝ := fun _ => Sum.elim 0 ![1]

theorem badG_ok : MapOK badG badVC ∧ DataOK badG := by
  refine ⟨⟨?_, ?_, ?_, ?_⟩, ⟨?_, ?_, ?_⟩⟩
  · intro e he
    simp only [badG, List.length_singleton] at he
    interval_cases e
    decide
  · intro v cv h
    simp only [badVC] at h
    split at h <;> simp_all [badVC]
  · intro e he ce h; simp [badVC] at h
  · intro e he h
    simp only [badG, List.length_singleton] at he
    interval_cases e
    exact Or.inr (Or.inr (by decide))
  · intro v; simp [badG]
  · intro v; simp [badG]
  · intro e; simp [badG]

/-- **C65** fails for elasticity if a member other than the first has an edge to the ground, even if all centers are first members:
its contribution is not transported to the position of the coarse vertex -/
theorem elMap_ground_wrong : MapOK badG badVC ∧ DataOK badG ∧ (∀ cv < badVC.ncv, c2f badG badVC cv ≠ []) ∧
    (∀ v < badG.nv, ∀ cv, badVC.vmap v = some cv → (decide (v = 0) = true ↔ v = rep badG badVC cv)) ∧
    elEnergy ops2 (elMap ops2 badG badVC fun v => v = 0) rotate = 5 / 4 ∧
    elEnergy ops2 badG (act (pwProl (calcQHh ops2) badG badVC (elMapV ops2 badG badVC fun v => v = 0)) rotate) = 13 / 4 := by
  have hrep : rep badG badVC 0 = 0 := by simp [rep, c2f, badG, badVC, List.range_succ]
  refine ⟨badG_ok.1, badG_ok.2, ?_, ?_, ?_, ?_⟩
  · intro cv hcv
    change cv < 1 at hcv
    interval_cases cv
    simp [c2f, badG, badVC, List.range_succ]
  · intro v hv cv h
    simp only [badVC] at h
    split at h
    · simp only [Option.some.injEq] at h
      subst h
      rw [hrep]
      simp
    · simp at h
  · have hw : (elMapV ops2 badG badVC (fun v => v = 0) 0).wt = 0 := by
      rw [elMapV_spec _ _ _ badG_ok.2]
      simp [badG]
    have hg : elGround ops2 badG badVC 0 = (calcQij ops2 (badG.vdata 1) (badG.vdata 2))ᵀ * 1 *
        calcQij ops2 (badG.vdata 1) (badG.vdata 2) := by
      rw [elGround_spec _ _ badG_ok.2, scatterAdd_apply]
      simp [badG, badVC, groundVertex, groundFine, Mesh.edge]
    have : elEnergy ops2 (elMap ops2 badG badVC fun v => v = 0) rotate = quad (rotate 0)
        ((elMapV ops2 badG badVC (fun v => v = 0) 0).wt + elGround ops2 badG badVC 0) := by
      simp only [elEnergy, elMap]
      rw [show badVC.cedges.length = 0 from rfl, show badVC.ncv = 1 from rfl, sum_range_zero, add_zero, sum_range_one]
      rfl
    rw [this, hw, hg, zero_add, quad_trans]
    rw [quad_one, calcQij, setQ_mulVec]
    simp [getQij, badG, rotate, ops2, dotProduct, Fintype.sum_sum_type, vecHead, vecTail]
    norm_num
  · have hpos : ∀ c, elMapV ops2 badG badVC (fun v => v = 0) c = { badG.vdata (rep badG badVC c) with
        wt := (elMapV ops2 badG badVC (fun v => v = 0) c).wt } := by
      intro c
      rw [elMapV_spec _ _ _ badG_ok.2]
    have hE : ∀ u, elEnergy ops2 badG u = quad ((calcQs ops2 (badG.vdata 1) (badG.vdata 2)).1 *ᵥ u 1
        - (calcQs ops2 (badG.vdata 1) (badG.vdata 2)).2 *ᵥ u 2) (1 : TM 2 1) := by
      intro u
      have h := edge_energy laws2 (1 : TM 2 1) (by simp) (badG.vdata 1) (badG.vdata 2) (u 1) (u 2)
      rw [← h]
      simp only [elEnergy]
      rw [show badG.edges.length = 1 from rfl, sum_range_one]
      have : ∑ v ∈ range badG.nv, u v ⬝ᵥ ((badG.vdata v).wt *ᵥ u v) = 0 :=
        sum_eq_zero fun v _ => by simp [badG]
      rw [this, zero_add]
      rfl
    rw [hE, act_pwProl _ _ _ _ _ _ (show 1 < badG.nv by decide), act_pwProl _ _ _ _ _ _ (show 2 < badG.nv by decide)]
    simp only [show badVC.vmap 1 = some 0 from rfl, show badVC.vmap 2 = none from rfl, Matrix.mulVec_zero, sub_zero]
    rw [hpos 0, hrep]
    rw [quad_one, calcQs, calcQHh, setQ_mulVec, setQ_mulVec]
    simp [getQijQji, getQiToj, badG, rotate, ops2, dotProduct, Fintype.sum_sum_type, vecHead, vecTail]
    norm_num

end NgsAMG.MapData
