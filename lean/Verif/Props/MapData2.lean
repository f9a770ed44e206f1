import Verif.Props.MapData

/-! C65 for elasticity: what holds, and two situations in which it does not. -/

namespace NgsAMG.MapData

open Matrix Finset Elast

variable {D R : ℕ} {T : TOps D R}

/-- the vertex the position of a coarse vertex is taken from -/
def rep {VD ED : Type} (F : Mesh VD ED) (C : CMap) (cv : ℕ) : ℕ := (c2f F C cv).headD 0

/-- the data is that of an elasticity problem: scalings are positive and all matrices are symmetric -/
structure DataOK (F : Mesh (VData D R) (TM D R)) : Prop where
  pos : ∀ v, 0 < (F.vdata v).rotScaling
  vsymm : ∀ v, (F.vdata v).wtᵀ = (F.vdata v).wt
  esymm : ∀ e, (F.edata e)ᵀ = F.edata e

section
variable [NeZero R]

/-- position and scaling of a coarse vertex are those of its first member; the weight is a sum -/
theorem elMapV_spec (F : Mesh (VData D R) (TM D R)) (C : CMap) (isCenter : ℕ → Bool) (ok : DataOK F) (cv : ℕ) :
    elMapV T F C isCenter cv = { F.vdata (rep F C cv) with
      wt := (F.vdata (rep F C cv)).wt + ((List.range F.nv).map fun v =>
        if (if isCenter v then none else C.vmap v) = some cv then
          (calcQHh T (F.vdata (rep F C cv)) (F.vdata v))ᵀ * (F.vdata v).wt * calcQHh T (F.vdata (rep F C cv)) (F.vdata v)
        else 0).sum } := by
  have gen : ∀ (l : List ℕ) (c : ℕ → VData D R),
      (∀ k, (c k).pos = (F.vdata (rep F C k)).pos ∧ (c k).rotScaling = (F.vdata (rep F C k)).rotScaling) →
      l.foldl (fun c v => match C.vmap v with
        | none => c
        | some cv => if isCenter v then c else
          Function.update c cv { c cv with wt := addQtMQ 1 (c cv).wt (calcQHh T (c cv) (F.vdata v)) (F.vdata v).wt }) c cv
      = { F.vdata (rep F C cv) with
          wt := (c cv).wt + (l.map fun v => if (if isCenter v then none else C.vmap v) = some cv then
            (calcQHh T (F.vdata (rep F C cv)) (F.vdata v))ᵀ * (F.vdata v).wt * calcQHh T (F.vdata (rep F C cv)) (F.vdata v)
          else 0).sum } := by
    intro l
    induction l with
    | nil =>
      intro c hc
      simp only [List.foldl_nil, List.map_nil, List.sum_nil, add_zero]
      cases hd : c cv with
      | mk p w r =>
        have := hc cv
        rw [hd] at this
        simp only at this
        rw [this.1, this.2]
    | cons v l ih =>
      intro c hc
      rw [List.foldl_cons, List.map_cons, List.sum_cons]
      cases hv : C.vmap v with
      | none =>
        dsimp only
        rw [ih c hc]
        simp
      | some k =>
        dsimp only
        cases hcen : isCenter v with
        | true =>
          simp only [if_true]
          rw [ih c hc]
          simp
        | false =>
          simp only [Bool.false_eq_true, if_false]
          rw [ih]
          · by_cases hk : k = cv
            · subst hk
              have hQ : calcQHh T (c k) (F.vdata v) = calcQHh T (F.vdata (rep F C k)) (F.vdata v) := by
                simp only [calcQHh, getQiToj, (hc k).1, (hc k).2]
              rw [Function.update_self, hQ, calcQHh, addQtMQ_correct _ _ _ _ (ok.vsymm v)]
              simp [add_assoc]
            · rw [Function.update_of_ne (Ne.symm hk)]
              simp [hk]
          · intro k'
            by_cases hk : k' = k
            · subst hk
              rw [Function.update_self]
              exact hc k'
            · rw [Function.update_of_ne hk]
              exact hc k'
  exact gen _ _ fun k => ⟨rfl, rfl⟩

theorem elGround_spec (F : Mesh (VData D R) (TM D R)) (C : CMap) (ok : DataOK F) :
    elGround T F C = scatterAdd (List.range F.edges.length) (fun e => groundVertex C (F.edge e) e) (fun e =>
      (calcQij T (F.vdata (groundFine C (F.edge e)).1) (F.vdata (groundFine C (F.edge e)).2))ᵀ * F.edata e *
        calcQij T (F.vdata (groundFine C (F.edge e)).1) (F.vdata (groundFine C (F.edge e)).2)) (fun _ => 0) := by
  have gen : ∀ (l : List ℕ) (c : ℕ → TM D R),
      l.foldl (fun c e => match groundVertex C (F.edge e) e with
        | none => c
        | some cv =>
          let v := groundFine C (F.edge e)
          Function.update c cv
            (addQtMQ 1 (c cv) (calcQij T (F.vdata v.1) (F.vdata v.2)) (F.edata e))) c
      = scatterAdd l (fun e => groundVertex C (F.edge e) e) (fun e =>
      (calcQij T (F.vdata (groundFine C (F.edge e)).1) (F.vdata (groundFine C (F.edge e)).2))ᵀ * F.edata e *
        calcQij T (F.vdata (groundFine C (F.edge e)).1) (F.vdata (groundFine C (F.edge e)).2)) c := by
    intro l
    induction l with
    | nil => intro c; rfl
    | cons e l ih =>
      intro c
      rw [List.foldl_cons, ih]
      unfold scatterAdd
      rw [List.foldl_cons]
      congr 1
      beta_reduce
      cases groundVertex C (F.edge e) e with
      | none => rfl
      | some cv =>
        simp only
        rw [calcQij, addQtMQ_correct _ _ _ _ (ok.esymm e), one_smul]
  exact gen _ _

end

/-- `W ↦ u · W u` is additive -/
def quad {ι : Type} [Fintype ι] (u : ι → ℝ) : Matrix ι ι ℝ →+ ℝ where
  toFun W := u ⬝ᵥ (W *ᵥ u)
  map_zero' := by simp
  map_add' A B := by rw [Matrix.add_mulVec, dotProduct_add]

theorem quad_trans {ι : Type} [Fintype ι] (u : ι → ℝ) (Q W : Matrix ι ι ℝ) :
    quad u (Qᵀ * W * Q) = quad (Q *ᵥ u) W := by
  show u ⬝ᵥ ((Qᵀ * W * Q) *ᵥ u) = (Q *ᵥ u) ⬝ᵥ (W *ᵥ (Q *ᵥ u))
  rw [← Matrix.mulVec_mulVec, ← Matrix.mulVec_mulVec, Matrix.dotProduct_mulVec _ Qᵀ, Matrix.vecMul_transpose]

theorem quad_neg {ι : Type} [Fintype ι] (u : ι → ℝ) (W : Matrix ι ι ℝ) : quad (-u) W = quad u W := by
  show (-u) ⬝ᵥ (W *ᵥ (-u)) = u ⬝ᵥ (W *ᵥ u)
  rw [Matrix.mulVec_neg, dotProduct_neg, neg_dotProduct, neg_neg]

theorem quad_zero {ι : Type} [Fintype ι] (W : Matrix ι ι ℝ) : quad 0 W = 0 := by
  show (0 : ι → ℝ) ⬝ᵥ (W *ᵥ 0) = 0
  simp

/-- energy of an edge as energy of the jump -/
theorem edge_energy (L : Laws T) (E : TM D R) (hE : Eᵀ = E) (vi vj : VData D R) (ui uj : Fin D ⊕ Fin R → ℝ) :
    ∑ a : Fin 2, ∑ b : Fin 2, ![ui, uj] a ⬝ᵥ (calcRMBlock T E vi vj a b *ᵥ ![ui, uj] b)
      = quad ((calcQs T vi vj).1 *ᵥ ui - (calcQs T vi vj).2 *ᵥ uj) E := by
  have := rmBlock_energy L E hE vi vj ![ui, uj]
  exact this

/-- **C65**, elasticity: the coarse energy is the fine energy of the piecewise prolongation, provided that every aggregate has its
center as first member, and that only first members have edges to the ground -/
theorem elMap_galerkin_partial [NeZero R] (L : Laws T) (F : Mesh (VData D R) (TM D R)) (C : CMap) (isCenter : ℕ → Bool)
    (ok : MapOK F C) (dok : DataOK F)
    (hfirst : ∀ cv < C.ncv, c2f F C cv ≠ [])
    (hcenter : ∀ v < F.nv, ∀ cv, C.vmap v = some cv → (isCenter v = true ↔ v = rep F C cv))
    (hground : ∀ e < F.edges.length, ∀ cv, groundVertex C (F.edge e) e = some cv →
      (groundFine C (F.edge e)).1 = rep F C cv)
    (U : ℕ → Fin D ⊕ Fin R → ℝ) :
    elEnergy T (elMap T F C isCenter) U
      = elEnergy T F (act (pwProl (calcQHh T) F C (elMapV T F C isCenter)) U) := by
  set P := act (pwProl (calcQHh T) F C (elMapV T F C isCenter)) U with hP
  have hPv : ∀ v < F.nv, P v = match C.vmap v with
      | none => 0
      | some cv => calcQHh T (F.vdata (rep F C cv)) (F.vdata v) *ᵥ U cv := by
    intro v hv
    rw [hP, act_pwProl _ _ _ _ _ _ hv]
    cases C.vmap v with
    | none => rfl
    | some cv =>
      dsimp only
      rw [elMapV_spec F C isCenter dok cv]
      rfl
  have hposne : ∀ v, (F.vdata v).rotScaling ≠ 0 := fun v => (dok.pos v).ne'
  -- the first member of an aggregate
  have hrep : ∀ cv < C.ncv, rep F C cv < F.nv ∧ C.vmap (rep F C cv) = some cv := by
    intro cv hcv
    have hne := hfirst cv hcv
    have hm : rep F C cv ∈ c2f F C cv := by
      unfold rep
      cases h : c2f F C cv with
      | nil => exact absurd h hne
      | cons a l => simp
    simpa [c2f] using hm
  -- vertex weights
  have hV : ∑ c ∈ range C.ncv, quad (U c) (elMapV T F C isCenter c).wt
      = ∑ v ∈ range F.nv, quad (P v) (F.vdata v).wt := by
    have h1 : ∀ c, quad (U c) (elMapV T F C isCenter c).wt = quad (U c) (F.vdata (rep F C c)).wt +
        ((List.range F.nv).map fun v => if (if isCenter v then none else C.vmap v) = some c then
          quad (calcQHh T (F.vdata (rep F C c)) (F.vdata v) *ᵥ U c) (F.vdata v).wt else 0).sum := by
      intro c
      rw [elMapV_spec F C isCenter dok c, map_add, map_list_sum, List.map_map]
      congr 2
      refine List.map_congr_left fun v _ => ?_
      simp only [Function.comp]
      by_cases h : (if isCenter v then none else C.vmap v) = some c
      · simp only [h, if_true]
        rw [quad_trans]
      · simp only [h, if_false, map_zero]
    rw [sum_congr rfl fun c _ => h1 c, sum_add_distrib,
      sum_keys (List.range F.nv) (fun v => if isCenter v then none else C.vmap v) C.ncv
        (fun c v => quad (calcQHh T (F.vdata (rep F C c)) (F.vdata v) *ᵥ U c) (F.vdata v).wt)
        (fun v _ c h => by
          split at h
          · simp at h
          · exact ok.vlt _ _ h), list_range_sum]
    have h2 : ∑ c ∈ range C.ncv, quad (U c) (F.vdata (rep F C c)).wt =
        ∑ v ∈ range F.nv, (match (if isCenter v then C.vmap v else none) with
          | none => 0
          | some c => quad (calcQHh T (F.vdata (rep F C c)) (F.vdata v) *ᵥ U c) (F.vdata v).wt) := by
      rw [← list_range_sum F.nv]
      refine Eq.trans ?_ (sum_keys (List.range F.nv) (fun v => if isCenter v then C.vmap v else none) C.ncv
        (fun c v => quad (calcQHh T (F.vdata (rep F C c)) (F.vdata v) *ᵥ U c) (F.vdata v).wt)
        (fun v _ c h => by
          split at h
          · exact ok.vlt _ _ h
          · simp at h))
      refine sum_congr rfl fun c hc => ?_
      have hc := mem_range.mp hc
      obtain ⟨r1, r2⟩ := hrep c hc
      rw [list_range_sum, sum_eq_single (rep F C c)]
      · have : isCenter (rep F C c) = true := (hcenter _ r1 c r2).mpr rfl
        simp only [this, r2, if_true]
        rw [transport_self L _ (hposne _), Matrix.one_mulVec]
      · intro v hv hne
        have hv := mem_range.mp hv
        rw [if_neg]
        intro h
        split at h
        · rename_i hcen
          exact absurd ((hcenter v hv c h).mp hcen) hne
        · simp at h
      · intro h
        exact absurd (mem_range.mpr r1) h
    rw [h2, ← sum_add_distrib]
    refine sum_congr rfl fun v hv => ?_
    rw [hPv v (mem_range.mp hv)]
    cases hcen : isCenter v <;> cases hvm : C.vmap v <;> simp [quad_zero]
  -- edges to the ground
  have hG : ∑ c ∈ range C.ncv, quad (U c) (elGround T F C c) =
      ∑ e ∈ range F.edges.length, (match groundVertex C (F.edge e) e with
        | none => 0
        | some c => quad (calcQij T (F.vdata (groundFine C (F.edge e)).1) (F.vdata (groundFine C (F.edge e)).2) *ᵥ U c)
            (F.edata e)) := by
    rw [elGround_spec F C dok, scatterAdd_sum _ _ _ _ _ (fun c => quad (U c)) (fun e _ c h => groundVertex_lt ok _ _ _ h),
      list_range_sum]
    simp only [map_zero, sum_const_zero, zero_add]
    refine sum_congr rfl fun e _ => ?_
    cases groundVertex C (F.edge e) e with
    | none => rfl
    | some c => simp only; rw [quad_trans]
  -- mapped edges
  set cvd := elMapV T F C isCenter with hcvd
  have hcpos : ∀ c, 0 < (cvd c).rotScaling := by
    intro c
    rw [hcvd, elMapV_spec F C isCenter dok c]
    exact dok.pos _
  have hcQ : ∀ c (w : VData D R), calcQHh T (cvd c) w = calcQHh T (F.vdata (rep F C c)) w := by
    intro c w
    rw [hcvd, elMapV_spec F C isCenter dok c]
    rfl
  have hEsym : ∀ ce, (elMapE T F C cvd ce)ᵀ = elMapE T F C cvd ce := by
    intro ce
    unfold elMapE
    rw [scatterAdd_apply, zero_add]
    generalize List.range F.edges.length = l
    induction l with
    | nil => simp
    | cons e l ih =>
      rw [List.map_cons, List.sum_cons, Matrix.transpose_add, ih]
      congr 1
      split
      · simp [Matrix.transpose_mul, dok.esymm e, Matrix.mul_assoc]
      · simp
  have hE : ∑ ce ∈ range C.cedges.length,
        quad ((calcQs T (cvd (C.cedge ce).1) (cvd (C.cedge ce).2)).1 *ᵥ U (C.cedge ce).1
          - (calcQs T (cvd (C.cedge ce).1) (cvd (C.cedge ce).2)).2 *ᵥ U (C.cedge ce).2) (elMapE T F C cvd ce) =
      ∑ e ∈ range F.edges.length, (match C.emap e with
        | none => 0
        | some ce => quad (calcQHh T (calcMPData (cvd (C.cedge ce).1) (cvd (C.cedge ce).2))
            (calcMPData (F.vdata (F.edge e).1) (F.vdata (F.edge e).2)) *ᵥ
            ((calcQs T (cvd (C.cedge ce).1) (cvd (C.cedge ce).2)).1 *ᵥ U (C.cedge ce).1
              - (calcQs T (cvd (C.cedge ce).1) (cvd (C.cedge ce).2)).2 *ᵥ U (C.cedge ce).2)) (F.edata e)) := by
    unfold elMapE
    rw [scatterAdd_sum _ _ _ _ _ (fun ce => quad ((calcQs T (cvd (C.cedge ce).1) (cvd (C.cedge ce).2)).1 *ᵥ U (C.cedge ce).1
          - (calcQs T (cvd (C.cedge ce).1) (cvd (C.cedge ce).2)).2 *ᵥ U (C.cedge ce).2))
        (fun e he c h => (ok.mapped e (List.mem_range.mp he) c h).1), list_range_sum]
    simp only [map_zero, sum_const_zero, zero_add]
    refine sum_congr rfl fun e _ => ?_
    cases hem : C.emap e with
    | none => rfl
    | some ce =>
      simp only [Option.getD_some]
      rw [← Matrix.mul_assoc, quad_trans]
  have hlhs : elEnergy T (elMap T F C isCenter) U =
      ∑ c ∈ range C.ncv, quad (U c) ((cvd c).wt + elGround T F C c) +
      ∑ ce ∈ range C.cedges.length,
        quad ((calcQs T (cvd (C.cedge ce).1) (cvd (C.cedge ce).2)).1 *ᵥ U (C.cedge ce).1
          - (calcQs T (cvd (C.cedge ce).1) (cvd (C.cedge ce).2)).2 *ᵥ U (C.cedge ce).2) (elMapE T F C cvd ce) := by
    unfold elEnergy
    congr 1
    refine sum_congr rfl fun ce _ => ?_
    exact edge_energy L _ (hEsym ce) _ _ _ _
  have hrhs : elEnergy T F P = ∑ v ∈ range F.nv, quad (P v) (F.vdata v).wt +
      ∑ e ∈ range F.edges.length,
        quad ((calcQs T (F.vdata (F.edge e).1) (F.vdata (F.edge e).2)).1 *ᵥ P (F.edge e).1
          - (calcQs T (F.vdata (F.edge e).1) (F.vdata (F.edge e).2)).2 *ᵥ P (F.edge e).2) (F.edata e) := by
    unfold elEnergy
    congr 1
    refine sum_congr rfl fun e _ => ?_
    rw [edge_energy L _ (dok.esymm e)]
  rw [hlhs, hrhs, sum_congr rfl fun c _ => map_add (quad (U c)) _ _, sum_add_distrib, hV, hG, hE, add_assoc,
    ← sum_add_distrib]
  congr 1
  refine sum_congr rfl fun e he => ?_
  have he := mem_range.mp he
  obtain ⟨l0, l1⟩ := ok.ends e he
  set vi := F.vdata (F.edge e).1 with hvi
  set vj := F.vdata (F.edge e).2 with hvj
  have pi : 0 < vi.rotScaling := dok.pos _
  have pj : 0 < vj.rotScaling := dok.pos _
  have pm := calcMPData_scaling vi vj pi pj
  cases hem : C.emap e with
  | some ce =>
    obtain ⟨_, a, b, ha, hb, hc⟩ := ok.mapped e he ce hem
    simp only [groundVertex, hem, reduceCtorEq, if_false, zero_add]
    rw [hPv _ l0, hPv _ l1, ha, hb, calcQs_eq vi vj pi pj]
    dsimp only
    rw [← hvi, ← hvj, Matrix.mulVec_mulVec, Matrix.mulVec_mulVec, transport_comp L _ _ _ pi.ne', transport_comp L _ _ _ pj.ne']
    have pM := calcMPData_scaling (cvd (C.cedge ce).1) (cvd (C.cedge ce).2) (hcpos _) (hcpos _)
    rw [calcQs_eq _ _ (hcpos _) (hcpos _), Matrix.mulVec_sub, Matrix.mulVec_mulVec, Matrix.mulVec_mulVec,
      transport_comp L _ _ _ pM.ne', transport_comp L _ _ _ pM.ne', hcQ, hcQ]
    rcases hc with hc | hc
    · rw [hc]
    · rw [hc, ← quad_neg, neg_sub]
  | none =>
    simp only [add_zero]
    by_cases hne : C.vmap (F.edge e).1 = C.vmap (F.edge e).2
    · simp only [groundVertex, hem, if_true, hne, ne_eq, not_true_eq_false, if_false]
      rw [hPv _ l0, hPv _ l1, hne]
      cases hb : C.vmap (F.edge e).2 with
      | none => simp [quad_zero]
      | some b =>
        dsimp only
        rw [calcQs_eq vi vj pi pj]
        dsimp only
        rw [← hvi, ← hvj, Matrix.mulVec_mulVec, Matrix.mulVec_mulVec, transport_comp L _ _ _ pi.ne',
          transport_comp L _ _ _ pj.ne', sub_self, quad_zero]
    · have hgr := hground e he
      rcases ok.unmapped e he hem with h | h | h
      · exact absurd h hne
      · have hne' := hne
        rw [h] at hne'
        cases h1 : C.vmap (F.edge e).2 with
        | none => exact absurd h1.symm hne'
        | some b =>
          have hg : groundVertex C (F.edge e) e = some b := by
            simp [groundVertex, hem, h, h1]
          have hf : groundFine C (F.edge e) = ((F.edge e).2, (F.edge e).1) := by simp [groundFine, h]
          have hr := hgr b hg
          rw [hf] at hr
          dsimp only at hr
          simp only [hg, hf]
          rw [hPv _ l0, hPv _ l1, h, h1]
          dsimp only
          rw [← hr, transport_self L _ (hposne _), Matrix.one_mulVec, Matrix.mulVec_zero, zero_sub, quad_neg, ← hvi, ← hvj,
            calcQij_eq, (edge_transport L vi vj pi pj).2.2.1]
      · have hne' := hne
        rw [h] at hne'
        cases h1 : C.vmap (F.edge e).1 with
        | none => exact absurd h1 hne'
        | some b =>
          have hg : groundVertex C (F.edge e) e = some b := by
            simp [groundVertex, hem, h, h1]
          have hf : groundFine C (F.edge e) = F.edge e := by simp [groundFine, h1]
          have hr := hgr b hg
          rw [hf] at hr
          simp only [hg, hf]
          rw [hPv _ l0, hPv _ l1, h, h1]
          dsimp only
          rw [← hr, transport_self L _ (hposne _), Matrix.one_mulVec, Matrix.mulVec_zero, sub_zero, ← hvi, ← hvj,
            calcQij_eq]

end NgsAMG.MapData
