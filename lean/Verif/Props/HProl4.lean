import Verif.Props.HProl3
import Mathlib.Algebra.Order.Ring.Cast
import Mathlib.Tactic.FieldSimp
import Mathlib.Tactic.LinearCombination

/-!
# Property C103: the divergence of prolongated fields
-/

namespace NgsAMG.HProl
open NgsAMG.Spec
variable {K : Type} [Field K] [LinearOrder K]

/-- only the first basis function of a coarse facet has flow -/
def FlowOK (I : Inp K) : Prop := ∀ E ∈ I.ces, I.cdofed E = true → ∀ q, 1 ≤ q → q < I.cnd E →
  ((dofs I.nd (c2f I.emap I.nE E)).zipIdx.map fun x => I.pblk E x.2 q * fFlow I E x.1).sum = 0

/-- the edges at the coarse vertex have degrees of freedom -/
def Solid (I : Inp K) (C : ℕ) : Prop := ∀ D E, (D, E) ∈ I.ccon C → I.cdofed E = true

/-- the prolongated field -/
def field (P : Mat K) (c : Dof → K) : Dof → K := fun x => rowVal (P x) c

theorem alloc_row {I : Inp K} {P0 : Mat K} (h : alloc I = some P0) {x : Dof} (hx : x.1 < I.nE) : ∃ n, perow I x.1 = some n ∧ P0 x = List.replicate n (I.junk, -42) := by
  unfold alloc at h
  split at h
  · rename_i h1
    cases h
    obtain ⟨n, hn⟩ := Option.isSome_iff_exists.1 (List.all_eq_true.1 h1 _ (List.mem_range.2 hx))
    exact ⟨n, hn, by simp [hn]⟩
  · cases h

/-- the coarse edge of an exterior edge is at the coarse vertex -/
theorem exterior_coarse {I : Inp K} (hI : MeshOK I) {C e E : ℕ} (hx : Exterior I C e) (hE : I.emap e = some E) : ∃ D, (D, E) ∈ I.ccon C := by
  obtain ⟨v, w, hv, hw, hc⟩ := hx
  have hw' : I.vmap w ≠ none := fun h => by
    rw [hI.emapN _ _ _ (hI.symm _ _ _ hc) (Or.inl h)] at hE
    cases hE
  obtain ⟨D, hD⟩ := Option.ne_none_iff_exists'.1 hw'
  obtain ⟨E', q1, q2⟩ := hI.emap _ _ _ C D hc (agg_map hv) hD fun h => hw ((mem_agg' hI hc).2 (h ▸ hD))
  rw [hE] at q1
  cases q1
  exact ⟨D, q2⟩

/-- rows of exterior edges that are not mapped are empty: Dirichlet -/
theorem unmapped_row {I : Inp K} (hI : MeshOK I) {P0 P1 : Mat K} (h0 : alloc I = some P0) (h1 : I.ces.foldlM (crossStep I) P0 = some P1)
    {C : ℕ} {x : Dof} (hx : Exterior I C x.1) (hE : I.emap x.1 = none) : P1 x = [] := by
  rw [(cross_spec I _ _ _ h1 hI.ces).1 x fun E _ => by simp [hE]]
  obtain ⟨v, w, hv, hw, hc⟩ := hx
  obtain ⟨n, hn, hP⟩ := alloc_row h0 (hI.range _ _ _ hc).2
  have hne : I.vmap (I.edge x.1).1 ≠ I.vmap (I.edge x.1).2 := by
    have h2 := mem_agg' hI hc (C := C)
    rcases (hI.ends _ _ _ hc).1 with p | p
    · rw [p]
      exact fun h => hw (h2.2 (h.symm.trans (agg_map hv)))
    · rw [p]
      exact fun h => hw (h2.2 (h.trans (agg_map hv)))
  unfold perow at hn
  rw [hE] at hn
  simp only [if_neg hne] at hn
  split at hn
  · cases hn
    rw [hP]
    rfl
  · cases hn

theorem mapped_row {I : Inp K} (hI : MeshOK I) {P0 P1 : Mat K} (h1 : I.ces.foldlM (crossStep I) P0 = some P1) {E : ℕ} (hm : E ∈ I.ces) (hd : I.cdofed E = true)
    {x : Dof × ℕ} (hx : x ∈ (dofs I.nd (c2f I.emap I.nE E)).zipIdx) : P1 x.1 = (List.range (I.cnd E)).map fun q => ((E, q), I.pblk E x.2 q) := by
  have := ((cross_spec I _ _ _ h1 hI.ces).2 E hm hd).2 (x.1, (List.range (I.cnd E)).map fun q => ((E, q), I.pblk E x.2 q))
    (List.mem_map.2 ⟨x, hx, rfl⟩)
  exact this.1

theorem exterior_nodup {I : Inp K} (hI : MeshOK I) {P0 P1 : Mat K} (h0 : alloc I = some P0) (h1 : I.ces.foldlM (crossStep I) P0 = some P1)
    {C : ℕ} (hS : Solid I C) {x : Dof} (hx : x ∈ dofs I.nd (edgesF I (I.agg C))) : ((P1 x).map Prod.fst).Nodup := by
  obtain ⟨hx1, hx2⟩ := mem_dofs.1 hx
  have hxe := (mem_edgesF hI).1 hx1
  rcases h : I.emap x.1 with _ | E
  · rw [unmapped_row hI h0 h1 hxe h]
    exact List.nodup_nil
  · obtain ⟨D, hD⟩ := exterior_coarse hI hxe h
    have hin : x ∈ dofs I.nd (c2f I.emap I.nE E) := by
      obtain ⟨v, w, _, _, hc⟩ := hxe
      exact mem_dofs.2 ⟨mem_c2f.2 ⟨(hI.range _ _ _ hc).2, h⟩, hx2⟩
    obtain ⟨i, hi, rfl⟩ := List.getElem_of_mem hin
    have hz : ((dofs I.nd (c2f I.emap I.nE E))[i], i) ∈ (dofs I.nd (c2f I.emap I.nE E)).zipIdx := by
      rw [List.mem_zipIdx_iff_getElem?]
      simp [hi]
    rw [mapped_row hI h1 (hI.cfrom _ _ _ hD).1 (hS D E hD) hz, List.map_map]
    exact List.nodup_range.map fun a b hab => (Prod.mk.inj hab).2

theorem edgeFlow_first {flow : ℕ → K} {nd : ℕ → ℕ} {u : Dof → K} {e : ℕ} (h : nd e ≠ 0) : edgeFlow flow nd u e = flow e * u (e, 0) := by
  obtain ⟨m, hm⟩ := Nat.exists_eq_succ_of_ne_zero h
  unfold edgeFlow
  rw [hm, List.range_succ_eq_map, List.map_cons, List.sum_cons, List.sum_eq_zero, if_pos rfl, add_zero]
  intro y hy
  rw [List.map_map] at hy
  obtain ⟨l, _, rfl⟩ := List.mem_map.1 hy
  simp

/-- the flow over a coarse edge is the flow over its fine edges -/
theorem coarse_flow {I : Inp K} (hI : MeshOK I) (hF : FlowOK I) {P0 P1 : Mat K} (h1 : I.ces.foldlM (crossStep I) P0 = some P1) {E : ℕ} (hm : E ∈ I.ces)
    (hd : I.cdofed E = true) (c u : Dof → K) (hu : ∀ x, x.1 ∈ c2f I.emap I.nE E → u x = rowVal (P1 x) c) :
    edgeFlow (cflow I) I.cnd c E =
      ∑ e ∈ (c2f I.emap I.nE E).toFinset, (if I.vmap (I.edge e).1 = some (I.cedge E).1 then 1 else -1) * edgeFlow I.flow I.nd u e := by
  have hn0 := ((cross_spec I _ _ _ h1 hI.ces).2 E hm hd).1
  rw [edgeFlow_first hn0, List.sum_toFinset _ (c2f_nodup _ _ _)]
  have e1 : ((c2f I.emap I.nE E).map fun e => (if I.vmap (I.edge e).1 = some (I.cedge E).1 then 1 else -1) * edgeFlow I.flow I.nd u e).sum =
      ((dofs I.nd (c2f I.emap I.nE E)).map fun x => fFlow I E x * u x).sum := by
    rw [sum_dofs]
    refine congrArg List.sum (List.map_congr_left fun e _ => ?_)
    unfold edgeFlow fFlow
    rw [← List.sum_map_mul_left]
    exact congrArg List.sum (List.map_congr_left fun l _ => by ring)
  have e2 : ((dofs I.nd (c2f I.emap I.nE E)).map fun x => fFlow I E x * u x) =
      (dofs I.nd (c2f I.emap I.nE E)).zipIdx.map fun x => fFlow I E x.1 * u x.1 := by
    conv_lhs => rw [← List.zipIdx_map_fst 0 (dofs I.nd (c2f I.emap I.nE E)), List.map_map]
    rfl
  have e3 : ((dofs I.nd (c2f I.emap I.nE E)).zipIdx.map fun x => fFlow I E x.1 * u x.1) =
      (dofs I.nd (c2f I.emap I.nE E)).zipIdx.map fun x => ∑ q ∈ Finset.range (I.cnd E), (I.pblk E x.2 q * fFlow I E x.1) * c (E, q) := by
    refine List.map_congr_left fun x hx => ?_
    have hin : x.1 ∈ dofs I.nd (c2f I.emap I.nE E) := by
      have := List.mem_map_of_mem (f := Prod.fst) hx
      rwa [List.zipIdx_map_fst] at this
    rw [hu x.1 (mem_dofs.1 hin).1, mapped_row hI h1 hm hd hx]
    unfold rowVal
    rw [List.map_map, ← List.sum_map_mul_left, Finset.sum_eq_multiset_sum]
    exact congrArg List.sum (List.map_congr_left fun q _ => by simp only [Function.comp_apply]; ring)
  rw [e1, e2, e3]
  have e4 : ∀ L : List (Dof × ℕ), (L.map fun x => ∑ q ∈ Finset.range (I.cnd E), (I.pblk E x.2 q * fFlow I E x.1) * c (E, q)).sum =
      ∑ q ∈ Finset.range (I.cnd E), (L.map fun x => I.pblk E x.2 q * fFlow I E x.1).sum * c (E, q) := by
    intro L
    induction L with
    | nil => simp
    | cons a L ih => rw [List.map_cons, List.sum_cons, ih, ← Finset.sum_add_distrib]; exact Finset.sum_congr rfl fun q _ => by rw [List.map_cons, List.sum_cons, add_mul]
  rw [e4, Finset.sum_eq_single 0]
  · unfold cflow
    rw [if_pos hd]
  · intro q hq hq0
    rw [hF E hm hd q (by omega) (Finset.mem_range.1 hq), zero_mul]
  · intro h
    exact absurd (Finset.mem_range.2 (Nat.pos_of_ne_zero hn0)) h

/-- the matrix after the loop over the coarse edges -/
theorem prol_cross {I : Inp K} {P : Mat K} (hP : prol I = some P) (hI : MeshOK I) : ∃ P0 P1, alloc I = some P0 ∧ I.ces.foldlM (crossStep I) P0 = some P1 ∧
    ∀ x, (∀ C', ¬ Interior I C' x.1) → P x = P1 x := by
  unfold prol at hP
  obtain ⟨P0, h0, h1⟩ := Option.bind_eq_some_iff.1 hP
  obtain ⟨P1, h1, h2⟩ := Option.bind_eq_some_iff.1 h1
  exact ⟨P0, P1, h0, h1, fun x hx => fold_frame hI _ _ _ h2 x fun C _ => hx C⟩

theorem mapped_not_interior {I : Inp K} (hI : MeshOK I) {e E : ℕ} (h : I.emap e = some E) (C : ℕ) : ¬ Interior I C e := by
  rintro ⟨v, w, hv, hw, hc⟩
  rw [hI.emapN _ _ _ hc (Or.inr ((agg_map hv).trans (agg_map hw).symm))] at h
  cases h

/-- **C103.** The flow of a prolongated field over the fine edges of a coarse edge is the flow of the coarse field over the coarse edge. -/
theorem edge_flow {I : Inp K} (hI : MeshOK I) (hF : FlowOK I) {P : Mat K} (hP : prol I = some P) {E : ℕ} (hE : E ∈ I.ces) (hd : I.cdofed E = true) (c : Dof → K) :
    ∑ e ∈ (c2f I.emap I.nE E).toFinset, (if I.vmap (I.edge e).1 = some (I.cedge E).1 then 1 else -1) * edgeFlow I.flow I.nd (field P c) e =
      edgeFlow (cflow I) I.cnd c E := by
  obtain ⟨P0, P1, h0, h1, hx⟩ := prol_cross hP hI
  refine (coarse_flow hI hF h1 hE hd c _ fun x hxm => ?_).symm
  unfold field
  rw [hx x (mapped_not_interior hI (mem_c2f.1 hxm).2)]

/-- **C103.** A prolongated field flows out of an agglomerate as the coarse field flows out of the coarse vertex. -/
theorem agg_flow {I : Inp K} (hI : MeshOK I) (hF : FlowOK I) {P : Mat K} (hP : prol I = some P) {C : ℕ} (hS : Solid I C) (c : Dof → K) :
    ∑ v ∈ (I.agg C).toFinset, outOf I.con I.edge (edgeFlow I.flow I.nd (field P c)) v = outOf I.ccon I.cedge (edgeFlow (cflow I) I.cnd c) C := by
  refine sum_outOf hI C _ _ (fun D E hD => (edge_flow hI hF hP (hI.cfrom _ _ _ hD).1 (hS D E hD) c).symm) fun e hx hE => ?_
  obtain ⟨P0, P1, h0, h1, hfr⟩ := prol_cross hP hI
  unfold edgeFlow
  refine List.sum_eq_zero fun y hy => ?_
  obtain ⟨l, _, rfl⟩ := List.mem_map.1 hy
  unfold field
  rw [hfr (e, l) fun C' => exterior_not_interior hI hx, unmapped_row hI h0 h1 (x := (e, l)) hx hE]
  simp [rowVal]

/-- the extension was computed -/
theorem prol_solve {I : Inp K} (hI : MeshOK I) {P : Mat K} (hP : prol I = some P) {C : ℕ} (hC : C ∈ I.cvs) (hS : Solid I C)
    (hg : ∀ v ∈ I.agg C, I.ghost v = false) (h2 : 2 ≤ (I.agg C).length) (hi : ∃ e, Interior I C e) (hx : ∃ e, Exterior I C e) :
    ∃ P2 P3, solveAgg I P2 (I.agg C) C = some P3 ∧ (∀ x ∈ dofs I.nd (edgesF I (I.agg C)), ((P2 x).map Prod.fst).Nodup) ∧
      (∀ x ∈ dofs I.nd (edgesI I (I.agg C)), P x = P3 x) ∧ ∀ x ∈ dofs I.nd (edgesF I (I.agg C)), P x = P2 x := by
  obtain ⟨P0, P1, P2, P3, h0, h1, h3, hx1, hx2⟩ := prol_split hI hP hC
  refine ⟨P2, P3, ?_, ?_, fun x hx => (hx2 x ((mem_edgesI hI).1 (mem_dofs.1 hx).1)).2, ?_⟩
  · unfold aggStep at h3
    obtain ⟨e, he⟩ := hx
    obtain ⟨e', he'⟩ := hi
    have n1 : edgesF I (I.agg C) ≠ [] := List.ne_nil_of_mem ((mem_edgesF hI).2 he)
    have n2 : edgesI I (I.agg C) ≠ [] := List.ne_nil_of_mem ((mem_edgesI hI).2 he')
    split at h3
    · cases h3
    · rename_i v0 hv0
      rw [if_neg (by rw [hg v0 (List.mem_of_mem_head? hv0)]; simp), if_neg (by omega), if_neg n1, if_neg n2] at h3
      exact h3
  · intro x hx
    rw [(hx1 x fun C' => exterior_not_interior hI ((mem_edgesF hI).1 (mem_dofs.1 hx).1)).1]
    exact exterior_nodup hI h0 h1 hS hx
  · intro x hx
    have := hx1 x fun C' => exterior_not_interior hI ((mem_edgesF hI).1 (mem_dofs.1 hx).1)
    rw [this.1, this.2]

/-- **C103.** The divergence of a prolongated field in an agglomerate with extension, for any volume of the coarse vertex. -/
theorem div_eq {I : Inp K} (hI : MeshOK I) (hF : FlowOK I) {P : Mat K} (hP : prol I = some P) {C : ℕ} (hC : C ∈ I.cvs) (hS : Solid I C)
    (hg : ∀ v ∈ I.agg C, I.ghost v = false) (h2 : 2 ≤ (I.agg C).length) (hi : ∃ e, Interior I C e) (hx : ∃ e, Exterior I C e) (c : Dof → K) {v : ℕ} (hv : v ∈ I.agg C) :
    ((I.agg C).length : K) * (outOf I.con I.edge (edgeFlow I.flow I.nd (field P c)) v * I.cvol C) =
      (I.agg C).length * (I.vol v * outOf I.ccon I.cedge (edgeFlow (cflow I) I.cnd c) C) -
        (((I.agg C).map I.vol).sum - I.cvol C) * outOf I.ccon I.cedge (edgeFlow (cflow I) I.cnd c) C := by
  obtain ⟨P2, P3, h3, hn, e1, e2⟩ := prol_solve hI hP hC hS hg h2 hi hx
  have hc0 := (solve_eq hI h3 c).choose_spec.2.2.2.1
  obtain ⟨μ, hμ⟩ := local_rows hI h3 hn c (field P c) (fun x hx => by rw [field, e1 x hx]) fun x hx => by rw [field, e2 x hx]
  have hsum := agg_flow hI hF hP hS c
  generalize outOf I.ccon I.cedge (edgeFlow (cflow I) I.cnd c) C = F at *
  rw [List.sum_toFinset _ (show (I.agg C).Nodup from c2f_nodup _ _ _)] at hsum
  have hμ' : ∀ v ∈ I.agg C, outOf I.con I.edge (edgeFlow I.flow I.nd (field P c)) v = I.vol v * (1 / I.cvol C * F) + -μ := fun v hv => by rw [← hμ v hv]; ring
  have key : ((I.agg C).map I.vol).sum * (1 / I.cvol C * F) + ((I.agg C).length : K) * -μ = F := by
    refine Eq.trans ?_ hsum
    rw [← List.sum_map_mul_right]
    have : ((I.agg C).length : K) * -μ = ((I.agg C).map fun _ => -μ).sum := by simp
    rw [this, ← List.sum_map_add]
    exact (congrArg List.sum (List.map_congr_left fun v hv => hμ' v hv)).symm
  rw [hμ' v hv]
  field_simp at key ⊢
  linear_combination key

/-- agglomerates without exterior edges -/
theorem closed_zero {I : Inp K} (hI : MeshOK I) {P : Mat K} (hP : prol I = some P) {C : ℕ} (hC : C ∈ I.cvs) (hx : ¬ ∃ e, Exterior I C e) (c : Dof → K) {v : ℕ}
    (hv : v ∈ I.agg C) : outOf I.con I.edge (edgeFlow I.flow I.nd (field P c)) v = 0 ∧ I.ccon C = [] := by
  obtain ⟨P0, P1, P2, P3, h0, h1, h3, hx1, hx2⟩ := prol_split hI hP hC
  have hcc : I.ccon C = [] := by
    refine List.eq_nil_iff_forall_not_mem.2 fun ⟨D, E⟩ hD => ?_
    obtain ⟨_, e, he, hE⟩ := hI.cfrom _ _ _ hD
    have hc := hI.all e he
    rcases (tau_coarse hI hD he hE).2 with ⟨q1, q2⟩ | ⟨q1, q2⟩
    · exact hx ⟨e, _, _, q1, q2, hc⟩
    · exact hx ⟨e, _, _, q2, q1, hI.symm _ _ _ hc⟩
  have hP3 : P3 = P2 := by
    unfold aggStep at h3
    split at h3
    · cases h3
    · have : edgesF I (I.agg C) = [] := List.eq_nil_iff_forall_not_mem.2 fun e he => hx ⟨e, (mem_edgesF hI).1 he⟩
      rw [if_pos this] at h3
      split_ifs at h3 <;> exact (Option.some.inj h3).symm
  refine ⟨?_, hcc⟩
  unfold outOf
  refine List.sum_eq_zero fun y hy => ?_
  obtain ⟨⟨w, e⟩, hc, rfl⟩ := List.mem_map.1 hy
  have hint : Interior I C e := by
    by_contra hni
    exact hx ⟨e, v, w, hv, fun hw => hni ⟨v, w, hv, hw, hc⟩, hc⟩
  have hz : edgeFlow I.flow I.nd (field P c) e = 0 := by
    unfold edgeFlow
    refine List.sum_eq_zero fun y hy => ?_
    obtain ⟨l, _, rfl⟩ := List.mem_map.1 hy
    have := hx2 (e, l) hint
    obtain ⟨v', w', hv', hw', hc'⟩ := hint
    have hE : I.emap e = none := hI.emapN _ _ _ hc' (Or.inr ((agg_map hv').trans (agg_map hw').symm))
    have hrow : P1 (e, l) = [] := by
      rw [(cross_spec I _ _ _ h1 hI.ces).1 (e, l) fun E _ => by simp [hE]]
      obtain ⟨n, hn, hP⟩ := alloc_row h0 (x := (e, l)) (hI.range _ _ _ hc').2
      rw [hP]
      have : I.vmap (I.edge e).1 = some C ∧ I.vmap (I.edge e).2 = some C := by
        rcases (hI.ends _ _ _ hc').1 with p | p <;> rw [p]
        · exact ⟨agg_map hv', agg_map hw'⟩
        · exact ⟨agg_map hw', agg_map hv'⟩
      unfold perow at hn
      simp only [hE, this.1, this.2, if_true, Option.map_some, hcc, List.map_nil, List.sum_nil] at hn
      split at hn <;> (cases hn; rfl)
    unfold field
    rw [this.2, hP3, this.1, hrow]
    simp [rowVal]
  simp [hz]

/-- **C103.** A prolongated field has the divergence of the coarse field in every fine element of an agglomerate: flow out of a fine vertex and out of the
coarse vertex are in the ratio of the volumes. -/
theorem div_const [IsStrictOrderedRing K] {I : Inp K} (hI : MeshOK I) (hF : FlowOK I) {P : Mat K} (hP : prol I = some P) {C : ℕ} (hC : C ∈ I.cvs) (hS : Solid I C)
    (hg : ∀ v ∈ I.agg C, I.ghost v = false) (hi : 2 ≤ (I.agg C).length → ∃ e, Interior I C e) (hvol : I.cvol C = ((I.agg C).map I.vol).sum)
    (c : Dof → K) {v : ℕ} (hv : v ∈ I.agg C) :
    outOf I.con I.edge (edgeFlow I.flow I.nd (field P c)) v * I.cvol C = I.vol v * outOf I.ccon I.cedge (edgeFlow (cflow I) I.cnd c) C := by
  by_cases hx : ∃ e, Exterior I C e
  · by_cases h2 : 2 ≤ (I.agg C).length
    · have := div_eq hI hF hP hC hS hg h2 (hi h2) hx c hv
      rw [hvol, sub_self, zero_mul, sub_zero, ← hvol] at this
      exact mul_left_cancel₀ (Nat.cast_ne_zero.2 (by omega)) this
    · have h1 : I.agg C = [v] := by
        rcases h : I.agg C with _ | ⟨a, _ | ⟨b, t⟩⟩
        · rw [h] at hv; cases hv
        · rw [h] at hv
          rw [List.mem_singleton.1 hv]
        · rw [h] at h2
          simp at h2
      have hsum := agg_flow hI hF hP hS c
      rw [List.sum_toFinset _ (show (I.agg C).Nodup from c2f_nodup _ _ _), h1, List.map_cons, List.map_nil, List.sum_singleton] at hsum
      rw [h1, List.map_cons, List.map_nil, List.sum_singleton] at hvol
      rw [hsum, hvol, mul_comm]
  · obtain ⟨e1, e2⟩ := closed_zero hI hP hC hx c hv
    rw [e1]
    simp [outOf, e2]

/-- **C103.** If the volume of the coarse vertex is not the volume of the agglomerate, no field with flow out of the coarse vertex is prolongated to a field with
constant divergence. -/
theorem div_wrong {I : Inp K} (hI : MeshOK I) (hF : FlowOK I) {P : Mat K} (hP : prol I = some P) {C : ℕ} (hS : Solid I C)
    (hvol : I.cvol C ≠ ((I.agg C).map I.vol).sum) (c : Dof → K) (hc : outOf I.ccon I.cedge (edgeFlow (cflow I) I.cnd c) C ≠ 0) :
    ¬ ∀ v ∈ I.agg C, outOf I.con I.edge (edgeFlow I.flow I.nd (field P c)) v * I.cvol C = I.vol v * outOf I.ccon I.cedge (edgeFlow (cflow I) I.cnd c) C := by
  intro h
  have hsum := agg_flow hI hF hP hS c
  rw [List.sum_toFinset _ (show (I.agg C).Nodup from c2f_nodup _ _ _)] at hsum
  have : outOf I.ccon I.cedge (edgeFlow (cflow I) I.cnd c) C * I.cvol C = ((I.agg C).map I.vol).sum * outOf I.ccon I.cedge (edgeFlow (cflow I) I.cnd c) C := by
    rw [← List.sum_map_mul_right, ← List.map_congr_left fun v hv => h v hv, List.sum_map_mul_right, hsum]
  rw [mul_comm] at this
  exact hvol (mul_right_cancel₀ hc this)

end NgsAMG.HProl
