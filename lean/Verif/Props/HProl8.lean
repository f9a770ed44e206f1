import Verif.Props.HProl7
import Verif.Props.NCProl7
import Mathlib.LinearAlgebra.Matrix.ToLinearEquiv

/-!
# Property C103: an example with the blocks of property C102
-/

namespace NgsAMG.HProl
open NgsAMG.Spec

/-- **C103.** As `div_const`, with the volume that the mapping of the mesh data (`map_data`, property C101) computes; all volumes are positive. -/
theorem div_map_data {K : Type} [Field K] [LinearOrder K] [IsStrictOrderedRing K] {I : Inp K} (hI : MeshOK I) (hF : FlowOK I) {P : Mat K} (hP : prol I = some P) {C : ℕ} (hC : C ∈ I.cvs) (hS : Solid I C)
    (hg : ∀ v ∈ I.agg C, I.ghost v = false) (hi : 2 ≤ (I.agg C).length → ∃ e, Interior I C e) {b : ℕ} (N : NCProl.Inp b K) (h1 : N.vmap = I.vmap) (h2 : N.vol = I.vol)
    (hpos : ∀ v ∈ I.agg C, 0 < I.vol v) (hvol : I.cvol C = NCProl.mapVol N (List.range I.nV) C) (c : Dof → K) {v : ℕ} (hv : v ∈ I.agg C) :
    outOf I.con I.edge (edgeFlow I.flow I.nd (field P c)) v * ((I.agg C).map I.vol).sum = I.vol v * outOf I.ccon I.cedge (edgeFlow (cflow I) I.cnd c) C := by
  have : I.cvol C = ((I.agg C).map I.vol).sum := by
    rw [hvol, NCProl.vol_sum N _ _ fun v hv hm => ?_, h1, h2]
    · rfl
    · rw [h2]
      exact hpos v (mem_c2f.2 ⟨List.mem_range.1 hv, h1 ▸ hm⟩)
  rw [← this]
  exact div_const hI hF hP hC hS hg hi this c hv

/-- **C103, refuted** if the last vertex has volume zero: `map_data` resets the volume of its coarse vertex, and the prolongation divides by zero. -/
theorem zero_vol_last {K : Type} [Field K] [LinearOrder K] {I : Inp K} (hI : MeshOK I) {C : ℕ} (hC : C ∈ I.cvs) (hS : Solid I C)
    (hg : ∀ v ∈ I.agg C, I.ghost v = false) (h2 : 2 ≤ (I.agg C).length) (hi : ∃ e, Interior I C e) (hx : ∃ e, Exterior I C e) {b : ℕ} (N : NCProl.Inp b K)
    (h3 : N.vmap = I.vmap) (h4 : N.vol = I.vol) {n : ℕ} (hn : I.nV = n + 1) (hm : I.vmap n = some C) (hz : I.vol n = 0)
    (h0 : 0 ≤ NCProl.mapVol N (List.range n) C) (hvol : I.cvol C = NCProl.mapVol N (List.range I.nV) C) : prol I = none := by
  rw [Option.eq_none_iff_forall_ne_some]
  intro P hP
  obtain ⟨P2, P3, q, _⟩ := prol_solve hI hP hC hS hg h2 hi hx
  refine (solve_eq hI q fun _ => 0).choose_spec.2.2.2.1 ?_
  rw [hvol, hn, List.range_succ]
  exact NCProl.vol_reset N _ (h3 ▸ hm) (by rw [h4, hz]) h0

/-- the vertex data for `map_data` -/
def nc (vmap : ℕ → Option ℕ) (vol : ℕ → ℚ) : NCProl.Inp 1 ℚ := ⟨fun _ => [], fun _ => (0, 0), vol, fun _ _ => 0, [], fun _ => none, fun _ => false, fun _ => false, vmap, fun _ => none, [],
  fun _ => [], fun _ _ => 0, fun _ => none, fun _ _ _ _ _ => 0, fun _ => 0, (0, 0)⟩

/-- the hypotheses of `div_map_data` for the example above -/
example : ∃ P, prol inp8 = some P ∧ ∀ c : Dof → ℚ, outOf inp8.con inp8.edge (edgeFlow inp8.flow inp8.nd (field P c)) 1 * ((inp8.agg 0).map inp8.vol).sum =
    inp8.vol 1 * outOf inp8.ccon inp8.cedge (edgeFlow (cflow inp8) inp8.cnd c) 0 := by
  obtain ⟨P, hP⟩ := prol_total inp8_ok inp8_reg
  have h1 : ∀ v ∈ inp8.agg 0, 0 < inp8.vol v := by decide +kernel
  have h2 : inp8.cvol 0 = NCProl.mapVol (nc inp8.vmap inp8.vol) (List.range inp8.nV) 0 := by decide +kernel
  have h3 : 1 ∈ inp8.agg 0 := by decide +kernel
  have h4 : ∃ e, Interior inp8 0 e := ⟨0, 0, 1, by decide +kernel, by decide +kernel, by decide +kernel⟩
  have h5 : Solid inp8 0 := fun _ _ _ => rfl
  have h6 : ∀ v ∈ inp8.agg 0, inp8.ghost v = false := fun _ _ => rfl
  have h7 : 0 ∈ inp8.cvs := by decide
  refine ⟨P, hP, fun c => ?_⟩
  exact div_map_data inp8_ok inp8_flow hP h7 h5 h6 (fun _ => h4) (nc inp8.vmap inp8.vol) rfl rfl h1 h2 c h3

/-- an element next to an agglomerate of two; the last has no volume -/
def inp10 : Inp ℚ where
  nV := 3
  nE := 2
  con := fun v => if v = 0 then [(1, 0)] else if v = 1 then [(0, 0), (2, 1)] else if v = 2 then [(1, 1)] else []
  edge := fun e => (e, e + 1)
  vol := fun v => if v = 2 then 0 else 1
  flow := fun _ => 1
  nd := fun _ => 1
  free := fun _ => true
  ghost := fun _ => false
  vmap := fun v => if v = 0 then some 0 else if v < 3 then some 1 else none
  emap := fun e => if e = 0 then some 0 else none
  cvs := [0, 1]
  ces := [0]
  ccon := fun C => if C = 0 then [(1, 0)] else if C = 1 then [(0, 0)] else []
  cedge := fun _ => (0, 1)
  cdofed := fun _ => true
  cnd := fun _ => 1
  pblk := fun _ _ _ => 1
  cvol := fun C => if C = 0 then 1 else 0
  cflow0 := fun _ => 0
  mat := fun x => [(x, 1)]
  junk := (0, 0)

theorem inp10_con {v w e : ℕ} (h : (w, e) ∈ inp10.con v) : (v, w, e) ∈ [(0, 1, 0), (1, 0, 0), (1, 2, 1), (2, 1, 1)] := by
  by_cases hv : v < 3
  · have : ∀ v < 3, ∀ x ∈ inp10.con v, (v, x.1, x.2) ∈ [(0, 1, 0), (1, 0, 0), (1, 2, 1), (2, 1, 1)] := by decide +kernel
    exact this v hv _ h
  · simp only [inp10] at h
    rw [if_neg (by omega), if_neg (by omega), if_neg (by omega)] at h
    cases h

theorem inp10_ccon {C D E : ℕ} (h : (D, E) ∈ inp10.ccon C) : (C, D, E) ∈ [(0, 1, 0), (1, 0, 0)] := by
  simp only [inp10] at h
  split_ifs at h <;> simp at h <;> simp <;> omega

theorem inp10_ok : MeshOK inp10 where
  ends := fun v w e h => forall_list (p := fun x : ℕ × ℕ × ℕ => (inp10.edge x.2.2 = (x.1, x.2.1) ∨ inp10.edge x.2.2 = (x.2.1, x.1)) ∧ x.1 ≠ x.2.1) (by decide +kernel) (inp10_con h)
  symm := fun v w e h => forall_list (p := fun x : ℕ × ℕ × ℕ => (x.1, x.2.2) ∈ inp10.con x.2.1) (by decide +kernel) (inp10_con h)
  once := fun v => by
    simp only [inp10]
    split_ifs <;> simp
  range := fun v w e h => forall_list (p := fun x : ℕ × ℕ × ℕ => x.1 < inp10.nV ∧ x.2.2 < inp10.nE) (by decide +kernel) (inp10_con h)
  all := by decide +kernel
  emap := fun v w e C D h hv hw hCD => by
    have := forall_list (p := fun x : ℕ × ℕ × ℕ => ∀ C ∈ [0, 1], ∀ D ∈ [0, 1], inp10.vmap x.1 = some C → inp10.vmap x.2.1 = some D → C ≠ D →
      ∃ E ∈ [0], inp10.emap x.2.2 = some E ∧ (D, E) ∈ inp10.ccon C) (by decide +kernel) (inp10_con h)
    have hm : ∀ v C, inp10.vmap v = some C → C ∈ [0, 1] := by
      intro v C h
      simp only [inp10] at h
      split_ifs at h <;> simp at h <;> simp [← h]
    obtain ⟨E, _, h1, h2⟩ := this C (hm _ _ hv) D (hm _ _ hw) hv hw hCD
    exact ⟨E, h1, h2⟩
  emapN := fun v w e h => forall_list (p := fun x : ℕ × ℕ × ℕ => inp10.vmap x.1 = none ∨ inp10.vmap x.1 = inp10.vmap x.2.1 → inp10.emap x.2.2 = none) (by decide +kernel) (inp10_con h)
  cends := fun C D E h => forall_list (p := fun x : ℕ × ℕ × ℕ => (inp10.cedge x.2.2 = (x.1, x.2.1) ∨ inp10.cedge x.2.2 = (x.2.1, x.1)) ∧ x.1 ≠ x.2.1) (by decide +kernel) (inp10_ccon h)
  conce := fun C => by
    simp only [inp10]
    split_ifs <;> simp
  cfrom := fun C D E h => forall_list (p := fun x : ℕ × ℕ × ℕ => x.2.2 ∈ inp10.ces ∧ ∃ e < inp10.nE, inp10.emap e = some x.2.2) (by decide +kernel) (inp10_ccon h)
  cvs := by decide
  ces := by decide

/-- the hypotheses of `zero_vol_last` for this case -/
example : prol inp10 = none :=
  zero_vol_last inp10_ok (C := 1) (by decide) (fun _ _ _ => rfl) (fun _ _ => rfl) (by decide +kernel) ⟨1, 1, 2, by decide +kernel, by decide +kernel, by decide +kernel⟩
    ⟨0, 1, 0, by decide +kernel, by decide +kernel, by decide +kernel⟩ (nc inp10.vmap inp10.vol) rfl rfl (n := 2) rfl (by decide +kernel) (by decide +kernel) (by decide +kernel) (by decide +kernel)

section
variable {K : Type} [Field K] [LinearOrder K]

theorem MeshOK.vol {I : Inp K} (h : MeshOK I) (cv : ℕ → K) : MeshOK { I with cvol := cv } :=
  ⟨h.ends, h.symm, h.once, h.range, h.all, h.emap, h.emapN, h.cends, h.conce, h.cfrom, h.cvs, h.ces⟩

theorem FlowOK.vol {I : Inp K} (h : FlowOK I) (cv : ℕ → K) : FlowOK { I with cvol := cv } := h
end

def inp8b : Inp ℚ := { inp8 with cvol := fun C => if C = 0 then 5 else 4 }

/-- the hypotheses of `div_wrong` for the example above with volume 5 instead of 6 -/
example : ∃ P, prol inp8b = some P ∧
    ¬ ∀ v ∈ inp8b.agg 0, outOf inp8b.con inp8b.edge (edgeFlow inp8b.flow inp8b.nd (field P fun _ => 1)) v * inp8b.cvol 0 =
      inp8b.vol v * outOf inp8b.ccon inp8b.cedge (edgeFlow (cflow inp8b) inp8b.cnd fun _ => 1) 0 := by
  have hok : MeshOK inp8b := inp8_ok.vol _
  have hu : IsUnit (matM inp8b (inp8b.agg 0)).det :=
    unit_of_tab [[4/13, -4/13, -2/13, 2/13, -3/13, 1/13, 0], [-4/13, 4/13, 2/13, 7/39, -17/39, 10/39, 0], [-2/13, 2/13, 1/13, 10/39, -2/39, -8/39, 0],
      [2/13, 7/39, 10/39, -17/117, 19/117, -2/117, 1/3], [-3/13, -17/39, -2/39, 19/117, -35/117, 16/117, 1/3], [1/13, 10/39, -8/39, -2/117, 16/117, -14/117, 1/3],
      [0, 0, 0, 1/3, 1/3, 1/3, 0]] (by decide +kernel)
  have hv : ∀ C ∈ inp8b.cvs, 2 ≤ (inp8b.agg C).length → (∀ v ∈ inp8b.agg C, ¬ inp8b.vol v < 0) ∧ inp8b.cvol C ≠ 0 := by decide +kernel
  have hd : ∀ C ∈ inp8b.cvs, 2 ≤ (inp8b.agg C).length → C = 0 := by decide +kernel
  have hR : Regular inp8b := ⟨inp8_reg.free, inp8_reg.cross, inp8_reg.ne, inp8_reg.solid, inp8_reg.inner, hv, fun C hC h2 => by
    obtain rfl := hd C hC h2
    exact hu⟩
  have hF : FlowOK inp8b := inp8_flow.vol _
  obtain ⟨P, hP⟩ := prol_total hok hR
  refine ⟨P, hP, ?_⟩
  have h1 : inp8b.cvol 0 ≠ ((inp8b.agg 0).map inp8b.vol).sum := by decide +kernel
  have h2 : outOf inp8b.ccon inp8b.cedge (edgeFlow (cflow inp8b) inp8b.cnd fun _ => 1) 0 ≠ 0 := by decide +kernel
  exact div_wrong hok hF hP (C := 0) (fun _ _ _ => rfl) h1 (fun _ => 1) h2

/-- preserved vector 1, 3 on two edges, the second between agglomerates -/
def pres9 : Pres.Inp where
  ord := [0]
  dofed := fun _ => true
  c2f := c2f (fun e => if e = 1 then some 0 else none) 2
  cv0 := fun _ => 0
  fv0 := fun e => e
  vmap := fun v => if v < 2 then some 0 else if v = 2 then some 1 else none
  flow := fun _ => 1
  off := Pres.dofOff fun _ => 1
  vecs := [fun d => if d = 0 then 1 else 3]
  junk := fun _ _ => 0

/-- three elements in a row; the first two of volumes 1 and 2 are an agglomerate -/
noncomputable def inp9 (buf : List ℝ) (offs cnd : ℕ → ℕ) : Inp ℝ where
  nV := 3
  nE := 2
  con := fun v => if v = 0 then [(1, 0)] else if v = 1 then [(0, 0), (2, 1)] else if v = 2 then [(1, 1)] else []
  edge := fun e => (e, e + 1)
  vol := fun v => v + 1
  flow := fun _ => 1
  nd := fun _ => 1
  free := fun _ => true
  ghost := fun _ => false
  vmap := fun v => if v < 2 then some 0 else if v = 2 then some 1 else none
  emap := fun e => if e = 1 then some 0 else none
  cvs := [0, 1]
  ces := [0]
  ccon := fun C => if C = 0 then [(1, 0)] else if C = 1 then [(0, 0)] else []
  cedge := fun _ => (0, 1)
  cdofed := fun _ => true
  cnd := cnd
  pblk := Pres.readBlock buf offs cnd
  cvol := fun _ => 3
  cflow0 := fun _ => 0
  mat := fun x => [(x, 1)]
  junk := (0, 0)

variable {buf : List ℝ} {offs cnd f : ℕ → ℕ}

theorem inp9_con {v w e : ℕ} (h : (w, e) ∈ (inp9 buf offs cnd).con v) : (v = 0 ∧ w = 1 ∧ e = 0) ∨ (v = 1 ∧ w = 0 ∧ e = 0) ∨ (v = 1 ∧ w = 2 ∧ e = 1) ∨ (v = 2 ∧ w = 1 ∧ e = 1) := by
  simp only [inp9] at h
  split_ifs at h <;> simp at h <;> omega

theorem inp9_ccon {C D E : ℕ} (h : (D, E) ∈ (inp9 buf offs cnd).ccon C) : (C = 0 ∧ D = 1 ∧ E = 0) ∨ (C = 1 ∧ D = 0 ∧ E = 0) := by
  simp only [inp9] at h
  split_ifs at h <;> simp at h <;> omega

theorem inp9_ok : MeshOK (inp9 buf offs cnd) where
  ends := fun v w e h => by
    rcases inp9_con h with ⟨rfl, rfl, rfl⟩ | ⟨rfl, rfl, rfl⟩ | ⟨rfl, rfl, rfl⟩ | ⟨rfl, rfl, rfl⟩ <;> simp [inp9]
  symm := fun v w e h => by
    rcases inp9_con h with ⟨rfl, rfl, rfl⟩ | ⟨rfl, rfl, rfl⟩ | ⟨rfl, rfl, rfl⟩ | ⟨rfl, rfl, rfl⟩ <;> simp [inp9]
  once := fun v => by
    simp only [inp9]
    split_ifs <;> simp
  range := fun v w e h => by
    rcases inp9_con h with ⟨rfl, rfl, rfl⟩ | ⟨rfl, rfl, rfl⟩ | ⟨rfl, rfl, rfl⟩ | ⟨rfl, rfl, rfl⟩ <;> simp [inp9]
  all := fun e he => by
    have : e < 2 := he
    obtain rfl | rfl : e = 0 ∨ e = 1 := by omega
    all_goals simp [inp9]
  emap := fun v w e C D h hv hw hCD => by
    rcases inp9_con h with ⟨rfl, rfl, rfl⟩ | ⟨rfl, rfl, rfl⟩ | ⟨rfl, rfl, rfl⟩ | ⟨rfl, rfl, rfl⟩
    · exact absurd (Option.some.inj (hv.symm.trans hw)) hCD
    · exact absurd (Option.some.inj (hv.symm.trans hw)) hCD
    · obtain rfl : 0 = C := Option.some.inj hv
      obtain rfl : 1 = D := Option.some.inj hw
      exact ⟨0, rfl, by simp [inp9]⟩
    · obtain rfl : 1 = C := Option.some.inj hv
      obtain rfl : 0 = D := Option.some.inj hw
      exact ⟨0, rfl, by simp [inp9]⟩
  emapN := fun v w e h hv => by
    rcases inp9_con h with ⟨rfl, rfl, rfl⟩ | ⟨rfl, rfl, rfl⟩ | ⟨rfl, rfl, rfl⟩ | ⟨rfl, rfl, rfl⟩
    · rfl
    · rfl
    · simp [inp9] at hv
    · simp [inp9] at hv
  cends := fun C D E h => by
    rcases inp9_ccon h with ⟨rfl, rfl, rfl⟩ | ⟨rfl, rfl, rfl⟩ <;> simp [inp9]
  conce := fun C => by
    simp only [inp9]
    split_ifs <;> simp
  cfrom := fun C D E h => by
    rcases inp9_ccon h with ⟨rfl, rfl, rfl⟩ | ⟨rfl, rfl, rfl⟩ <;> exact ⟨by simp [inp9], 1, by simp [inp9], by simp [inp9]⟩
  cvs := by simp [inp9]
  ces := by simp [inp9]

theorem inp9_agg : (inp9 buf offs cnd).agg 0 = [0, 1] ∧ (inp9 buf offs cnd).agg 1 = [2] := ⟨rfl, rfl⟩

theorem inp9_edgesI : edgesI (inp9 buf offs cnd) ((inp9 buf offs cnd).agg 0) = [0] := rfl

theorem sum_one {n : ℕ} (h : n = 1) (g : Fin n → ℝ) : ∑ i, g i = g ⟨0, by omega⟩ := by
  subst h
  simp

theorem sum_two {n : ℕ} (h : n = 2) (g : Fin n → ℝ) : ∑ i, g i = g ⟨0, by omega⟩ + g ⟨1, by omega⟩ := by
  subst h
  simp [Fin.sum_univ_two]

theorem inp9_unit : IsUnit (matM (inp9 buf offs cnd) ((inp9 buf offs cnd).agg 0)).det := by
  rw [isUnit_iff_ne_zero]
  intro h0
  obtain ⟨z, hz, hM⟩ := Matrix.exists_mulVec_eq_zero_iff.2 h0
  have hd : dofs (inp9 buf offs cnd).nd (edgesI (inp9 buf offs cnd) ((inp9 buf offs cnd).agg 0)) = [(0, 0)] := by rw [inp9_edgesI]; rfl
  have l1 : (dofs (inp9 buf offs cnd).nd (edgesI (inp9 buf offs cnd) ((inp9 buf offs cnd).agg 0))).length = 1 := by rw [hd]; rfl
  have l2 : ((inp9 buf offs cnd).agg 0).length = 2 := by rw [inp9_agg.1]; rfl
  have hrow : ∀ p, ∑ q, matM (inp9 buf offs cnd) ((inp9 buf offs cnd).agg 0) p q * z q = 0 := fun p => congrFun hM p
  have hx : ∀ (i : ℕ) (hi : i < (dofs (inp9 buf offs cnd).nd (edgesI (inp9 buf offs cnd) ((inp9 buf offs cnd).agg 0))).length),
      (dofs (inp9 buf offs cnd).nd (edgesI (inp9 buf offs cnd) ((inp9 buf offs cnd).agg 0)))[i] = (0, 0) := by
    intro i hi
    obtain rfl : i = 0 := by omega
    simp only [hd, List.getElem_cons_zero]
  have b0 : matBI (inp9 buf offs cnd) ((inp9 buf offs cnd).agg 0) 0 (0, 0) = 1 := by rw [inp9_agg.1]; simp [matBI, inp9]
  have b1 : matBI (inp9 buf offs cnd) ((inp9 buf offs cnd).agg 0) 1 (0, 0) = -1 := by rw [inp9_agg.1]; simp [matBI, inp9]
  have a0 : entryA (inp9 buf offs cnd) (0, 0) (0, 0) = 1 := by simp [entryA, inp9]
  have r0 := hrow (.inl ⟨0, by omega⟩)
  have r1 := hrow (.inr (.inl ⟨0, by omega⟩))
  have r2 := hrow (.inr (.inl ⟨1, by omega⟩))
  have r3 := hrow (.inr (.inr ()))
  simp only [Fintype.sum_sum_type, sum_one l1, sum_two l2, matM, Fin.getElem_fin, hx, b0, b1, a0, Finset.univ_unique, Finset.sum_singleton, PUnit.default_eq_unit] at r0 r1 r2 r3
  refine hz (funext fun q => ?_)
  rcases q with ⟨i, hi⟩ | ⟨r, hr⟩ | _
  · obtain rfl : i = 0 := by omega
    show z _ = 0
    linarith
  · obtain rfl | rfl : r = 0 ∨ r = 1 := by omega
    · show z _ = 0
      linarith
    · show z _ = 0
      linarith
  · show z (.inr (.inr ())) = 0
    linarith

theorem inp9_reg (hn : cnd 0 ≠ 0) : Regular (inp9 buf offs cnd) where
  free := fun e he _ => by
    have : e < 2 := he
    obtain rfl | rfl : e = 0 ∨ e = 1 := by omega
    · right
      simp [inp9]
    · left
      simp [inp9]
  cross := fun E hE _ => by
    simp only [inp9, List.mem_singleton] at hE
    subst hE
    exact ⟨hn, fun _ _ => rfl⟩
  ne := fun C hC => by
    have : C ∈ [0, 1] := hC
    simp only [List.mem_cons, List.not_mem_nil, or_false] at this
    rcases this with rfl | rfl
    · rw [inp9_agg.1]; simp
    · rw [inp9_agg.2]; simp
  solid := fun _ _ _ _ _ _ => rfl
  inner := fun _ _ _ _ => rfl
  vol := fun C hC _ => ⟨fun v _ => not_lt.2 (show (0 : ℝ) ≤ v + 1 by positivity), by norm_num [inp9]⟩
  det := fun C hC h2 => by
    have : C ∈ [0, 1] := hC
    simp only [List.mem_cons, List.not_mem_nil, or_false] at this
    rcases this with rfl | rfl
    · exact inp9_unit
    · rw [inp9_agg.2] at h2
      simp at h2

theorem pres9_ok : ∀ E ∈ pres9.ord, pres9.dofed E = true → Pres.EdgeOK pres9 E := by
  intro E hE _
  simp only [pres9, List.mem_singleton] at hE
  subst hE
  refine ⟨fun e he => ?_, 1, by decide, by simp [pres9]⟩
  have : e ∈ [1] := he
  obtain rfl := List.mem_singleton.1 this
  decide

/-- the hypotheses of `preserved_exact` and `preserved_cross` for this case: the preserved vector is reproduced on both edges -/
example : ∃ buf offs cnd P, Linked (inp9 buf offs cnd) pres9 buf offs (fun _ => 0) ∧ prol (inp9 buf offs cnd) = some P ∧
    field P (coarseField (inp9 buf offs cnd) pres9 buf offs 0 fun _ => 0) (0, 0) = 1 ∧
    field P (coarseField (inp9 buf offs cnd) pres9 buf offs 0 fun _ => 0) (1, 0) = 3 := by
  have hn : pres9.ord.Nodup := by decide
  obtain ⟨buf, nd, _, hD⟩ := Pres.fill_total hn pres9_ok (fun _ => 0) (List.replicate (pres9.offsets fun _ => 0).2 0) List.length_replicate
  obtain ⟨b, hb, hnd, _⟩ := Pres.done_spec hn pres9_ok hD (E := 0) (by decide) rfl
  obtain ⟨b', hb', h1, _⟩ := Pres.block_spec (pres9_ok 0 (by decide) rfl)
  rw [hb] at hb'
  cases hb'
  have hnd0 : nd 0 ≠ 0 := by omega
  obtain ⟨P, hP⟩ := prol_total (inp9_ok (buf := buf) (offs := (pres9.offsets fun _ => 0).1)) (inp9_reg hnd0)
  have hL : Linked (inp9 buf (pres9.offsets fun _ => 0).1 nd) pres9 buf (pres9.offsets fun _ => 0).1 (fun _ => 0) :=
    ⟨rfl, rfl, rfl, rfl, rfl, rfl, rfl, rfl, rfl, hD, pres9_ok⟩
  refine ⟨buf, _, nd, P, hL, hP, ?_⟩
  let w : Dof → ℝ := fun x => pres9.vecs[0] (Pres.dofOff (fun _ => 1) x.1 + x.2)
  have w0 : w (0, 0) = 1 := by
    show (if Pres.dofOff (fun _ => 1) 0 + 0 = 0 then (1 : ℝ) else 3) = 1
    exact if_pos rfl
  have w1 : w (1, 0) = 3 := by
    show (if Pres.dofOff (fun _ => 1) 1 + 0 = 0 then (1 : ℝ) else 3) = 3
    exact if_neg (by decide)
  have key := preserved_exact inp9_ok hP hL (C := 0) (by simp [inp9]) (fun _ _ _ => rfl) (fun _ _ => rfl) (by rw [inp9_agg.1]; simp)
    ⟨1, 1, 2, by rw [inp9_agg.1]; simp, by rw [inp9_agg.1]; simp, by simp [inp9]⟩ ?_ (by rw [inp9_agg.1]; norm_num [inp9]) (j := 0) (by decide) (fun _ => 0) ?_
    (w := w) (fun _ => rfl) ?_ (fun v => if v = 0 then 1 else 0) ?_ 1 ?_
  · refine ⟨(key (0, 0) (Or.inl ⟨0, 1, by rw [inp9_agg.1]; simp, by rw [inp9_agg.1]; simp, by simp [inp9]⟩) (by simp [inp9])).trans w0,
      (key (1, 0) (Or.inr ⟨1, 2, by rw [inp9_agg.1]; simp, by rw [inp9_agg.1]; simp, by simp [inp9]⟩) (by simp [inp9])).trans w1⟩
  · intro x hx
    refine ⟨by simp [inp9], fun y hy => ?_⟩
    obtain rfl : y = (x, 1) := by simpa [inp9] using hy
    exact ⟨Or.inl hx.1, hx.2⟩
  · intro D E hDE
    rcases inp9_ccon hDE with ⟨_, _, rfl⟩ | ⟨_, _, rfl⟩ <;>
    · refine Pres.clear_of_mul (a := 3) ?_
      funext i
      have : ∀ i < 1, (fun d => if d = 0 then (1 : ℝ) else 3) ((pres9.fDofs 0).getD i 0) = 3 * (pres9.special 0).getD i 0 := by
        intro i hi
        obtain rfl : i = 0 := by omega
        have hc : pres9.c2f 0 = [1] := by decide
        have hnd : pres9.nDof 1 = 1 := by decide
        simp [Pres.Inp.special, Pres.Inp.fDofs, hc, hnd]
        simp [pres9, Pres.dofOff]
      exact this i (lt_of_lt_of_eq i.2 (by decide))
  · rintro ⟨e, l⟩ ⟨v, v', hv, hv', hc⟩ hE hl
    rw [inp9_agg.1] at hv hv'
    rcases inp9_con hc with ⟨rfl, rfl, rfl⟩ | ⟨rfl, rfl, rfl⟩ | ⟨rfl, rfl, rfl⟩ | ⟨rfl, rfl, rfl⟩
    · simp at hv'
    · simp at hv'
    · simp [inp9] at hE
    · simp at hv
  · rintro ⟨e, l⟩ ⟨⟨v, v', hv, hv', hc⟩, hl⟩
    rw [inp9_agg.1] at hv hv'
    have hl : l < 1 := hl
    obtain rfl : l = 0 := by omega
    rcases inp9_con hc with ⟨rfl, rfl, rfl⟩ | ⟨rfl, rfl, rfl⟩ | ⟨rfl, rfl, rfl⟩ | ⟨rfl, rfl, rfl⟩
    · simp [inp9, rowVal, w0]
    · simp [inp9, rowVal, w0]
    · simp at hv'
    · simp at hv
  · intro v hv
    rw [inp9_agg.1] at hv
    simp only [List.mem_cons, List.not_mem_nil, or_false] at hv
    have e0 : edgeFlow (inp9 buf (pres9.offsets fun _ => 0).1 nd).flow (inp9 buf (pres9.offsets fun _ => 0).1 nd).nd w 0 = 1 := by
      rw [edgeFlow_first (by simp [inp9]), w0]
      simp [inp9]
    have e1 : edgeFlow (inp9 buf (pres9.offsets fun _ => 0).1 nd).flow (inp9 buf (pres9.offsets fun _ => 0).1 nd).nd w 1 = 3 := by
      rw [edgeFlow_first (by simp [inp9]), w1]
      simp [inp9]
    have c0 : (inp9 buf (pres9.offsets fun _ => 0).1 nd).con 0 = [(1, 0)] := by simp [inp9]
    have c1 : (inp9 buf (pres9.offsets fun _ => 0).1 nd).con 1 = [(0, 0), (2, 1)] := by simp [inp9]
    rcases hv with rfl | rfl
    · unfold outOf
      rw [c0]
      simp only [List.map_cons, List.map_nil, List.sum_cons, List.sum_nil, e0]
      norm_num [inp9]
    · unfold outOf
      rw [c1]
      simp only [List.map_cons, List.map_nil, List.sum_cons, List.sum_nil, e0, e1]
      norm_num [inp9]

end NgsAMG.HProl
