import Verif.Props.HProl4
import Mathlib.Tactic.Linarith

/-!
# Property C103: energy of prolongated fields
-/

namespace NgsAMG.HProl
open NgsAMG.Spec
variable {K : Type} [Field K] [LinearOrder K]

/-- degrees of freedom inside the agglomerate -/
def Inside (I : Inp K) (C : ℕ) (x : Dof) : Prop := Interior I C x.1 ∧ x.2 < I.nd x.1

/-- rows of the energy matrix for degrees of freedom inside: sorted without repetition, and only with columns at the agglomerate -/
def LocalMat (I : Inp K) (C : ℕ) : Prop := ∀ x, Inside I C x → ((I.mat x).map Prod.fst).Nodup ∧
  ∀ y ∈ I.mat x, (Interior I C y.1.1 ∨ Exterior I C y.1.1) ∧ y.1.2 < I.nd y.1.1

theorem mem_inside {I : Inp K} (hI : MeshOK I) {C : ℕ} {x : Dof} : x ∈ dofs I.nd (edgesI I (I.agg C)) ↔ Inside I C x := by
  rw [mem_dofs, mem_edgesI hI, Inside]

theorem row_split {I : Inp K} (hI : MeshOK I) {C : ℕ} (hL : LocalMat I C) {x : Dof} (hx : Inside I C x) (u : Dof → K) :
    ((dofs I.nd (edgesI I (I.agg C))).map fun y => entryA I x y * u y).sum + ((dofs I.nd (edgesF I (I.agg C))).map fun y => entryA I x y * u y).sum =
      rowVal (I.mat x) u := by
  obtain ⟨h1, h2⟩ := hL x hx
  rw [← List.sum_append, ← List.map_append]
  refine sum_entries h1 ?_ ?_ u
  · refine List.Nodup.append (dofs_nodup (edgesI_nodup hI C)) (dofs_nodup (edgesF_nodup hI C)) ?_
    intro y hy hy'
    exact exterior_not_interior hI ((mem_edgesF hI).1 (mem_dofs.1 hy').1) ((mem_edgesI hI).1 (mem_dofs.1 hy).1)
  · intro y hy
    rw [List.mem_append, mem_dofs, mem_dofs, mem_edgesI hI, mem_edgesF hI]
    obtain ⟨q | q, r⟩ := h2 y hy
    · exact Or.inl ⟨q, r⟩
    · exact Or.inr ⟨q, r⟩

/-- right hand side for a coarse field -/
theorem rhs_inside {I : Inp K} (hI : MeshOK I) {P2 : Mat K} {C : ℕ} (hok : okIdx I P2 (I.agg C) C = true)
    (hF : ∀ x ∈ dofs I.nd (edgesF I (I.agg C)), ((P2 x).map Prod.fst).Nodup) (c u : Dof → K)
    (hv : ∀ x ∈ dofs I.nd (edgesF I (I.agg C)), u x = rowVal (P2 x) c) (i : Fin (dofs I.nd (edgesI I (I.agg C))).length) :
    ∑ k : Crs I C, rhs I P2 (I.agg C) C (.inl i) k * c (dofs I.cnd (edgesC I C))[k] =
      -((dofs I.nd (edgesF I (I.agg C))).map fun y => entryA I (dofs I.nd (edgesI I (I.agg C)))[i] y * u y).sum := by
  unfold okIdx at hok
  rw [Bool.and_eq_true] at hok
  have hcols : ∀ x ∈ dofs I.nd (edgesF I (I.agg C)), ∀ y ∈ P2 x, y.1 ∈ dofs I.cnd (edgesC I C) := by
    intro x hx y hy
    have := List.all_eq_true.1 (List.all_eq_true.1 hok.2 x hx) y hy
    simpa using this
  simp only [rhs, neg_mul, Finset.sum_neg_distrib]
  congr 1
  rw [← sum_fin (dofs I.nd (edgesF I (I.agg C))) fun y => entryA I (dofs I.nd (edgesI I (I.agg C)))[i] y * u y]
  simp only [Finset.sum_mul]
  rw [Finset.sum_comm]
  refine Finset.sum_congr rfl fun f _ => ?_
  have e := (hv _ (List.getElem_mem f.isLt)).trans (sum_matPF hI (hF _ (List.getElem_mem f.isLt)) (hcols _ (List.getElem_mem f.isLt)) c).symm
  refine Eq.trans ?_ (congrArg (entryA I (dofs I.nd (edgesI I (I.agg C)))[i] (dofs I.nd (edgesF I (I.agg C)))[f] * ·) e.symm)
  simp only [Finset.mul_sum, mul_assoc]
  rfl

theorem rhs_flow {I : Inp K} (hI : MeshOK I) {P2 : Mat K} {C : ℕ} (hok : okIdx I P2 (I.agg C) C = true)
    (hF : ∀ x ∈ dofs I.nd (edgesF I (I.agg C)), ((P2 x).map Prod.fst).Nodup) (c u : Dof → K)
    (hv : ∀ x ∈ dofs I.nd (edgesF I (I.agg C)), u x = rowVal (P2 x) c) {r : ℕ} (hr : r < (I.agg C).length) :
    ∑ k : Crs I C, (I.vol (I.agg C)[r] * bcRow I C (dofs I.cnd (edgesC I C))[k] - ∑ f : Fin (dofs I.nd (edgesF I (I.agg C))).length,
      matBF I (I.agg C) r (dofs I.nd (edgesF I (I.agg C)))[f] * matPF P2 (dofs I.nd (edgesF I (I.agg C)))[f] (dofs I.cnd (edgesC I C))[k]) *
        c (dofs I.cnd (edgesC I C))[k] =
      I.vol (I.agg C)[r] * (1 / I.cvol C * outOf I.ccon I.cedge (edgeFlow (cflow I) I.cnd c) C) -
        ((dofs I.nd (edgesF I (I.agg C))).map fun x => matBF I (I.agg C) r x * u x).sum := by
  unfold okIdx at hok
  rw [Bool.and_eq_true] at hok
  have hcols : ∀ x ∈ dofs I.nd (edgesF I (I.agg C)), ∀ y ∈ P2 x, y.1 ∈ dofs I.cnd (edgesC I C) := by
    intro x hx y hy
    have := List.all_eq_true.1 (List.all_eq_true.1 hok.2 x hx) y hy
    simpa using this
  simp only [sub_mul, Finset.sum_sub_distrib]
  congr 1
  · rw [← sum_bcRow, Finset.mul_sum]
    exact Finset.sum_congr rfl fun k _ => mul_assoc _ _ _
  · rw [← sum_fin (dofs I.nd (edgesF I (I.agg C))) fun x => matBF I (I.agg C) r x * u x]
    simp only [Finset.sum_mul]
    rw [Finset.sum_comm]
    refine Finset.sum_congr rfl fun f _ => ?_
    have e := (hv _ (List.getElem_mem f.isLt)).trans (sum_matPF hI (hF _ (List.getElem_mem f.isLt)) (hcols _ (List.getElem_mem f.isLt)) c).symm
    refine Eq.trans ?_ (congrArg (matBF I (I.agg C) r (dofs I.nd (edgesF I (I.agg C)))[f] * ·) e.symm)
    simp only [Finset.mul_sum, mul_assoc]
    rfl

/-- rows of the local problem for the degrees of freedom inside -/
theorem local_momentum {I : Inp K} (hI : MeshOK I) {P2 P3 : Mat K} {C : ℕ} (h : solveAgg I P2 (I.agg C) C = some P3)
    (hF : ∀ x ∈ dofs I.nd (edgesF I (I.agg C)), ((P2 x).map Prod.fst).Nodup) (hL : LocalMat I C) (c u : Dof → K)
    (hu : ∀ x ∈ dofs I.nd (edgesI I (I.agg C)), u x = rowVal (P3 x) c) (hv : ∀ x ∈ dofs I.nd (edgesF I (I.agg C)), u x = rowVal (P2 x) c) :
    ∃ p : Fin (I.agg C).length → K, ∀ x, Inside I C x → rowVal (I.mat x) u + ∑ r : Fin (I.agg C).length, matBI I (I.agg C) r x * p r = 0 := by
  obtain ⟨z, h1, h2, _, _, _, hok⟩ := solve_eq hI h c
  refine ⟨fun r => z (.inr (.inl r)), fun x hx => ?_⟩
  obtain ⟨i, hi, rfl⟩ := List.getElem_of_mem ((mem_inside hI).2 hx)
  have := h1 (.inl ⟨i, hi⟩)
  rw [rhs_inside hI hok hF c u hv, Fintype.sum_sum_type, Fintype.sum_sum_type] at this
  simp only [matM, Finset.univ_unique, Finset.sum_singleton, zero_mul, add_zero] at this
  have e1 : ∑ j : Fin (dofs I.nd (edgesI I (I.agg C))).length, entryA I (dofs I.nd (edgesI I (I.agg C)))[i] (dofs I.nd (edgesI I (I.agg C)))[j] * z (.inl j) =
      ((dofs I.nd (edgesI I (I.agg C))).map fun y => entryA I (dofs I.nd (edgesI I (I.agg C)))[i] y * u y).sum := by
    rw [← sum_fin (dofs I.nd (edgesI I (I.agg C))) fun y => entryA I (dofs I.nd (edgesI I (I.agg C)))[i] y * u y]
    refine Finset.sum_congr rfl fun j _ => ?_
    rw [← h2 j]
    exact congrArg _ (hu _ (List.getElem_mem j.isLt)).symm
  rw [← row_split hI hL hx u]
  have e2 := e1.symm
  rw [eq_neg_iff_add_eq_zero] at this
  rw [e2]
  refine Eq.trans ?_ this
  simp only [Fin.getElem_fin]
  ring

theorem sum_matBI {I : Inp K} (hI : MeshOK I) {C e : ℕ} (hx : Interior I C e) (l : ℕ) : ∑ r : Fin (I.agg C).length, matBI I (I.agg C) r (e, l) = 0 := by
  obtain ⟨v, w, hv, hw, hc⟩ := hx
  have he := (hI.range _ _ _ hc).2
  have h1 : ∀ r : Fin (I.agg C).length, matBI I (I.agg C) r (e, l) = sigma I (I.agg C)[r] e * if l = 0 then I.flow e else 0 := fun r => matBI_sigma hI he r.isLt l
  simp only [h1]
  rw [← Finset.sum_mul, sum_fin (I.agg C) fun v => sigma I v e, ← List.sum_toFinset _ (show (I.agg C).Nodup from c2f_nodup _ _ _), sum_sigma hI C he]
  unfold tau
  rcases (hI.ends _ _ _ hc).1 with p | p <;> simp [p, hv, hw]

theorem inside_flow {I : Inp K} (hI : MeshOK I) (C : ℕ) (d : Dof → K) (hd : ∀ x, Exterior I C x.1 → d x = 0) {r : ℕ} (hr : r < (I.agg C).length) :
    ((dofs I.nd (edgesI I (I.agg C))).map fun x => matBI I (I.agg C) r x * d x).sum = outOf I.con I.edge (edgeFlow I.flow I.nd d) (I.agg C)[r] := by
  rw [← rows_outOf hI C d hr]
  have : ((dofs I.nd (edgesF I (I.agg C))).map fun x => matBF I (I.agg C) r x * d x).sum = 0 := by
    refine List.sum_eq_zero fun y hy => ?_
    obtain ⟨x, hx, rfl⟩ := List.mem_map.1 hy
    rw [hd x ((mem_edgesF hI).1 (mem_dofs.1 hx).1), mul_zero]
  rw [this, add_zero]

/-- **C103.** A prolongated field is orthogonal, in the energy, to the fields inside an agglomerate with zero divergence. -/
theorem orthogonal {I : Inp K} (hI : MeshOK I) {P : Mat K} (hP : prol I = some P) {C : ℕ} (hC : C ∈ I.cvs) (hS : Solid I C)
    (hg : ∀ v ∈ I.agg C, I.ghost v = false) (h2 : 2 ≤ (I.agg C).length) (hx : ∃ e, Exterior I C e) (hL : LocalMat I C) (c : Dof → K)
    {S : Finset Dof} (hS' : ∀ x, x ∈ S ↔ Inside I C x) (d : Dof → K) (hd : ∀ x, ¬ Inside I C x → d x = 0)
    (hdiv : ∀ v ∈ I.agg C, outOf I.con I.edge (edgeFlow I.flow I.nd d) v = 0) : ∑ x ∈ S, d x * rowVal (I.mat x) (field P c) = 0 := by
  by_cases hi : ∃ e, Interior I C e
  swap
  · refine Finset.sum_eq_zero fun x hx => ?_
    exact absurd ⟨x.1, ((hS' x).1 hx).1⟩ hi
  obtain ⟨P2, P3, h3, hn, e1, e2⟩ := prol_solve hI hP hC hS hg h2 hi hx
  obtain ⟨p, hp⟩ := local_momentum hI h3 hn hL c (field P c) (fun x hx => by rw [field, e1 x hx]) fun x hx => by rw [field, e2 x hx]
  have hSe : S = (dofs I.nd (edgesI I (I.agg C))).toFinset := by
    ext x
    rw [hS', List.mem_toFinset, mem_inside hI]
  have hflow : ∀ r : Fin (I.agg C).length, ∑ x ∈ S, d x * matBI I (I.agg C) r x = 0 := by
    intro r
    rw [hSe, List.sum_toFinset _ (dofs_nodup (edgesI_nodup hI C))]
    have := (inside_flow hI C d (fun x hx => hd x fun h => exterior_not_interior hI hx h.1) r.isLt).trans (hdiv _ (List.getElem_mem r.isLt))
    refine Eq.trans (congrArg List.sum (List.map_congr_left fun x _ => ?_)) this
    exact mul_comm _ _
  have : ∑ x ∈ S, d x * rowVal (I.mat x) (field P c) = ∑ x ∈ S, d x * -∑ r : Fin (I.agg C).length, matBI I (I.agg C) r x * p r :=
    Finset.sum_congr rfl fun x hx => by rw [eq_neg_of_add_eq_zero_left (hp x ((hS' x).1 hx))]
  rw [this]
  simp only [mul_neg, Finset.mul_sum, Finset.sum_neg_distrib]
  rw [Finset.sum_comm, neg_eq_zero]
  refine Finset.sum_eq_zero fun r _ => ?_
  have := hflow r
  calc ∑ x ∈ S, d x * (matBI I (I.agg C) r x * p r) = (∑ x ∈ S, d x * matBI I (I.agg C) r x) * p r := by
        rw [Finset.sum_mul]
        exact Finset.sum_congr rfl fun x _ => (mul_assoc _ _ _).symm
    _ = 0 := by rw [this, zero_mul]

theorem rowVal_add (r : Row K) (a b : Dof → K) : rowVal r (fun x => a x + b x) = rowVal r a + rowVal r b := by
  unfold rowVal
  rw [← List.sum_map_add]
  exact congrArg List.sum (List.map_congr_left fun y _ => mul_add _ _ _)

theorem edgeFlow_sub (flow : ℕ → K) (nd : ℕ → ℕ) (a b : Dof → K) (e : ℕ) : edgeFlow flow nd (fun x => a x - b x) e = edgeFlow flow nd a e - edgeFlow flow nd b e := by
  unfold edgeFlow
  rw [eq_sub_iff_add_eq, ← List.sum_map_add]
  exact congrArg List.sum (List.map_congr_left fun y _ => by ring)

theorem outOf_sub (con : ℕ → List (ℕ × ℕ)) (edge : ℕ → ℕ × ℕ) (a b : ℕ → K) (v : ℕ) : outOf con edge (fun e => a e - b e) v = outOf con edge a v - outOf con edge b v := by
  unfold outOf
  rw [eq_sub_iff_add_eq, ← List.sum_map_add]
  exact congrArg List.sum (List.map_congr_left fun y _ => by split <;> ring)

/-- **C103.** A prolongated field has minimal energy among the fields that differ from it only inside the agglomerate and have the same divergence. -/
theorem minimal [IsStrictOrderedRing K] {I : Inp K} (hI : MeshOK I) {P : Mat K} (hP : prol I = some P) {C : ℕ} (hC : C ∈ I.cvs) (hS : Solid I C)
    (hg : ∀ v ∈ I.agg C, I.ghost v = false) (h2 : 2 ≤ (I.agg C).length) (hx : ∃ e, Exterior I C e) (hL : LocalMat I C) (c : Dof → K)
    {T : Finset Dof} (hT : ∀ x, Inside I C x → x ∈ T)
    (hsym : ∀ a b : Dof → K, ∑ x ∈ T, a x * rowVal (I.mat x) b = ∑ x ∈ T, b x * rowVal (I.mat x) a)
    (hpos : ∀ a : Dof → K, 0 ≤ ∑ x ∈ T, a x * rowVal (I.mat x) a) (w : Dof → K) (hw : ∀ x, ¬ Inside I C x → w x = field P c x)
    (hdiv : ∀ v ∈ I.agg C, outOf I.con I.edge (edgeFlow I.flow I.nd w) v = outOf I.con I.edge (edgeFlow I.flow I.nd (field P c)) v) :
    ∑ x ∈ T, field P c x * rowVal (I.mat x) (field P c) ≤ ∑ x ∈ T, w x * rowVal (I.mat x) w := by
  classical
  generalize hu : field P c = u at *
  let d : Dof → K := fun x => w x - u x
  have hd0 : ∀ x, ¬ Inside I C x → d x = 0 := fun x hx => by simp only [d]; rw [hw x hx, sub_self]
  have horth : ∑ x ∈ T, d x * rowVal (I.mat x) u = 0 := by
    have h := orthogonal hI hP hC hS hg h2 hx hL c (S := (dofs I.nd (edgesI I (I.agg C))).toFinset)
      (fun x => by rw [List.mem_toFinset, mem_inside hI]) d hd0 (fun v hv => by
        have e : edgeFlow I.flow I.nd d = fun e => edgeFlow I.flow I.nd w e - edgeFlow I.flow I.nd u e := funext fun e => edgeFlow_sub _ _ _ _ _
        rw [e, outOf_sub, hdiv v hv, sub_self])
    rw [hu] at h
    rw [← h]
    refine (Finset.sum_subset (fun x hx => hT x ((mem_inside hI).1 (List.mem_toFinset.1 hx))) fun x _ hx => ?_).symm
    rw [hd0 x fun h => hx (List.mem_toFinset.2 ((mem_inside hI).2 h)), zero_mul]
  have hw' : w = fun x => u x + d x := funext fun x => by simp [d]
  have e1 : ∑ x ∈ T, w x * rowVal (I.mat x) w = ∑ x ∈ T, u x * rowVal (I.mat x) u + ∑ x ∈ T, u x * rowVal (I.mat x) d +
      (∑ x ∈ T, d x * rowVal (I.mat x) u + ∑ x ∈ T, d x * rowVal (I.mat x) d) := by
    rw [hw', ← Finset.sum_add_distrib, ← Finset.sum_add_distrib, ← Finset.sum_add_distrib]
    exact Finset.sum_congr rfl fun x _ => by rw [rowVal_add]; ring
  have := hpos d
  rw [e1, hsym u d, horth]
  linarith

/-- **C103.** A field that agrees with the prolongated one outside an agglomerate, is orthogonal to all fields inside without divergence (up to a pressure `p`), and has
constant divergence is the prolongated field. -/
theorem reproduces [IsStrictOrderedRing K] {I : Inp K} (hI : MeshOK I) {P : Mat K} (hP : prol I = some P) {C : ℕ} (hC : C ∈ I.cvs) (hS : Solid I C)
    (hg : ∀ v ∈ I.agg C, I.ghost v = false) (h2 : 2 ≤ (I.agg C).length) (hx : ∃ e, Exterior I C e) (hL : LocalMat I C) (c : Dof → K)
    (w : Dof → K) (hw : ∀ x, Exterior I C x.1 → w x = field P c x)
    (p : ℕ → K) (hp : ∀ x, Inside I C x → rowVal (I.mat x) w = if x.2 = 0 then (p (I.edge x.1).1 - p (I.edge x.1).2) * I.flow x.1 else 0)
    (hdiv : ∀ v ∈ I.agg C, outOf I.con I.edge (edgeFlow I.flow I.nd w) v * I.cvol C = I.vol v * outOf I.ccon I.cedge (edgeFlow (cflow I) I.cnd c) C) :
    ∀ x, Inside I C x → field P c x = w x := by
  intro x0 hx0
  obtain ⟨P2, P3, h3, hn, e1, e2⟩ := prol_solve hI hP hC hS hg h2 ⟨_, hx0.1⟩ hx
  obtain ⟨z, h1, hz, hdet, hc0, _, hok⟩ := solve_eq hI h3 c
  have hwF : ∀ x ∈ dofs I.nd (edgesF I (I.agg C)), w x = rowVal (P2 x) c := fun x hx => by
    rw [hw x ((mem_edgesF hI).1 (mem_dofs.1 hx).1), field, e2 x hx]
  have hn0 : ((I.agg C).length : K) ≠ 0 := Nat.cast_ne_zero.2 (by omega)
  let m : K := (∑ r : Fin (I.agg C).length, p (I.agg C)[r]) / (I.agg C).length
  let y : Unk I (I.agg C) → K := fun q => match q with
    | .inl i => w (dofs I.nd (edgesI I (I.agg C)))[i]
    | .inr (.inl r) => m - p (I.agg C)[r]
    | .inr (.inr _) => 0
  have hy : ∀ q, ∑ q', matM I (I.agg C) q q' * y q' = ∑ k : Crs I C, rhs I P2 (I.agg C) C q k * c (dofs I.cnd (edgesC I C))[k] := by
    intro q
    rw [Fintype.sum_sum_type, Fintype.sum_sum_type]
    rcases q with i | ⟨r, hr⟩ | _
    · rw [rhs_inside hI hok hn c w hwF]
      have hin : Inside I C (dofs I.nd (edgesI I (I.agg C)))[i] := (mem_inside hI).1 (List.getElem_mem i.isLt)
      simp only [matM, y, Finset.univ_unique, Finset.sum_singleton, zero_mul, add_zero]
      have a1 := sum_fin (dofs I.nd (edgesI I (I.agg C))) fun y => entryA I (dofs I.nd (edgesI I (I.agg C)))[i] y * w y
      have a2 : ∑ r : Fin (I.agg C).length, matBI I (I.agg C) r (dofs I.nd (edgesI I (I.agg C)))[i] * (m - p (I.agg C)[r]) =
          -rowVal (I.mat (dofs I.nd (edgesI I (I.agg C)))[i]) w := by
        rw [hp _ hin]
        generalize (dofs I.nd (edgesI I (I.agg C)))[i] = x at hin
        obtain ⟨e, l⟩ := x
        simp only [mul_sub, Finset.sum_sub_distrib]
        rw [← Finset.sum_mul, sum_matBI hI hin.1 l, zero_mul, zero_sub]
        congr 1
        obtain ⟨⟨v, v', hv, hv', hc⟩, _⟩ := hin
        have he := (hI.range _ _ _ hc).2
        have hb : ∀ r : Fin (I.agg C).length, matBI I (I.agg C) r (e, l) * p (I.agg C)[r] =
            (fun v => (sigma I v e * if l = 0 then I.flow e else 0) * p v) (I.agg C)[r] := fun r => by rw [matBI_sigma hI he r.isLt l]; rfl
        simp only [hb]
        rw [sum_fin (I.agg C) fun v => (sigma I v e * if l = 0 then I.flow e else 0) * p v, ← List.sum_toFinset _ (show (I.agg C).Nodup from c2f_nodup _ _ _)]
        have hsg : ∀ v, sigma I v e = (if (I.edge e).1 = v then 1 else 0) - (if (I.edge e).2 = v then (1 : K) else 0) := by
          intro v
          unfold sigma
          have := ends_ne hI he
          split_ifs with q1 q2 q2
          · exact absurd (q1.trans q2.symm) this
          · ring
          · ring
          · ring
        have hm : (I.edge e).1 ∈ I.agg C ∧ (I.edge e).2 ∈ I.agg C := by
          rcases (hI.ends _ _ _ hc).1 with q | q <;> rw [q]
          · exact ⟨hv, hv'⟩
          · exact ⟨hv', hv⟩
        simp only [hsg, sub_mul, Finset.sum_sub_distrib, ite_mul, one_mul, zero_mul, Finset.sum_ite_eq, List.mem_toFinset, if_pos hm.1, if_pos hm.2]
        split <;> ring
      rw [a2, eq_neg_iff_add_eq_zero]
      have a3 := row_split hI hL hin w
      rw [← a3, ← a1]
      simp only [Fin.getElem_fin]
      ring
    · simp only [matM, rhs, y, Finset.univ_unique, Finset.sum_singleton, mul_zero, one_mul, add_zero]
      have a1 := sum_fin (dofs I.nd (edgesI I (I.agg C))) fun x => matBI I (I.agg C) r x * w x
      have a3 := rows_outOf hI C w hr
      have a4 := hdiv _ (List.getElem_mem hr)
      have a5 := rhs_flow hI hok hn c w hwF hr
      refine Eq.trans ?_ a5.symm
      simp only [zero_mul, Finset.sum_const_zero, add_zero]
      rw [eq_sub_iff_add_eq]
      refine (congrArg (· + _) a1).trans (a3.trans ?_)
      field_simp
      exact a4
    · simp only [matM, rhs, y, Finset.univ_unique, Finset.sum_singleton, zero_mul, one_mul, Finset.sum_const_zero, zero_add, add_zero]
      rw [Finset.sum_sub_distrib, Finset.sum_const, Finset.card_univ, Fintype.card_fin, nsmul_eq_mul]
      simp only [m]
      rw [mul_div_cancel₀ _ hn0, sub_self]
  have hyz : y = z := by
    have hinj := Matrix.mulVec_injective_iff_isUnit.2 ((Matrix.isUnit_iff_isUnit_det _).2 hdet)
    exact hinj (funext fun q => (hy q).trans (h1 q).symm)
  obtain ⟨i, hi, rfl⟩ := List.getElem_of_mem ((mem_inside hI).2 hx0)
  have := hz ⟨i, hi⟩
  rw [← hyz] at this
  unfold field
  rw [e1 _ (List.getElem_mem hi)]
  exact this

end NgsAMG.HProl
