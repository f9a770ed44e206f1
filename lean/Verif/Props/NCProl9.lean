import Verif.Props.NCProl8

/-!
# Property C101, agglomerates with a single vertex of positive volume
-/

namespace NgsAMG.NCProl
open NgsAMG.SparseMM NgsAMG.Spec
variable {K : Type} [Field K] [LinearOrder K] {b : ℕ}

theorem cvol_single [IsStrictOrderedRing K] {I : Inp b K} {a : List ℕ} {v : ℕ} (h : real I a = [v]) : 0 < cvol I a ∧ cvol I a = I.vol v := by
  have hv : v ∈ real I a := by rw [h]; exact List.mem_cons_self
  have h1 : 0 < I.vol v := by simpa using (List.mem_filter.1 hv).2
  have h2 : cvol I a = I.vol v := by unfold cvol; rw [h]; simp
  exact ⟨h2 ▸ h1, h2⟩

theorem sum_over_ccon {I : Inp b K} (cv : ℕ) (u : ℕ → Fin b → K) :
    ∑ c : Crs I cv, sgn cv ((I.ccon cv)[c.1]).1 * I.cflow ((I.ccon cv)[c.1]).2 c.2 * u ((I.ccon cv)[c.1]).2 c.2 = netFlow I.ccon I.cflow u cv := by
  rw [sum_crs]
  unfold netFlow
  rw [← Fin.sum_univ_fun_getElem (I.ccon cv) fun x => (if cv < x.1 then 1 else -1) * ∑ l, I.cflow x.2 l * u x.2 l]
  refine Finset.sum_congr rfl fun j _ => ?_
  rw [Finset.mul_sum]
  refine Finset.sum_congr rfl fun m _ => ?_
  unfold sgn
  exact mul_assoc _ _ _

/-- **C101**: if only one vertex of an agglomerate has positive volume and the others have volume zero, the net flow out of that vertex is its volume
times the net flow of the coarse field, which is the flow the coarse field has (as for the agglomerates of `div_const`) only if the volume is 1 -/
theorem single_real [IsStrictOrderedRing K] {I : Inp b K} (hI : MeshOK I) {P : List (Row b K)} (hP : prol I = some P) {a : List ℕ} {cv : ℕ} (ha : a ∈ I.aggs)
    (hcv : ∀ v, v ∈ a ↔ I.vmap v = some cv) (hg : ∀ v ∈ a, I.ghost v = false) (hint : ∃ v w e, v ∈ a ∧ w ∈ a ∧ v ≠ w ∧ (w, e) ∈ I.con v)
    (hext : ∃ v w e, v ∈ a ∧ (w, e) ∈ I.con v ∧ w ∉ a) {v : ℕ} (hv : v ∈ a) (hvol : 0 < I.vol v) (hz : ∀ w ∈ a, w ≠ v → I.vol w = 0)
    (cvec : ℕ → Fin b → K) :
    netFlow I.con I.flow (edgeVal P I.e2d cvec) v = I.vol v * netFlow I.ccon I.cflow (onEdges I cvec) cv := by
  have hn := hI.nodup a ha
  have hreal : real I a = [v] := by
    have hnd : (real I a).Nodup := hn.sublist List.filter_sublist
    have hall : ∀ w ∈ real I a, w = v := by
      intro w hw
      by_contra h
      have h1 := (List.mem_filter.1 hw)
      have h2 : 0 < I.vol w := by simpa using h1.2
      exact absurd (hz w h1.1 h) h2.ne'
    have hvr : v ∈ real I a := List.mem_filter.2 ⟨hv, by simpa using hvol⟩
    match hl : real I a, hnd, hall, hvr with
    | [x], _, hall, _ => rw [hall x List.mem_cons_self]
    | x :: y :: t, hnd, hall, _ =>
      have h1 := hall x List.mem_cons_self
      have h2 := hall y (List.mem_cons_of_mem _ List.mem_cons_self)
      rw [h1, h2] at hnd
      simp at hnd
  obtain ⟨hc0, hcv0⟩ := cvol_single hreal
  have hout : outflow I a = false := by
    unfold outflow
    rw [List.any_eq_false]
    intro w hw
    by_cases h : w = v
    · subst h
      simpa using hvol.le
    · simp [hz w hw h]
  have hlock : lockP I a = false := by
    unfold lockP
    rw [hreal]
    simp
  have hlen : 2 ≤ a.length := by
    obtain ⟨x, y, e, h1, h2, h3, _⟩ := hint
    match a, h1, h2 with
    | [z], h1, h2 =>
      rw [List.mem_singleton] at h1 h2
      exact absurd (h1.trans h2.symm) h3
    | _ :: _ :: _, _, _ => simp
  obtain ⟨v1, w1, e1, q1, q2, _, q3⟩ := hint
  obtain ⟨Q, hu, hff, hY1, hY2⟩ := local_solve hI hP ha hcv hg hlen ⟨e1, v1, w1, q1, q2, q3⟩ hext cvec
  have hr' : (real I a)[0]? = some v := by rw [hreal]; rfl
  obtain ⟨lam, _, l2⟩ := core hI (facets_nodup hI hn hcv) hu (edgeVal P I.e2d cvec) (fun c => onEdges I cvec ((I.ccon cv)[c.1]).2 c.2) hY1 hY2 hr' (hff v hv)
  have hbc : ∑ c : Crs I cv, matBc I a (facets I a cv) cv 0 ((I.ccon cv)[c.1]) c.2 * onEdges I cvec ((I.ccon cv)[c.1]).2 c.2 =
      scal I a (facets I a cv) * (1 / cvol I a) * (I.vol v * netFlow I.ccon I.cflow (onEdges I cvec) cv) := by
    rw [← sum_over_ccon, Finset.mul_sum, Finset.mul_sum]
    refine Finset.sum_congr rfl fun c _ => ?_
    unfold matBc cvinv bcBase
    rw [hr', hout, hlock]
    simp only [Bool.false_eq_true, if_false]
    ring
  rw [hbc, hlock] at l2
  simp only [Bool.false_eq_true, if_false, add_zero] at l2
  exact mul_left_cancel₀ (scal_ne hu hr') l2

/-- a vertex of volume zero and one of volume 2, joined by an edge with flow -/
def ex6 : Inp 1 ℚ := chainF 3 2 (fun v => if v = 0 then 0 else 2) fun _ => 1

theorem ex6_ok : MeshOK ex6 := chainF_ok (by decide) (by decide) _ _

theorem ex6_unit : IsUnit (matM ex6 (List.range 2) (facets ex6 (List.range 2) 0)).det :=
  unit_of_tab [[0, -2], [-2, -4]] (by decide +kernel)

/-- **C101, refuted**: the coarse field with net flow 1 is prolonged to a field with net flow 2 out of the vertex of volume 2, and net flow -1 out of the
vertex of volume zero -/
theorem single_real_wrong : ∃ P, prol ex6 = some P ∧ FlowOK ex6 (List.range 2) 0 ∧ netFlow ex6.ccon ex6.cflow (onEdges ex6 fun _ _ => 1) 0 = 1 ∧
    netFlow ex6.con ex6.flow (edgeVal P ex6.e2d fun _ _ => 1) 1 = 2 ∧ netFlow ex6.con ex6.flow (edgeVal P ex6.e2d fun _ _ => 1) 0 = -1 := by
  obtain ⟨P, hP⟩ := prol_total ex6_ok (chainF_run (by decide) (by decide) _ _ ex6_unit)
  have hfl : FlowOK ex6 (List.range 2) 0 := by
    unfold FlowOK
    decide +kernel
  have hag : ∀ v, v ∈ List.range 2 ↔ ex6.vmap v = some 0 := agg0 (by decide) (by decide)
  have hc : netFlow ex6.ccon ex6.cflow (onEdges ex6 fun _ _ => 1) 0 = 1 := by decide +kernel
  have h1 := single_real ex6_ok hP (a := List.range 2) List.mem_cons_self hag (fun _ _ => rfl) ⟨0, 1, 0, by decide, by decide, by decide, by decide +kernel⟩
    ⟨1, 2, 1, by decide, by decide +kernel, by decide⟩ (v := 1) (by decide) (by decide +kernel) (by decide +kernel) (fun _ _ => 1)
  have hv : ex6.vol 1 = 2 := by decide +kernel
  rw [hc, hv, mul_one] at h1
  have hsum := sum_netFlow ex6_ok List.nodup_range hag hfl (edgeVal P ex6.e2d fun _ _ => 1) (onEdges ex6 fun _ _ => 1)
    fun v w e hv hcn hw => exterior_val ex6_ok hP List.mem_cons_self hag (fun _ _ => rfl) (fun _ _ => 1) hv hcn hw
  rw [hc, show List.range 2 = [0, 1] from rfl] at hsum
  simp only [List.map_cons, List.map_nil, List.sum_cons, List.sum_nil, h1] at hsum
  exact ⟨P, hP, hfl, hc, h1, by linarith⟩

end NgsAMG.NCProl
