import Verif.Props.NCProl3
import Mathlib.Tactic.Linarith

/-!
# Property C101, theorems: divergence of prolonged fields
-/

namespace NgsAMG.NCProl
open NgsAMG.SparseMM NgsAMG.Spec
variable {K : Type} [Field K] [LinearOrder K] {b : ℕ}

/-- the coarse vector, by coarse edges -/
def onEdges (I : Inp b K) (cvec : ℕ → Fin b → K) (E : ℕ) : Fin b → K := cvec ((I.ce2d E).getD 0)

theorem not_interior {I : Inp b K} (hI : MeshOK I) {v w e : ℕ} (hc : (w, e) ∈ I.con v) (hne : I.vmap v ≠ I.vmap w) :
    ∀ a' ∈ I.aggs, ¬ Interior I a' e := by
  rintro a' ha' ⟨v', w', hv', hw', hc'⟩
  obtain ⟨cv, hcv⟩ := hI.agg a' ha'
  rw [hcv] at hv' hw'
  rcases hI.ends _ _ _ hc with p | p <;> rcases hI.ends _ _ _ hc' with q | q <;>
    · have hh := p.1.symm.trans q.1
      simp only [Prod.mk.injEq] at hh
      apply hne
      rw [hh.1, hh.2, hv', hw']

theorem mulRow_nil (cvec : ℕ → Fin b → K) (l : Fin b) : mulRow ([] : Row b K) cvec l = 0 := rfl

theorem mulRow_one (c : ℕ) (cvec : ℕ → Fin b → K) (l : Fin b) : mulRow ([(c, 1)] : Row b K) cvec l = cvec c l := by
  unfold mulRow
  simp [Matrix.one_apply]

/-- edges between agglomerates get the value of the coarse edge, edges to vertices outside of all agglomerates get zero -/
theorem exterior_val {I : Inp b K} (hI : MeshOK I) {P : List (Row b K)} (hP : prol I = some P) {a : List ℕ} {cv : ℕ} (ha : a ∈ I.aggs)
    (hcv : ∀ v, v ∈ a ↔ I.vmap v = some cv) (hg : ∀ v ∈ a, I.ghost v = false) (cvec : ℕ → Fin b → K) {v w e : ℕ} (hv : v ∈ a)
    (hc : (w, e) ∈ I.con v) (hw : w ∉ a) :
    edgeVal P I.e2d cvec e = match I.emap e with | some E => onEdges I cvec E | none => fun _ => 0 := by
  obtain ⟨Q, Q', _, _, _, h1, _⟩ := prol_split hI hP ha
  obtain ⟨d, hd⟩ := Option.isSome_iff_exists.1 (hI.solid v w e (hg v hv) hc)
  have hv' := (hcv v).1 hv
  have hw' : I.vmap w ≠ some cv := fun h => hw ((hcv w).2 h)
  obtain ⟨r, r1, _, r3⟩ := h1 e d hd (not_interior hI hc (by rw [hv']; exact hw'.symm))
  have hr : P.getD d [] = r := by rw [List.getD_eq_getElem?_getD, r1]; rfl
  funext l
  unfold edgeVal
  rw [hd]
  dsimp only
  rw [hr]
  rcases exterior_row hI hv' hc hw' r3 with rfl | ⟨D, E, c, q1, q2, q3, rfl⟩
  · rw [mulRow_nil]
    cases he : I.emap e with
    | none => rfl
    | some E =>
      obtain ⟨c, _, hcontra⟩ := r3.1 E he
      cases hcontra
  · rw [mulRow_one, q2]
    dsimp only
    unfold onEdges
    rw [q3]
    rfl

/-- the result of the local problem of an agglomerate, in terms of the prolonged field -/
theorem local_solve {I : Inp b K} (hI : MeshOK I) {P : List (Row b K)} (hP : prol I = some P) {a : List ℕ} {cv : ℕ} (ha : a ∈ I.aggs)
    (hcv : ∀ v, v ∈ a ↔ I.vmap v = some cv) (hg : ∀ v ∈ a, I.ghost v = false) (hlen : 2 ≤ a.length) (hint : ∃ e, Interior I a e)
    (hext : ∃ v w e, v ∈ a ∧ (w, e) ∈ I.con v ∧ w ∉ a) (cvec : ℕ → Fin b → K) :
    ∃ Q, IsUnit (matM I a (facets I a cv)).det ∧ (∀ v ∈ a, ∀ x ∈ I.con v, x.2 ∈ ffacets (facets I a cv)) ∧
      (∀ (k : Fin (ffiinds (facets I a cv)).length) (l : Fin b), edgeVal P I.e2d cvec ((ffacets (facets I a cv)).getD ((ffiinds (facets I a cv))[k]) 0) l =
        ∑ c : Crs I cv, pext I Q a (facets I a cv) cv (.inl (k, l)) c * onEdges I cvec ((I.ccon cv)[c.1]).2 c.2) ∧
      (∀ (f : Fin (fffinds (facets I a cv)).length) (m : Fin b), edgeVal P I.e2d cvec ((ffacets (facets I a cv)).getD ((fffinds (facets I a cv))[f]) 0) m =
        ∑ c : Crs I cv, matPf I Q cv (facets I a cv) ((fffinds (facets I a cv))[f], m) c * onEdges I cvec ((I.ccon cv)[c.1]).2 c.2) := by
  obtain ⟨Q, Q', hs, hQl, hPl, h1, h2⟩ := prol_split hI hP ha
  have hn := facets_nodup hI (hI.nodup a ha) hcv
  have hne : a ≠ [] := by
    rintro rfl
    simp at hlen
  obtain ⟨v0, t, rfl⟩ := List.exists_cons_of_ne_nil hne
  have hsol : solveAgg I Q (v0 :: t) (facets I (v0 :: t) cv) cv = some Q' := by
    unfold aggStep at hs
    dsimp only at hs
    rw [if_neg (by rw [hg v0 List.mem_cons_self]; simp), if_neg (by omega), (hcv v0).1 List.mem_cons_self] at hs
    dsimp only at hs
    rw [if_neg, if_neg] at hs
    · exact hs
    · obtain ⟨e, he⟩ := hint
      intro h
      have := List.length_eq_zero_iff.1 h
      have hm : (e, true) ∈ (facets I (v0 :: t) cv).filter fun x => x.2 := List.mem_filter.2 ⟨facet_of_interior hI hcv he, rfl⟩
      rw [this] at hm
      cases hm
    · obtain ⟨v, w, e, hv, hc, hw⟩ := hext
      intro h
      have := List.length_eq_zero_iff.1 h
      have hm : (e, false) ∈ (facets I (v0 :: t) cv).filter fun x => !x.2 := List.mem_filter.2
        ⟨mem_facets.2 ⟨v, w, hv, hc, Or.inr ⟨fun h => hw ((hcv w).2 h), rfl⟩⟩, rfl⟩
      rw [this] at hm
      cases hm
  obtain ⟨hok, hu, _, _, hrows⟩ := solveAgg_rows hI hn hsol
  unfold okIdx at hok
  simp only [Bool.and_eq_true, List.all_eq_true] at hok
  obtain ⟨⟨ok1, ok2⟩, ok3⟩ := hok
  have hcn := cols_nodup hI ok3
  refine ⟨Q, hu, fun v hv x hx => by simpa using ok1 v hv x hx, fun k l => ?_, fun f m => ?_⟩
  · obtain ⟨d, d1, d2⟩ := hrows k
    have hi : Interior I (v0 :: t) ((ffacets (facets I (v0 :: t) cv)).getD ((ffiinds (facets I (v0 :: t) cv))[k]) 0) := interior_of_facet (cv := cv) ffi_edges
    have hp := (h2 _ d d1 hi).1.trans d2
    unfold edgeVal
    rw [d1]
    dsimp only
    rw [List.getD_eq_getElem?_getD, hp, Option.getD_some]
    refine (mulRow_ext hcn _ cvec l).trans ?_
    rw [sum_crs]
    rfl
  · -- an edge that leaves the agglomerate
    have hf : (fffinds (facets I (v0 :: t) cv))[f] ∈ fffinds (facets I (v0 :: t) cv) := List.getElem_mem _
    unfold fffinds at hf
    rw [List.mem_insertionSort, List.mem_map] at hf
    obtain ⟨x, hx, hk⟩ := hf
    rw [List.mem_filter] at hx
    have he : x.1 ∈ ffacets (facets I (v0 :: t) cv) := mem_ffacets.2 (List.mem_map_of_mem hx.1)
    have hk' : (ffacets (facets I (v0 :: t) cv)).getD ((fffinds (facets I (v0 :: t) cv))[f]) 0 = x.1 := by
      rw [show (fffinds (facets I (v0 :: t) cv))[f] = (ffacets (facets I (v0 :: t) cv)).idxOf x.1 from hk.symm, getD_idxOf he]
    have hx' : (x.1, false) ∈ facets I (v0 :: t) cv := by
      have : x = (x.1, false) := Prod.ext rfl (by simpa using hx.2)
      rw [← this]
      exact hx.1
    obtain ⟨v, w, hv, hc, hh⟩ := mem_facets.1 hx'
    have hw : I.vmap w ≠ some cv := by
      rcases hh with hh | hh
      · have h3 := hh.2.2
        rw [List.contains_iff_mem.2 ((hcv w).2 hh.1)] at h3
        cases h3
      · exact hh.1
    obtain ⟨d, hd⟩ := Option.isSome_iff_exists.1 (hI.solid v w x.1 (hg v hv) hc)
    have hv' := (hcv v).1 hv
    obtain ⟨r, r1, r2, r3⟩ := h1 x.1 d hd (not_interior hI hc (by rw [hv']; exact hw.symm))
    have hpf : ∀ c, matPf I Q cv (facets I (v0 :: t) cv) ((fffinds (facets I (v0 :: t) cv))[f], m) c = entryOf r ((I.ce2d ((I.ccon cv)[c.1]).2).getD 0) m c.2 := by
      intro c
      unfold matPf
      dsimp only
      rw [hk', hd, Option.getD_some, List.getD_eq_getElem?_getD, r2]
      rfl
    simp only [hpf]
    rw [hk']
    unfold edgeVal
    rw [hd]
    dsimp only
    rw [show P.getD d [] = r by rw [List.getD_eq_getElem?_getD, r1]; rfl]
    unfold onEdges
    refine (ext_mul hcn ?_ cvec m).symm
    rcases exterior_row hI hv' hc hw r3 with h | ⟨D, E, c, q1, _, q3, q4⟩
    · exact Or.inl h
    · exact Or.inr ⟨D, E, c, q1, q3, q4⟩

/-- the scaling of the constraints does not vanish -/
theorem scal_ne {I : Inp b K} {a : List ℕ} {fs : List (ℕ × Bool)} (hu : IsUnit (matM I a fs).det) {r v : ℕ} (hr : (real I a)[r]? = some v) :
    scal I a fs * (1 / cvol I a) ≠ 0 := by
  intro h0
  have hrl : r < (real I a).length := (List.getElem?_eq_some_iff.1 hr).1
  have hrB : r < hB I a := by unfold hB; omega
  refine hu.ne_zero (Matrix.det_eq_zero_of_row_eq_zero (.inr ⟨r, hrB⟩) ?_)
  rintro (i | q)
  · show matB I a fs r _ = 0
    unfold matB
    rw [hr]
    dsimp only
    rw [h0, zero_mul]
  · show matLock I a fs r q = 0
    unfold matLock lockW
    simp only [h0, zero_mul]
    split
    · rfl
    · split
      · rfl
      · split <;> rfl

/-- without an edge that leaves the agglomerate, everything is zero -/
theorem closed_zero {I : Inp b K} (hI : MeshOK I) {P : List (Row b K)} (hP : prol I = some P) {a : List ℕ} {cv : ℕ} (ha : a ∈ I.aggs)
    (hcv : ∀ v, v ∈ a ↔ I.vmap v = some cv) (hg : ∀ v ∈ a, I.ghost v = false)
    (hext : ¬ ∃ v w e, v ∈ a ∧ (w, e) ∈ I.con v ∧ w ∉ a) (cvec : ℕ → Fin b → K) :
    I.ccon cv = [] ∧ ∀ v ∈ a, netFlow I.con I.flow (edgeVal P I.e2d cvec) v = 0 := by
  have hin : ∀ v w e, v ∈ a → (w, e) ∈ I.con v → w ∈ a := fun v w e hv hc => by
    by_contra hw
    exact hext ⟨v, w, e, hv, hc, hw⟩
  have hcc : I.ccon cv = [] := by
    cases hc : I.ccon cv with
    | nil => rfl
    | cons x t =>
      obtain ⟨v, w, e, h1, h2, h3⟩ := hI.cedge cv x.1 x.2 (by rw [hc]; exact List.mem_cons_self)
      have hv := (hcv v).2 h2
      have := hI.emapN v w e h1 (Or.inr (by rw [h2, (hcv w).1 (hin v w e hv h1)]))
      rw [h3] at this
      cases this
  refine ⟨hcc, fun v hv => ?_⟩
  obtain ⟨Q, Q', hs, _, _, _, h2⟩ := prol_split hI hP ha
  have hQ : Q = Q' := by
    have hnf : ((facets I a cv).filter fun x => !x.2).length = 0 := by
      rw [List.length_eq_zero_iff, List.filter_eq_nil_iff]
      rintro ⟨e, f⟩ hx
      obtain ⟨v, w, hv, hc, h | h⟩ := mem_facets.1 hx
      · rw [h.2.2, List.contains_iff_mem.2 ((hcv w).2 h.1)]
        simp
      · exact absurd ((hcv w).1 (hin v w e hv hc)) h.1
    have hne : a ≠ [] := List.ne_nil_of_mem hv
    obtain ⟨v0, t, rfl⟩ := List.exists_cons_of_ne_nil hne
    unfold aggStep at hs
    dsimp only at hs
    rw [if_neg (by rw [hg v0 List.mem_cons_self]; simp)] at hs
    split at hs
    · exact Option.some.inj hs
    · rw [(hcv v0).1 List.mem_cons_self] at hs
      dsimp only at hs
      rw [if_pos hnf] at hs
      exact Option.some.inj hs
  unfold netFlow
  refine List.sum_eq_zero fun z hz => ?_
  obtain ⟨x, hx, rfl⟩ := List.mem_map.1 hz
  have hw := hin v x.1 x.2 hv hx
  have hi : Interior I a x.2 := ⟨v, x.1, hv, hw, hx⟩
  obtain ⟨d, hd⟩ := Option.isSome_iff_exists.1 (hI.solid v x.1 x.2 (hg v hv) hx)
  obtain ⟨r1, r, r2, r3⟩ := h2 x.2 d hd hi
  have hN : I.emap x.2 = none := hI.emapN v x.1 x.2 hx (Or.inr (by rw [(hcv v).1 hv, (hcv x.1).1 hw]))
  obtain ⟨n, hn, rfl⟩ := r3.2 hN
  have hn0 : n = 0 := by
    unfold perow at hn
    rw [hN] at hn
    split at hn
    · exact (Option.some.inj hn).symm
    · dsimp only at hn
      rcases hI.ends _ _ _ hx with h | h <;>
        · rw [h.1, (hcv v).1 hv, (hcv x.1).1 hw, if_pos rfl, Option.map_some, hcc] at hn
          exact (Option.some.inj hn).symm
  subst hn0
  have he : ∀ l, edgeVal P I.e2d cvec x.2 l = 0 := by
    intro l
    unfold edgeVal
    rw [hd]
    dsimp only
    rw [show P.getD d [] = [] by rw [List.getD_eq_getElem?_getD, r1, ← hQ, r2]; rfl]
    rfl
  simp [he]

/-- **C101**: in an agglomerate whose vertices all have positive volume, and (if it has several vertices) an edge inside, the prolonged field has the
same divergence - net flow divided by volume - on all vertices: that of the coarse field on the coarse vertex. -/
theorem div_const {I : Inp b K} (hI : MeshOK I) {P : List (Row b K)} (hP : prol I = some P) {a : List ℕ} {cv : ℕ} (ha : a ∈ I.aggs)
    (hcv : ∀ v, v ∈ a ↔ I.vmap v = some cv) (hg : ∀ v ∈ a, I.ghost v = false) (hvol : ∀ v ∈ a, 0 < I.vol v)
    (hint : 2 ≤ a.length → ∃ v w e, v ∈ a ∧ w ∈ a ∧ (w, e) ∈ I.con v) (hflow : FlowOK I a cv) (cvec : ℕ → Fin b → K) {v : ℕ} (hv : v ∈ a) :
    netFlow I.con I.flow (edgeVal P I.e2d cvec) v * (a.map I.vol).sum = I.vol v * netFlow I.ccon I.cflow (onEdges I cvec) cv := by
  have hn := hI.nodup a ha
  have hsum := sum_netFlow hI hn hcv hflow (edgeVal P I.e2d cvec) (onEdges I cvec)
    fun v w e hv hc hw => exterior_val hI hP ha hcv hg cvec hv hc hw
  by_cases hlen : 2 ≤ a.length
  · by_cases hext : ∃ v w e, v ∈ a ∧ (w, e) ∈ I.con v ∧ w ∉ a
    · obtain ⟨v1, w1, e1, q1, q2, q3⟩ := hint hlen
      obtain ⟨Q, hu, hff, hY1, hY2⟩ := local_solve hI hP ha hcv hg hlen ⟨e1, v1, w1, q1, q2, q3⟩ hext cvec
      have hfn := facets_nodup hI hn hcv
      have hreal : real I a = a := List.filter_eq_self.2 fun x hx => by simpa using hvol x hx
      have hout : outflow I a = false := by
        unfold outflow
        rw [List.any_eq_false]
        intro x hx
        simpa using (hvol x hx).le
      have hlock : lockP I a = true := by
        unfold lockP
        rw [hout, hreal]
        exact (Bool.and_eq_true _ _).mpr ⟨rfl, decide_eq_true (by omega)⟩
      have hall : ∃ lam, ∀ x ∈ a, netFlow I.con I.flow (edgeVal P I.e2d cvec) x = -(I.vol x * lam) := by
        have hB1 : hB I a - 1 < hB I a := by
          unfold hB
          rw [hlock]
          simp
        refine ⟨∑ c, pext I Q a (facets I a cv) cv (.inr ⟨hB I a - 1, hB1⟩) c * onEdges I cvec ((I.ccon cv)[c.1]).2 c.2, fun x hx => ?_⟩
        obtain ⟨r, hr, hrx⟩ := List.getElem_of_mem hx
        have hr' : (real I a)[r]? = some x := by rw [hreal, List.getElem?_eq_getElem hr, hrx]
        obtain ⟨lam, l1, l2⟩ := core hI hfn hu (edgeVal P I.e2d cvec) (fun c => onEdges I cvec ((I.ccon cv)[c.1]).2 c.2) hY1 hY2 hr' (hff x hx)
        rw [l1 hlock ⟨hB I a - 1, hB1⟩ rfl] at l2
        have hbc : ∑ c : Crs I cv, matBc I a (facets I a cv) cv r ((I.ccon cv)[c.1]) c.2 * onEdges I cvec ((I.ccon cv)[c.1]).2 c.2 = 0 := by
          refine Finset.sum_eq_zero fun c _ => ?_
          unfold matBc cvinv
          rw [hr', hout, hlock]
          simp
        rw [hbc, if_pos hlock] at l2
        have hget : a.getD r 0 = x := by rw [List.getD_eq_getElem?_getD, List.getElem?_eq_getElem hr, hrx]; rfl
        unfold lockW at l2
        rw [hget, mul_assoc (scal I a (facets I a cv) * (1 / cvol I a)), ← mul_add] at l2
        have := (mul_eq_zero.1 l2).resolve_left (scal_ne hu hr')
        linear_combination this
      obtain ⟨lam, hlam⟩ := hall
      have e1 : (a.map fun v => netFlow I.con I.flow (edgeVal P I.e2d cvec) v).sum = -((a.map I.vol).sum * lam) := by
        rw [List.map_congr_left hlam, ← List.sum_map_mul_right]
        clear hsum hlam hff hY1 hY2 hu hlen hint hext hlock hout hreal hfn q1 q2 hflow hg hvol hn hcv ha hv
        induction a with
        | nil => simp
        | cons x t ih => simp only [List.map_cons, List.sum_cons, ih]; ring
      rw [← hsum, e1, hlam v hv]
      ring
    · obtain ⟨h1, h2⟩ := closed_zero hI hP ha hcv hg hext cvec
      rw [h2 v hv]
      unfold netFlow
      rw [h1]
      simp
  · obtain ⟨x, rfl⟩ : ∃ x, a = [x] := by
      match a, hv, hlen with
      | [x], _, _ => exact ⟨x, rfl⟩
      | _ :: _ :: _, _, h => simp at h
    obtain rfl : v = x := by simpa using hv
    rw [← hsum]
    simp [mul_comm]

/-- **C101**: a coarse field without divergence on a coarse vertex is prolonged to a field without divergence on the vertices of its agglomerate -/
theorem div_free [IsStrictOrderedRing K] {I : Inp b K} (hI : MeshOK I) {P : List (Row b K)} (hP : prol I = some P) {a : List ℕ} {cv : ℕ} (ha : a ∈ I.aggs)
    (hcv : ∀ v, v ∈ a ↔ I.vmap v = some cv) (hg : ∀ v ∈ a, I.ghost v = false) (hvol : ∀ v ∈ a, 0 < I.vol v)
    (hint : 2 ≤ a.length → ∃ v w e, v ∈ a ∧ w ∈ a ∧ (w, e) ∈ I.con v) (hflow : FlowOK I a cv) (cvec : ℕ → Fin b → K)
    (h0 : netFlow I.ccon I.cflow (onEdges I cvec) cv = 0) {v : ℕ} (hv : v ∈ a) : netFlow I.con I.flow (edgeVal P I.e2d cvec) v = 0 := by
  have h := div_const hI hP ha hcv hg hvol hint hflow cvec hv
  rw [h0, mul_zero] at h
  refine (mul_eq_zero.1 h).resolve_right (ne_of_gt (List.sum_pos _ (fun x hx => ?_) (by simpa using List.ne_nil_of_mem hv)))
  obtain ⟨y, hy, rfl⟩ := List.mem_map.1 hx
  exact hvol y hy

/-- **C101**: in an agglomerate with an outflow vertex (negative volume) and an edge inside, the prolonged field has no divergence on the vertices with
positive volume, whatever the coarse field is -/
theorem div_outflow {I : Inp b K} (hI : MeshOK I) {P : List (Row b K)} (hP : prol I = some P) {a : List ℕ} {cv : ℕ} (ha : a ∈ I.aggs)
    (hcv : ∀ v, v ∈ a ↔ I.vmap v = some cv) (hg : ∀ v ∈ a, I.ghost v = false) (hint : ∃ v w e, v ∈ a ∧ w ∈ a ∧ (w, e) ∈ I.con v)
    {o : ℕ} (ho : o ∈ a) (hov : I.vol o < 0) (cvec : ℕ → Fin b → K) {v : ℕ} (hv : v ∈ a) (hvol : 0 < I.vol v) :
    netFlow I.con I.flow (edgeVal P I.e2d cvec) v = 0 := by
  have hn := hI.nodup a ha
  by_cases hext : ∃ v w e, v ∈ a ∧ (w, e) ∈ I.con v ∧ w ∉ a
  · have hlen : 2 ≤ a.length := by
      by_contra h
      match a, hv, ho, h with
      | [x], h1, h2, _ =>
        obtain rfl : v = x := by simpa using h1
        obtain rfl : o = v := by simpa using h2
        exact absurd (hov.trans hvol) (lt_irrefl _)
      | _ :: _ :: _, _, _, h => simp at h
    obtain ⟨v1, w1, e1, q1, q2, q3⟩ := hint
    obtain ⟨Q, hu, hff, hY1, hY2⟩ := local_solve hI hP ha hcv hg hlen ⟨e1, v1, w1, q1, q2, q3⟩ hext cvec
    have hout : outflow I a = true := by
      unfold outflow
      rw [List.any_eq_true]
      exact ⟨o, ho, by simpa using hov⟩
    have hlock : lockP I a = false := by
      unfold lockP
      rw [hout]
      rfl
    have hvr : v ∈ real I a := List.mem_filter.2 ⟨hv, by simpa using hvol⟩
    obtain ⟨r, hr, hrx⟩ := List.getElem_of_mem hvr
    have hr' : (real I a)[r]? = some v := by rw [List.getElem?_eq_getElem hr, hrx]
    obtain ⟨lam, _, l2⟩ := core hI (facets_nodup hI hn hcv) hu (edgeVal P I.e2d cvec) (fun c => onEdges I cvec ((I.ccon cv)[c.1]).2 c.2) hY1 hY2 hr' (hff v hv)
    have hbc : ∑ c : Crs I cv, matBc I a (facets I a cv) cv r ((I.ccon cv)[c.1]) c.2 * onEdges I cvec ((I.ccon cv)[c.1]).2 c.2 = 0 := by
      refine Finset.sum_eq_zero fun c _ => ?_
      unfold matBc cvinv
      rw [hr', hout]
      simp
    rw [hbc, hlock] at l2
    simp only [Bool.false_eq_true, if_false, add_zero] at l2
    exact (mul_eq_zero.1 l2).resolve_left (scal_ne hu hr')
  · exact (closed_zero hI hP ha hcv hg hext cvec).2 v hv

end NgsAMG.NCProl
