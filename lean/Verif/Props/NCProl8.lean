import Verif.Props.NCProl7
import Mathlib.Tactic.IntervalCases

/-!
# Property C101, constants: constant fields are prolonged to constant fields
-/

namespace NgsAMG.NCProl
open NgsAMG.SparseMM NgsAMG.Spec
variable {K : Type} [Field K] [LinearOrder K] {b : ℕ}

theorem sum_pick {fs : List (ℕ × Bool)} (hn : (fs.map Prod.fst).Nodup) {e : ℕ} (he : e ∈ ffacets fs) (x : K) :
    (fs.map fun y => if (ffacets fs).idxOf y.1 = (ffacets fs).idxOf e then x else 0).sum = x := by
  have hiff : ∀ y ∈ fs, ((ffacets fs).idxOf y.1 = (ffacets fs).idxOf e) ↔ y.1 = e := fun y hy => by
    rw [List.idxOf_inj (mem_ffacets.2 (List.mem_map_of_mem hy))]
  rw [List.map_congr_left fun y hy => if_congr (hiff y hy) rfl rfl]
  rw [mem_ffacets] at he
  clear hiff
  induction fs with
  | nil => simp at he
  | cons y t ih =>
    rw [List.map_cons, List.nodup_cons] at hn
    rw [List.map_cons, List.mem_cons] at he
    rw [List.map_cons, List.sum_cons]
    by_cases hy : y.1 = e
    · have h0 : (t.map fun y => if y.1 = e then x else 0).sum = 0 := by
        refine List.sum_eq_zero fun z hz => ?_
        obtain ⟨w, hw, rfl⟩ := List.mem_map.1 hz
        rw [if_neg]
        intro h
        exact hn.1 (hy ▸ h ▸ List.mem_map_of_mem hw)
      rw [if_pos hy, h0, add_zero]
    · rw [if_neg hy, zero_add]
      exact ih hn.2 (he.resolve_left (Ne.symm hy))

theorem contribs_mem {I : Inp b K} {a : List ℕ} {c : (ℕ × ℕ × ℕ) × (ℕ × ℕ)} (hc : c ∈ contribs I a) :
    c.1.1 ∈ a ∧ (c.1.2.1, c.2.1) ∈ I.con c.1.1 ∧ (c.1.2.2, c.2.2) ∈ I.con c.1.1 := by
  unfold contribs at hc
  simp only [List.mem_flatMap, List.mem_map] at hc
  obtain ⟨v, hv, k, hk, j, hj, rfl⟩ := hc
  refine ⟨hv, List.mem_of_mem_take hj, ?_⟩
  exact List.mem_of_getElem? (List.mem_zipIdx_iff_getElem?.1 hk)

/-- the energy of a constant field vanishes -/
theorem energy_const {I : Inp b K} {a : List ℕ} {fs : List (ℕ × Bool)} (hn : (fs.map Prod.fst).Nodup)
    (hff : ∀ v ∈ a, ∀ x ∈ I.con v, x.2 ∈ ffacets fs) (hrm : ∀ vi vj vk i, I.rm vi vj vk i 0 + I.rm vi vj vk i 1 = 0) (cst : Fin b → K) (p : ℕ × Fin b) :
    (∑ i : Fin (ffiinds fs).length, ∑ l, matA I a (ffacets fs) p ((ffiinds fs)[i], l) * cst l) +
      ∑ i : Fin (fffinds fs).length, ∑ l, matA I a (ffacets fs) p ((fffinds fs)[i], l) * cst l = 0 := by
  rw [sum_both fs fun q => ∑ l, matA I a (ffacets fs) p (q, l) * cst l]
  have e1 : ∀ q, ∑ l, matA I a (ffacets fs) p (q, l) * cst l = ((contribs I a).map fun c => ∑ l, addA I (ffacets fs) c p (q, l) * cst l).sum := by
    intro q
    unfold matA
    induction contribs I a with
    | nil => simp
    | cons c t ih => simp only [List.map_cons, List.sum_cons, add_mul, Finset.sum_add_distrib, ih]
  rw [List.map_congr_left fun x _ => e1 _, list_sum_comm]
  refine List.sum_eq_zero fun z hz => ?_
  obtain ⟨c, hc, rfl⟩ := List.mem_map.1 hz
  obtain ⟨m1, m2, m3⟩ := contribs_mem hc
  unfold addA
  by_cases hv : I.vmap c.1.2.1 ≠ none ∧ I.vmap c.1.2.2 ≠ none
  · simp only [if_pos hv]
    have e2 : ∀ x : ℕ × Bool, (∑ l, (∑ i, ∑ j, if p.1 = posOf (ffacets fs) c.2.1 c.2.2 i ∧ (ffacets fs).idxOf x.1 = posOf (ffacets fs) c.2.1 c.2.2 j then
        I.rm c.1.1 c.1.2.1 c.1.2.2 i j p.2 l else 0) * cst l) =
        (if (ffacets fs).idxOf x.1 = (ffacets fs).idxOf c.2.1 then
          ∑ l, (∑ i, if p.1 = posOf (ffacets fs) c.2.1 c.2.2 i then I.rm c.1.1 c.1.2.1 c.1.2.2 i 0 p.2 l else 0) * cst l else 0) +
        (if (ffacets fs).idxOf x.1 = (ffacets fs).idxOf c.2.2 then
          ∑ l, (∑ i, if p.1 = posOf (ffacets fs) c.2.1 c.2.2 i then I.rm c.1.1 c.1.2.1 c.1.2.2 i 1 p.2 l else 0) * cst l else 0) := by
      intro x
      simp only [Fin.sum_univ_two]
      have p0 : posOf (ffacets fs) c.2.1 c.2.2 0 = (ffacets fs).idxOf c.2.1 := rfl
      have p1 : posOf (ffacets fs) c.2.1 c.2.2 1 = (ffacets fs).idxOf c.2.2 := rfl
      rw [p0, p1]
      generalize (ffacets fs).idxOf x.1 = s0
      generalize (ffacets fs).idxOf c.2.1 = s1
      generalize (ffacets fs).idxOf c.2.2 = s2
      have k : ∀ s : ℕ, (s0 = s) = True ∨ (s0 = s) = False := fun s => Classical.propComplete _
      rcases k s1 with h1 | h1 <;> rcases k s2 with h2 | h2 <;>
        simp only [h1, h2, and_true, and_false, if_true, if_false, add_zero, zero_add, zero_mul, Finset.sum_const_zero]
      rw [← Finset.sum_add_distrib]
      refine Finset.sum_congr rfl fun l _ => ?_
      ring
    simp only [e2]
    rw [List.sum_map_add, sum_pick hn (hff _ m1 _ m2), sum_pick hn (hff _ m1 _ m3), ← Finset.sum_add_distrib]
    refine Finset.sum_eq_zero fun l _ => ?_
    rw [← add_mul, ← Finset.sum_add_distrib]
    have : ∀ i, I.rm c.1.1 c.1.2.1 c.1.2.2 i 0 p.2 l + I.rm c.1.1 c.1.2.1 c.1.2.2 i 1 p.2 l = 0 := fun i =>
      congrFun (congrFun (hrm c.1.1 c.1.2.1 c.1.2.2 i) p.2) l
    rw [Finset.sum_eq_zero, zero_mul]
    intro i _
    split
    · exact this i
    · exact add_zero 0
  · simp [if_neg hv]

/-- the constant pressure has no gradient inside the agglomerate -/
theorem bf_column {I : Inp b K} (hI : MeshOK I) {a : List ℕ} (hn : a.Nodup) {ff : List ℕ}
    (hff : ∀ v ∈ a, ∀ x ∈ I.con v, x.2 ∈ ff) {e : ℕ} (he : Interior I a e) (l : Fin b) :
    (a.map fun v => bfRow I ff v (ff.idxOf e, l)).sum = 0 := by
  rw [← interior_cancel hI hn fun e' => if e' = e then I.flow e l else 0]
  congr 1
  refine List.map_congr_left fun v hv => ?_
  by_cases h : e ∈ (I.con v).map Prod.snd
  · obtain ⟨⟨w, e'⟩, h1, rfl⟩ := List.mem_map.1 h
    rw [bfRow_in hI (hff v hv) h1]
    have hw : w ∈ a := by
      by_contra hw
      obtain ⟨v', w', q1, q2, q3⟩ := he
      rcases hI.ends _ _ _ h1 with p | p <;> rcases hI.ends _ _ _ q3 with q | q <;>
        · have hh := p.1.symm.trans q.1
          simp only [Prod.mk.injEq] at hh
          obtain ⟨rfl, rfl⟩ := hh
          first | exact hw q2 | exact hw q1
    have key : ∀ y ∈ I.con v, (if y.1 ∈ a then sgn v y.1 * (if y.2 = e' then I.flow e' l else 0) else 0) = if y = (w, e') then sgn v w * I.flow e' l else (0 : K) := by
      rintro ⟨w2, e2⟩ hy
      by_cases h2 : e2 = e'
      · subst h2
        have : ((w2, e2) : ℕ × ℕ) = (w, e2) := List.inj_on_of_nodup_map (hI.once v) hy h1 rfl
        rw [if_pos this]
        obtain rfl : w2 = w := congrArg Prod.fst this
        dsimp only
        rw [if_pos hw, if_pos rfl]
      · dsimp only
        rw [if_neg h2, if_neg fun hh : ((w2, e2) : ℕ × ℕ) = (w, e') => h2 (congrArg Prod.snd hh), mul_zero, ite_self]
    rw [List.map_congr_left key, sum_list_fin (List.Nodup.of_map _ (hI.once v))]
    simp [h1]
  · rw [bfRow_out (hff v hv) h]
    symm
    refine List.sum_eq_zero fun z hz => ?_
    obtain ⟨y, hy, rfl⟩ := List.mem_map.1 hz
    have : y.2 ≠ e := fun hh => h (hh ▸ List.mem_map_of_mem hy)
    simp [this]

theorem sum_getD (g : ℕ → K) : ∀ a : List ℕ, ∑ r ∈ Finset.range a.length, g (a.getD r 0) = (a.map g).sum := by
  intro a
  induction a with
  | nil => simp
  | cons x t ih =>
    rw [List.length_cons, Finset.sum_range_succ', List.map_cons, List.sum_cons, ← ih, add_comm]
    rfl

/-- **C101**: if all neighbours of the agglomerate are in agglomerates, the energy blocks vanish for constants, constant fields have no net flow out of
the vertices, and volumes are positive, a constant coarse field is prolonged to the same constant on the edges inside the agglomerate -/
theorem const_interior {I : Inp b K} (hI : MeshOK I) {P : List (Row b K)} (hP : prol I = some P) {a : List ℕ} {cv : ℕ} (ha : a ∈ I.aggs)
    (hcv : ∀ v, v ∈ a ↔ I.vmap v = some cv) (hg : ∀ v ∈ a, I.ghost v = false) (hvol : ∀ v ∈ a, 0 < I.vol v)
    (hext : ∃ v w e, v ∈ a ∧ (w, e) ∈ I.con v ∧ w ∉ a) (hnb : ∀ v ∈ a, ∀ w e, (w, e) ∈ I.con v → I.vmap w ≠ none)
    (hrm : ∀ vi vj vk i, I.rm vi vj vk i 0 + I.rm vi vj vk i 1 = 0) (cst : Fin b → K)
    (hdiv : ∀ v ∈ a, netFlow I.con I.flow (fun _ => cst) v = 0) {e : ℕ} (he : Interior I a e) :
    edgeVal P I.e2d (fun _ => cst) e = cst := by
  have hn := hI.nodup a ha
  have hlen : 2 ≤ a.length := by
    obtain ⟨v, w, q1, q2, q3⟩ := he
    have hne : v ≠ w := by rcases hI.ends _ _ _ q3 with h | h <;> omega
    match a, q1, q2 with
    | [x], h1, h2 =>
      rw [List.mem_singleton] at h1 h2
      exact absurd (h1.trans h2.symm) hne
    | _ :: _ :: _, _, _ => simp
  obtain ⟨Q, hu, hff, hY1, hY2⟩ := local_solve hI hP ha hcv hg hlen ⟨e, he⟩ hext (fun _ => cst)
  have hfn := facets_nodup hI hn hcv
  have hreal : real I a = a := List.filter_eq_self.2 fun x hx => by simpa using hvol x hx
  have hout : outflow I a = false := by
    unfold outflow
    rw [List.any_eq_false]
    intro x hx
    simpa using (hvol x hx).le
  have hlock : lockP I a = true := by
    unfold lockP
    rw [hout, hreal]
    exact (Bool.and_eq_true _ _).mpr ⟨rfl, decide_eq_true (by omega)⟩
  have hBv : hB I a = a.length + 1 := by
    unfold hB
    rw [hlock, hreal]
    rfl
  obtain ⟨k, hk⟩ := exists_ffi (facet_of_interior hI hcv he)
  have hem : e ∈ ffacets (facets I a cv) := mem_ffacets.2 (List.mem_map_of_mem (facet_of_interior hI hcv he))
  have hke : (ffacets (facets I a cv)).getD ((ffiinds (facets I a cv))[k]) 0 = e := by rw [hk, getD_idxOf hem]
  -- the values on the edges that leave the agglomerate
  have hPf : ∀ (f : Fin (fffinds (facets I a cv)).length) (m : Fin b),
      ∑ c : Crs I cv, matPf I Q cv (facets I a cv) ((fffinds (facets I a cv))[f], m) c * onEdges I (fun _ => cst) ((I.ccon cv)[c.1]).2 c.2 = cst m := by
    intro f m
    rw [← hY2]
    have hf : (fffinds (facets I a cv))[f] ∈ fffinds (facets I a cv) := List.getElem_mem _
    unfold fffinds at hf
    rw [List.mem_insertionSort, List.mem_map] at hf
    obtain ⟨x, hx, hx2⟩ := hf
    rw [List.mem_filter] at hx
    have hk' : (ffacets (facets I a cv)).getD ((fffinds (facets I a cv))[f]) 0 = x.1 := by
      rw [show (fffinds (facets I a cv))[f] = (ffacets (facets I a cv)).idxOf x.1 from hx2.symm, getD_idxOf (mem_ffacets.2 (List.mem_map_of_mem hx.1))]
    rw [hk']
    have hx' : (x.1, false) ∈ facets I a cv := by
      have : x = (x.1, false) := Prod.ext rfl (by simpa using hx.2)
      rw [← this]
      exact hx.1
    obtain ⟨v, w, hv, hc, hh⟩ := mem_facets.1 hx'
    have hw : I.vmap w ≠ some cv := by
      rcases hh with hh | hh
      · have h3 := hh.2.2
        rw [List.contains_iff_mem.2 ((hcv w).2 hh.1)] at h3
        cases h3
      · exact hh.1
    rw [exterior_val hI hP ha hcv hg (fun _ => cst) hv hc fun h => hw ((hcv w).1 h)]
    obtain ⟨D, hD⟩ := Option.ne_none_iff_exists'.1 (hnb v hv w x.1 hc)
    obtain ⟨E, hE, _⟩ := hI.emap v w x.1 cv D hc ((hcv v).1 hv) hD (fun h => hw (h ▸ hD))
    rw [hE]
    rfl
  -- the solution: the constant, and a constant pressure
  let u : Crs I cv → K := fun c => onEdges I (fun _ => cst) ((I.ccon cv)[c.1]).2 c.2
  let mu : K := ∑ c, u c
  let zr : ℕ → K := fun r => if r < a.length then mu else 0
  let z : Unk I a (facets I a cv) → K := fun p => match p with
    | .inl q => cst q.2
    | .inr r => zr r
  have hBr : ∀ r v, a[r]? = some v → ∀ p, matB I a (facets I a cv) r p = scal I a (facets I a cv) * (1 / cvol I a) * bfRow I (ffacets (facets I a cv)) v p := by
    intro r v hr p
    unfold matB
    rw [hreal, hr]
  have hB0 : ∀ p, matB I a (facets I a cv) a.length p = 0 := by
    intro p
    unfold matB
    rw [hreal, List.getElem?_eq_none (le_refl _)]
  have hsys : ∀ p, ∑ c, rhs I Q a (facets I a cv) cv p c * u c = ∑ q, matM I a (facets I a cv) p q * z q := by
    intro p
    rw [Fintype.sum_sum_type]
    cases p with
    | inl i =>
      have e1 : ∑ c, rhs I Q a (facets I a cv) cv (.inl i) c * u c =
          -∑ f : Fin (fffinds (facets I a cv)).length, ∑ m, matA I a (ffacets (facets I a cv)) ((ffiinds (facets I a cv))[i.1], i.2) ((fffinds (facets I a cv))[f], m) * cst m := by
        have h := swap_sum (fun (f : Fin (fffinds (facets I a cv)).length) m => matA I a (ffacets (facets I a cv)) ((ffiinds (facets I a cv))[i.1], i.2) ((fffinds (facets I a cv))[f], m))
          (fun f m c => matPf I Q cv (facets I a cv) ((fffinds (facets I a cv))[f], m) c) u
        rw [Finset.sum_congr rfl fun f _ => Finset.sum_congr rfl fun m _ => congrArg _ (hPf f m)] at h
        rw [h, ← Finset.sum_neg_distrib]
        exact Finset.sum_congr rfl fun c _ => by rw [← neg_mul]; rfl
      have e2 : ∑ q : Fin (ffiinds (facets I a cv)).length × Fin b, matM I a (facets I a cv) (.inl i) (.inl q) * z (.inl q) =
          ∑ j : Fin (ffiinds (facets I a cv)).length, ∑ m, matA I a (ffacets (facets I a cv)) ((ffiinds (facets I a cv))[i.1], i.2) ((ffiinds (facets I a cv))[j], m) * cst m :=
        Fintype.sum_prod_type _
      have e3 : ∑ r : Fin (hB I a), matM I a (facets I a cv) (.inl i) (.inr r) * z (.inr r) = 0 := by
        have : ∀ r : Fin (hB I a), matM I a (facets I a cv) (.inl i) (.inr r) * z (.inr r) =
            (fun r : ℕ => matB I a (facets I a cv) r ((ffiinds (facets I a cv))[i.1], i.2) * zr r) r := fun _ => rfl
        rw [Finset.sum_congr rfl fun r _ => this r, Fin.sum_univ_eq_sum_range (fun r : ℕ => matB I a (facets I a cv) r ((ffiinds (facets I a cv))[i.1], i.2) * zr r),
          hBv, Finset.sum_range_succ, hB0, zero_mul, add_zero]
        have hi : Interior I a ((ffacets (facets I a cv)).getD ((ffiinds (facets I a cv))[i.1]) 0) := interior_of_facet (cv := cv) ffi_edges
        have hpos : (ffacets (facets I a cv)).idxOf ((ffacets (facets I a cv)).getD ((ffiinds (facets I a cv))[i.1]) 0) = (ffiinds (facets I a cv))[i.1] := by
          have hm : (ffiinds (facets I a cv))[i.1] ∈ ffiinds (facets I a cv) := List.getElem_mem _
          unfold ffiinds at hm
          rw [List.mem_insertionSort, List.mem_map] at hm
          obtain ⟨x, hx, hx2⟩ := hm
          rw [show (ffiinds (facets I a cv))[i.1] = (ffacets (facets I a cv)).idxOf x.1 from hx2.symm,
            getD_idxOf (mem_ffacets.2 (List.mem_map_of_mem (List.mem_filter.1 hx).1))]
        have hcol := bf_column hI hn hff hi i.2
        rw [hpos] at hcol
        have : ∀ r ∈ Finset.range a.length, matB I a (facets I a cv) r ((ffiinds (facets I a cv))[i.1], i.2) * zr r =
            (scal I a (facets I a cv) * (1 / cvol I a) * mu) * bfRow I (ffacets (facets I a cv)) (a.getD r 0) ((ffiinds (facets I a cv))[i.1], i.2) := by
          intro r hr
          rw [Finset.mem_range] at hr
          rw [hBr r (a.getD r 0) (by rw [List.getD_eq_getElem?_getD, List.getElem?_eq_getElem hr]; rfl)]
          show _ * (if r < a.length then mu else 0) = _
          rw [if_pos hr]
          ring
        rw [Finset.sum_congr rfl this, ← Finset.mul_sum, sum_getD (fun v => bfRow I (ffacets (facets I a cv)) v ((ffiinds (facets I a cv))[i.1], i.2)), hcol, mul_zero]
      rw [e1, e3, add_zero]
      refine Eq.trans ?_ e2.symm
      have := energy_const hfn hff hrm cst ((ffiinds (facets I a cv))[i.1], i.2)
      linear_combination -this
    | inr r0 =>
      obtain ⟨r, hrB⟩ := r0
      have e2 : ∑ q : Fin (ffiinds (facets I a cv)).length × Fin b, matM I a (facets I a cv) (.inr ⟨r, hrB⟩) (.inl q) * z (.inl q) =
          ∑ j : Fin (ffiinds (facets I a cv)).length, ∑ m, matB I a (facets I a cv) r ((ffiinds (facets I a cv))[j], m) * cst m :=
        Fintype.sum_prod_type _
      have hr : r < a.length + 1 := lt_of_lt_of_eq hrB hBv
      have e3 : ∑ r' : Fin (hB I a), matM I a (facets I a cv) (.inr ⟨r, hrB⟩) (.inr r') * z (.inr r') =
          (∑ r' ∈ Finset.range a.length, matLock I a (facets I a cv) r r' * mu) := by
        have : ∀ r' : Fin (hB I a), matM I a (facets I a cv) (.inr ⟨r, hrB⟩) (.inr r') * z (.inr r') =
            (fun r' : ℕ => matLock I a (facets I a cv) r r' * zr r') r' := fun _ => rfl
        rw [Finset.sum_congr rfl fun r _ => this r, Fin.sum_univ_eq_sum_range (fun r' : ℕ => matLock I a (facets I a cv) r r' * zr r'), hBv, Finset.sum_range_succ]
        rw [show zr a.length = 0 from if_neg (lt_irrefl _), mul_zero, add_zero]
        refine Finset.sum_congr rfl fun r' hr' => ?_
        rw [show zr r' = mu from if_pos (Finset.mem_range.1 hr')]
      rw [e3]
      by_cases hl : r = a.length
      · -- the constant pressure
        have e1 : ∀ c, rhs I Q a (facets I a cv) cv (.inr ⟨r, hrB⟩) c = scal I a (facets I a cv) * (1 / cvol I a) * cvol I a := by
          intro c
          unfold rhs
          dsimp only
          have hh : r = hB I a - 1 := by omega
          rw [if_pos (show (lockP I a && decide (r = hB I a - 1)) = true by rw [hlock, Bool.true_and]; exact decide_eq_true hh)]
        have e4 : ∀ r' ∈ Finset.range a.length, matLock I a (facets I a cv) r r' * mu = scal I a (facets I a cv) * (1 / cvol I a) * mu * I.vol (a.getD r' 0) := by
          intro r' hr'
          rw [Finset.mem_range] at hr'
          unfold matLock
          rw [hlock, hBv]
          simp only [Bool.not_true, Bool.false_eq_true, if_false]
          rw [if_pos ⟨by omega, by omega⟩]
          unfold lockW
          ring
        rw [Finset.sum_congr rfl fun c _ => congrArg (· * u c) (e1 c), Finset.sum_congr rfl e4, ← Finset.mul_sum, ← Finset.mul_sum, sum_getD I.vol]
        have e5 : ∑ q : Fin (ffiinds (facets I a cv)).length × Fin b, matM I a (facets I a cv) (.inr ⟨r, hrB⟩) (.inl q) * z (.inl q) = 0 := by
          refine e2.trans (Finset.sum_eq_zero fun j _ => Finset.sum_eq_zero fun m _ => ?_)
          rw [hl, hB0, zero_mul]
        refine Eq.trans ?_ (congrArg (· + _) e5.symm)
        have e6 : cvol I a = (a.map I.vol).sum := by
          unfold cvol
          rw [hreal]
        rw [← e6]
        show _ * mu = _
        ring
      · -- the divergence
        have hr' : r < a.length := by omega
        have e4 : ∑ r' ∈ Finset.range a.length, matLock I a (facets I a cv) r r' * mu = 0 := by
          refine Finset.sum_eq_zero fun r' h' => ?_
          rw [Finset.mem_range] at h'
          unfold matLock
          rw [hlock, hBv]
          simp only [Bool.not_true, Bool.false_eq_true, if_false]
          rw [if_neg (by omega), if_neg (by omega), zero_mul]
        have hget : a[r]? = some (a.getD r 0) := by rw [List.getD_eq_getElem?_getD, List.getElem?_eq_getElem hr']; rfl
        have e1 : ∑ c, rhs I Q a (facets I a cv) cv (.inr ⟨r, hrB⟩) c * u c =
            -∑ f : Fin (fffinds (facets I a cv)).length, ∑ m, matB I a (facets I a cv) r ((fffinds (facets I a cv))[f], m) * cst m := by
          have h := swap_sum (fun (f : Fin (fffinds (facets I a cv)).length) m => matB I a (facets I a cv) r ((fffinds (facets I a cv))[f], m))
            (fun f m c => matPf I Q cv (facets I a cv) ((fffinds (facets I a cv))[f], m) c) u
          rw [Finset.sum_congr rfl fun f _ => Finset.sum_congr rfl fun m _ => congrArg _ (hPf f m)] at h
          rw [h, ← Finset.sum_neg_distrib]
          refine Finset.sum_congr rfl fun c _ => ?_
          rw [← neg_mul]
          congr 1
          unfold rhs
          dsimp only
          have hh : ¬ r = hB I a - 1 := by omega
          rw [if_neg (show ¬ (lockP I a && decide (r = hB I a - 1)) = true by rw [hlock, Bool.true_and, decide_eq_false hh]; simp)]
          have : matBc I a (facets I a cv) cv r ((I.ccon cv)[c.1]) c.2 = 0 := by
            unfold matBc cvinv
            rw [hreal, hget, hout, hlock]
            simp
          rw [this, add_zero]
        rw [e1, e4, add_zero]
        refine Eq.trans ?_ e2.symm
        have hd := bf_netFlow hI hfn (hff (a.getD r 0) (List.mem_of_getElem? hget)) (fun _ => cst)
        rw [hdiv _ (List.mem_of_getElem? hget)] at hd
        simp only [hBr r _ hget, mul_assoc (scal I a (facets I a cv) * (1 / cvol I a)), ← Finset.mul_sum]
        linear_combination -(scal I a (facets I a cv) * (1 / cvol I a)) * hd
  have hsol : (pext I Q a (facets I a cv) cv).mulVec u = z := by
    have h : (rhs I Q a (facets I a cv) cv).mulVec u = (matM I a (facets I a cv)).mulVec z := funext fun p => hsys p
    unfold pext
    rw [← Matrix.mulVec_mulVec, h, Matrix.mulVec_mulVec, Matrix.nonsing_inv_mul _ hu, Matrix.one_mulVec]
  funext l
  have := hY1 k l
  rw [hke] at this
  rw [this]
  exact congrFun hsol (.inl (k, l))

/-- **C101**: under the same conditions the constant field is preserved on all edges of the vertices of the agglomerate -/
theorem const_preserved {I : Inp b K} (hI : MeshOK I) {P : List (Row b K)} (hP : prol I = some P) {a : List ℕ} {cv : ℕ} (ha : a ∈ I.aggs)
    (hcv : ∀ v, v ∈ a ↔ I.vmap v = some cv) (hg : ∀ v ∈ a, I.ghost v = false) (hvol : ∀ v ∈ a, 0 < I.vol v)
    (hext : ∃ v w e, v ∈ a ∧ (w, e) ∈ I.con v ∧ w ∉ a) (hnb : ∀ v ∈ a, ∀ w e, (w, e) ∈ I.con v → I.vmap w ≠ none)
    (hrm : ∀ vi vj vk i, I.rm vi vj vk i 0 + I.rm vi vj vk i 1 = 0) (cst : Fin b → K)
    (hdiv : ∀ v ∈ a, netFlow I.con I.flow (fun _ => cst) v = 0) {v w e : ℕ} (hv : v ∈ a) (hc : (w, e) ∈ I.con v) :
    edgeVal P I.e2d (fun _ => cst) e = cst := by
  by_cases hw : w ∈ a
  · exact const_interior hI hP ha hcv hg hvol hext hnb hrm cst hdiv ⟨v, w, hv, hw, hc⟩
  · rw [exterior_val hI hP ha hcv hg (fun _ => cst) hv hc hw]
    obtain ⟨D, hD⟩ := Option.ne_none_iff_exists'.1 (hnb v hv w e hc)
    obtain ⟨E, hE, _⟩ := hI.emap v w e cv D hc ((hcv v).1 hv) hD (fun h => hw ((hcv w).2 (h ▸ hD)))
    rw [hE]
    rfl

/-! ### a concrete mesh -/

/-- vertices in the order 2, 0, 1, 3; vertices 0 and 1 in one agglomerate; the flow is one from 2 to 3 -/
def ex5 : Inp 1 ℚ where
  con v := match v with
    | 0 => [(1, 0), (2, 1)]
    | 1 => [(0, 0), (3, 2)]
    | 2 => [(0, 1)]
    | 3 => [(1, 2)]
    | _ => []
  edge e := match e with
    | 0 => (0, 1)
    | 1 => (0, 2)
    | _ => (1, 3)
  vol v := if v = 1 then 2 else 1
  flow e _ := if e = 1 then -1 else 1
  d2e := [0, 1, 2]
  e2d e := if e < 3 then some e else none
  free _ := true
  ghost _ := false
  vmap v := if v < 2 then some 0 else if v < 4 then some (v - 1) else none
  emap e := if e = 1 then some 0 else if e = 2 then some 1 else none
  aggs := [[0, 1], [2], [3]]
  ccon C := match C with
    | 0 => [(1, 0), (2, 1)]
    | 1 => [(0, 0)]
    | 2 => [(0, 1)]
    | _ => []
  cflow E _ := if E = 0 then -1 else 1
  ce2d E := if E < 2 then some E else none
  rm _ _ _ i j _ _ := if i = j then 1 else -1
  norm x := |x 0|
  junk := (0, 0)

theorem ex5_con {v w e : ℕ} (h : (w, e) ∈ ex5.con v) : (v, w, e) ∈ [(0, 1, 0), (0, 2, 1), (1, 0, 0), (1, 3, 2), (2, 0, 1), (3, 1, 2)] := by
  unfold ex5 at h
  dsimp only at h
  split at h <;> simp_all

theorem ex5_ccon {C D E : ℕ} (h : (D, E) ∈ ex5.ccon C) : (C, D, E) ∈ [(0, 1, 0), (0, 2, 1), (1, 0, 0), (2, 0, 1)] := by
  unfold ex5 at h
  dsimp only at h
  split at h <;> simp_all

theorem ex5_vmap {v C : ℕ} : ex5.vmap v = some C ↔ (v < 2 ∧ C = 0) ∨ (2 ≤ v ∧ v < 4 ∧ C = v - 1) := by
  unfold ex5
  dsimp only
  split_ifs <;> simp <;> omega

theorem ex5_agg (v : ℕ) : v ∈ [0, 1] ↔ ex5.vmap v = some 0 := by
  rw [ex5_vmap]
  have h1 : v ∈ [0, 1] ↔ v = 0 ∨ v = 1 := by simp
  rw [h1]
  constructor
  · intro h
    exact Or.inl ⟨by omega, rfl⟩
  · rintro (h | h)
    · obtain ⟨h, _⟩ := h
      omega
    · omega

theorem forall_list {α : Type} {l : List α} {p : α → Prop} (h : ∀ x ∈ l, p x) {x : α} (hx : x ∈ l) : p x := h x hx

theorem ex5_ok : MeshOK ex5 where
  dofs := by
    intro d e
    unfold ex5
    dsimp only
    constructor
    · intro h
      rcases d with _ | _ | _ | d <;> simp at h <;> subst h <;> rfl
    · intro h
      split_ifs at h with h3
      obtain rfl := Option.some.inj h
      interval_cases e <;> rfl
  ends := by
    intro v w e h
    exact forall_list (p := fun x : ℕ × ℕ × ℕ => (ex5.edge x.2.2 = (x.1, x.2.1) ∧ x.1 < x.2.1) ∨ (ex5.edge x.2.2 = (x.2.1, x.1) ∧ x.2.1 < x.1))
      (by decide +kernel) (ex5_con h)
  symm := by
    intro v w e h
    exact forall_list (p := fun x : ℕ × ℕ × ℕ => (x.1, x.2.2) ∈ ex5.con x.2.1) (by decide +kernel) (ex5_con h)
  once := by
    intro v
    unfold ex5
    dsimp only
    split <;> decide
  solid := by
    intro v w e _ h
    exact forall_list (p := fun x : ℕ × ℕ × ℕ => (ex5.e2d x.2.2).isSome) (by decide +kernel) (ex5_con h)
  agg := by
    intro a ha
    have ha : a ∈ [[0, 1], [2], [3]] := ha
    simp only [List.mem_cons, List.not_mem_nil, or_false] at ha
    rcases ha with rfl | rfl | rfl
    · exact ⟨0, ex5_agg⟩
    · exact ⟨1, fun v => by rw [ex5_vmap]; simp only [List.mem_cons, List.not_mem_nil, or_false]; omega⟩
    · exact ⟨2, fun v => by rw [ex5_vmap]; simp only [List.mem_cons, List.not_mem_nil, or_false]; omega⟩
  nodup := by
    intro a ha
    exact forall_list (p := fun a : List ℕ => a.Nodup) (by decide +kernel) ha
  disj := by
    show [[0, 1], [2], [3]].Pairwise List.Disjoint
    simp [List.Disjoint]
  emap := by
    intro v w e C D hc hv hw hne
    have := forall_list (p := fun x : ℕ × ℕ × ℕ => ex5.vmap x.1 ≠ ex5.vmap x.2.1 →
      ∃ E ∈ [0, 1], ex5.emap x.2.2 = some E ∧ ((ex5.vmap x.2.1).getD 0, E) ∈ ex5.ccon ((ex5.vmap x.1).getD 0)) (by decide +kernel) (ex5_con hc)
    dsimp only at this
    rw [hv, hw] at this
    obtain ⟨E, _, h1, h2⟩ := this (fun h => hne (Option.some.inj h))
    exact ⟨E, h1, h2⟩
  emapN := by
    intro v w e hc h
    exact forall_list (p := fun x : ℕ × ℕ × ℕ => ex5.vmap x.1 = none ∨ ex5.vmap x.1 = ex5.vmap x.2.1 → ex5.emap x.2.2 = none) (by decide +kernel) (ex5_con hc) h
  cedge := by
    intro C D E h
    have := ex5_ccon h
    simp only [List.mem_cons, Prod.mk.injEq, List.not_mem_nil, or_false] at this
    rcases this with ⟨rfl, rfl, rfl⟩ | ⟨rfl, rfl, rfl⟩ | ⟨rfl, rfl, rfl⟩ | ⟨rfl, rfl, rfl⟩
    · exact ⟨0, 2, 1, by decide +kernel, by decide +kernel, by decide +kernel⟩
    · exact ⟨1, 3, 2, by decide +kernel, by decide +kernel, by decide +kernel⟩
    · exact ⟨2, 0, 1, by decide +kernel, by decide +kernel, by decide +kernel⟩
    · exact ⟨3, 1, 2, by decide +kernel, by decide +kernel, by decide +kernel⟩
  conce := by
    intro v
    unfold ex5
    dsimp only
    split <;> decide
  cinj := by
    intro C x y d _ _ hx hy
    unfold ex5 at hx hy
    dsimp only at hx hy
    split_ifs at hx hy
    rw [Option.some.inj hx, Option.some.inj hy]

theorem ex5_unit : IsUnit (matM ex5 [0, 1] (facets ex5 [0, 1] 0)).det :=
  unit_of_tab [[0, 3/2, -3/4, 0], [3/2, -9/2, 9/4, 3/4], [-3/4, 9/4, -9/8, 3/4], [0, 3/4, 3/4, 0]] (by decide +kernel)

theorem ex5_run : RunOK ex5 where
  ghosts := fun _ _ _ _ _ _ => rfl
  diri := fun _ _ h => by cases h
  weird := by
    intro e he _
    exact forall_list (p := fun e => ex5.vmap (ex5.edge e).1 ≠ none ∨ ex5.vmap (ex5.edge e).2 ≠ none) (by decide +kernel) he
  cdof := by
    intro e he E h
    have := forall_list (p := fun e => (ex5.emap e).all fun E => (ex5.ce2d E).isSome) (by decide +kernel) he
    rw [h] at this
    intro h0
    rw [Option.all_some, h0] at this
    cases this
  unit := by
    intro a ha cv hcv _ hlen _ _
    have ha : a ∈ [[0, 1], [2], [3]] := ha
    simp only [List.mem_cons, List.not_mem_nil, or_false] at ha
    rcases ha with rfl | rfl | rfl
    · have h0 : ex5.vmap 0 = some cv := (hcv 0).1 (by decide)
      obtain rfl : cv = 0 := by
        rw [ex5_vmap] at h0
        omega
      exact ex5_unit
    · simp at hlen
    · simp at hlen

/-- the hypotheses of `const_preserved` hold for a concrete mesh: the constant 7 is preserved on the edge inside -/
example : ∃ P, prol ex5 = some P ∧ edgeVal P ex5.e2d (fun _ _ => 7) 0 = fun _ => 7 := by
  obtain ⟨P, hP⟩ := prol_total ex5_ok ex5_run
  refine ⟨P, hP, const_preserved ex5_ok hP (a := [0, 1]) (cv := 0) List.mem_cons_self ex5_agg (fun _ _ => rfl) (by decide +kernel)
    ⟨0, 2, 1, by decide, by decide +kernel, by decide⟩ ?_ ?_ (fun _ => 7) (by decide +kernel) (v := 0) (w := 1) (by decide) (by decide +kernel)⟩
  · intro v _ w e h
    exact forall_list (p := fun x : ℕ × ℕ × ℕ => ex5.vmap x.2.1 ≠ none) (by decide +kernel) (ex5_con h)
  · intro vi vj vk i
    funext p q
    revert i p q
    show ∀ (i : Fin 2) (p q : Fin 1), (if i = 0 then (1 : ℚ) else -1) + (if i = 1 then 1 else -1) = 0
    decide +kernel

end NgsAMG.NCProl
