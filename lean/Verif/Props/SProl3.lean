import Verif.Props.SProl2

/-! C67: rows of the smoothing matrix, the product with the piecewise prolongation. C68: preserved vectors. -/

namespace NgsAMG.SProl

open MapData SparseMM Matrix Finset

variable {VD ED : Type} {n : ℕ}

/-- the used neighbours -/
def nbs (I : Input VD ED) (V : ℕ) (g : List ℕ) : List (ℕ × ℕ) :=
  (I.econ V).filter fun x => match I.vmap x.1 with
    | none => false
    | some c => g.contains c

theorem mem_nbs (I : Input VD ED) (V : ℕ) (g : List ℕ) (x : ℕ × ℕ) :
    x ∈ nbs I V g ↔ x ∈ I.econ V ∧ ∃ c ∈ g, I.vmap x.1 = some c := by
  unfold nbs
  rw [List.mem_filter]
  refine and_congr_right fun _ => ?_
  cases I.vmap x.1 with
  | none => simp
  | some c => simp

theorem usedNbs_perm (I : Input VD ED) (V : ℕ) (g : List ℕ) :
    (usedNbs I V g).Perm ((V, none) :: (nbs I V g).map fun x => (x.1, some x.2)) :=
  List.perm_insertionSort _ _

theorem usedNbs_length (I : Input VD ED) (V : ℕ) (g : List ℕ) : (usedNbs I V g).length = countIn I V g + 1 := by
  rw [(usedNbs_perm I V g).length_eq, List.length_cons, List.length_map, nbs, countIn, List.countP_eq_length_filter]
  rfl

theorem usedNbs_sorted (I : Input VD ED) (hI : InputOK I) (V : ℕ) (g : List ℕ) :
    ((usedNbs I V g).map Prod.fst).Pairwise (· < ·) := by
  have hp := (usedNbs_perm I V g).map Prod.fst
  have hnd : ((usedNbs I V g).map Prod.fst).Nodup := by
    refine hp.nodup_iff.2 ?_
    rw [List.map_cons, List.map_map, List.nodup_cons]
    refine ⟨?_, ?_⟩
    · intro h
      obtain ⟨x, hx, hxV⟩ := List.mem_map.1 h
      exact (hI.ne ((mem_nbs I V g x).1 hx).1).1 hxV
    · have := (hI.sorted V).sublist ((List.filter_sublist (p := fun x : ℕ × ℕ => match I.vmap x.1 with
        | none => false
        | some c => g.contains c)).map Prod.fst)
      exact this.imp fun h => Nat.ne_of_lt h
  have hs : ((usedNbs I V g)).Pairwise (fun a b => a.1 ≤ b.1) :=
    List.pairwise_insertionSort (r := fun a b : ℕ × Option ℕ => a.1 ≤ b.1) _
  rw [List.pairwise_map]
  rw [List.Nodup, List.pairwise_map] at hnd
  exact (hs.and hnd).imp fun h => Nat.lt_of_le_of_ne h.1 h.2

/-- used edges transport the value of `V` and that of the neighbour to the same value -/
def EdgeAgree (E : Energy VD ED n) (I : Input VD ED) (u : ℕ → Fin n → ℝ) : Prop :=
  ∀ e v w, Joins I.mesh.edges e v w → (I.vmap v).isSome → (I.vmap w).isSome →
    (E.qs (I.mesh.vdata v) (I.mesh.vdata w)).1 *ᵥ u v = (E.qs (I.mesh.vdata v) (I.mesh.vdata w)).2 *ᵥ u w

theorem edgeTerm_agree (E : Energy VD ED n) (I : Input VD ED) (hI : InputOK I) (u : ℕ → Fin n → ℝ) (hu : EdgeAgree E I u)
    (V CV : ℕ) (hV : I.vmap V = some CV) (x : ℕ × ℕ) (hx : x ∈ I.econ V) (hm : (I.vmap x.1).isSome) :
    (edgeTerm E I V CV x.1 x.2).2.1 *ᵥ u V = (edgeTerm E I V CV x.1 x.2).2.2 *ᵥ u x.1 := by
  have hj := hI.joins.1 hx
  have hne := (hI.ne hx).1
  have h := hu x.2 V x.1 hj (by simp [hV]) hm
  unfold edgeTerm Mesh.edge
  dsimp only
  rcases hj with hj | hj
  · simp only [List.getD_eq_getElem?_getD, hj, Option.getD_some, if_true]
    exact h
  · simp only [List.getD_eq_getElem?_getD, hj, Option.getD_some, Ne.symm hne, if_false]
    exact h

/-- the rows of the smoothing matrix exist, are sorted, refer to the vertex itself and to its mapped neighbours only, and keep
vectors that agree on the edges -/
theorem rmRow_spec (E : Energy VD ED n) (O : Opts) (I : Input VD ED) (hI : InputOK I) (hO : 1 ≤ O.maxPerRow) (V : ℕ) :
    ∃ r, rmRow E O I V = some r ∧ (r.map Prod.fst).Pairwise (· < ·) ∧ (I.vmap V = none → r = []) ∧
      ∀ CV, I.vmap V = some CV → ∃ g : List ℕ, g.Nodup ∧ CV ∈ g ∧ g.length ≤ O.maxPerRow ∧
        (∀ c ∈ g, c = CV ∨ Cand I V CV c ∧ O.minFrac * dgWt E I.mesh V ≤ strength E I V c) ∧
        V ∈ r.map Prod.fst ∧
        (∀ x ∈ r, x.1 = V ∨ ∃ e, (x.1, e) ∈ I.econ V ∧ ∃ c ∈ g, I.vmap x.1 = some c) ∧
        ∀ u, EdgeAgree E I u → (r.map fun x => x.2 *ᵥ u x.1).sum = u V := by
  cases hV : I.vmap V with
  | none =>
    refine ⟨[], by simp [rmRow, hV], by simp, by simp, ?_⟩
    intro CV h
    simp at h
  | some CV =>
    obtain ⟨g, k, hg, g1, g2, g3, g4, g5⟩ := graphRow_spec E O I hI hO V CV
    rcases g5 with ⟨rfl, _⟩ | ⟨hk, hkc⟩
    · refine ⟨[(V, 1)], by simp [rmRow, hV, hg], by simp, by simp, ?_⟩
      intro CV' h
      obtain rfl := Option.some.inj h
      exact ⟨g, g1, g2, g3, g4, by simp, by simp, fun u _ => by simp⟩
    · set une := usedNbs I V g with hune
      set diag := (une.map fun x => match x.2 with
          | none => (0 : Mt n n ℝ)
          | some e => (edgeTerm E I V CV x.1 e).1 * (edgeTerm E I V CV x.1 e).2.1).sum with hdiag
      have hrow : rmRow E O I V = some (une.map fun x => match x.2 with
          | none => (x.1, 1 - O.omega • (E.inv diag * diag))
          | some e => (x.1, O.omega • (E.inv diag * ((edgeTerm E I V CV x.1 e).1 * (edgeTerm E I V CV x.1 e).2.2)))) := by
        unfold rmRow
        rw [hV]
        dsimp only
        rw [hg, Option.bind_some]
        dsimp only
        rw [if_neg (by omega), if_neg (by rw [usedNbs_length, hkc]; simp)]
        rfl
      have hfst : (une.map fun x => match x.2 with
          | none => (x.1, 1 - O.omega • (E.inv diag * diag))
          | some e => (x.1, O.omega • (E.inv diag * ((edgeTerm E I V CV x.1 e).1 * (edgeTerm E I V CV x.1 e).2.2)))).map Prod.fst
          = une.map Prod.fst := by
        rw [List.map_map]
        refine List.map_congr_left fun x _ => ?_
        simp only [Function.comp]
        cases x.2 <;> rfl
      refine ⟨_, hrow, ?_, by simp, ?_⟩
      · rw [hfst]
        exact usedNbs_sorted I hI V g
      intro CV' h
      obtain rfl := Option.some.inj h
      have hmem : ∀ v, v ∈ une.map Prod.fst ↔ v = V ∨ ∃ e, (v, e) ∈ nbs I V g := by
        intro v
        rw [((usedNbs_perm I V g).map Prod.fst).mem_iff, List.map_cons, List.mem_cons, List.map_map, List.mem_map]
        refine or_congr Iff.rfl ⟨?_, ?_⟩
        · rintro ⟨x, hx, rfl⟩
          exact ⟨x.2, hx⟩
        · rintro ⟨e, he⟩
          exact ⟨(v, e), he, rfl⟩
      refine ⟨g, g1, g2, g3, g4, ?_, ?_, ?_⟩
      · rw [hfst, hmem]
        exact Or.inl rfl
      · intro x hx
        have := List.mem_map_of_mem (f := Prod.fst) hx
        rw [hfst, hmem] at this
        rcases this with h | ⟨e, he⟩
        · exact Or.inl h
        · right
          have he' := (mem_nbs I V g _).1 he
          exact ⟨e, he'.1, he'.2⟩
      · intro u hu
        have hd : diag = ((nbs I V g).map fun x => (edgeTerm E I V CV x.1 x.2).1 * (edgeTerm E I V CV x.1 x.2).2.1).sum := by
          rw [hdiag, ((usedNbs_perm I V g).map _).sum_eq, List.map_cons, List.sum_cons, List.map_map]
          simp only [zero_add]
          rfl
        have hfin : ∀ l : List (ℕ × ℕ), (∀ x ∈ l, x ∈ nbs I V g) →
            (l.map fun x => (O.omega • (E.inv diag * ((edgeTerm E I V CV x.1 x.2).1 * (edgeTerm E I V CV x.1 x.2).2.2))) *ᵥ u x.1).sum
            = (O.omega • (E.inv diag * (l.map fun x => (edgeTerm E I V CV x.1 x.2).1 * (edgeTerm E I V CV x.1 x.2).2.1).sum)) *ᵥ u V := by
          intro l
          induction l with
          | nil => intro _; simp
          | cons x l ih =>
            intro hl
            rw [List.map_cons, List.sum_cons, ih fun y hy => hl y (List.mem_cons_of_mem _ hy), List.map_cons, List.sum_cons,
              Matrix.mul_add, smul_add, Matrix.add_mulVec]
            congr 1
            obtain ⟨hx1, c, _, hc⟩ := (mem_nbs I V g x).1 (hl x (by simp))
            have := edgeTerm_agree E I hI u hu V CV hV x hx1 (by simp [hc])
            rw [Matrix.smul_mulVec, Matrix.smul_mulVec, ← Matrix.mulVec_mulVec, ← Matrix.mulVec_mulVec,
              ← Matrix.mulVec_mulVec, ← Matrix.mulVec_mulVec, this]
        rw [List.map_map, ((usedNbs_perm I V g).map _).sum_eq, List.map_cons, List.sum_cons, List.map_map]
        simp only [Function.comp_def]
        rw [hfin _ fun x hx => hx, ← hd, Matrix.sub_mulVec, Matrix.one_mulVec]
        exact sub_add_cancel _ _

theorem rmat_spec (E : Energy VD ED n) (O : Opts) (I : Input VD ED) (hI : InputOK I) (hO : 1 ≤ O.maxPerRow) :
    ∃ RM, rmat E O I = some RM ∧ RM.height = I.mesh.nv ∧ RM.width = I.ncv ∧ (∀ V < I.mesh.nv, rmRow E O I V = some (RM.row V)) ∧
      ∀ V, I.mesh.nv ≤ V → RM.row V = [] := by
  choose r hr _ using rmRow_spec E O I hI hO
  have := collect_spec I.mesh.nv (fun V => rmRow E O I V) (fun V => if V < I.mesh.nv then r V else [])
    (fun V hV => by simp [hV, hr V]) (fun V hV => by simp [Nat.not_lt.2 hV])
  unfold rmat
  rw [this]
  refine ⟨_, rfl, rfl, rfl, ?_, ?_⟩
  · intro V hV
    simp [hV, hr V]
  · intro V hV
    simp [Nat.not_lt.2 hV]

/-- applying a product of sparse matrices is applying one after the other -/
theorem act_matMultAB (nhash : ℕ → ℕ) (junk mjunk : ℕ → ℕ → ℕ × ℕ) (A B : CSR (Mt n n ℝ)) (hA : A.WF) (hB : B.WF)
    (hd : A.width = B.height) (hw : B.width ≤ 2 ^ 30) (C : CSR (Mt n n ℝ)) (hC : matMultAB nhash junk mjunk A B = some C)
    (U : ℕ → Fin n → ℝ) (i : ℕ) : act C U i = act A (act B U) i := by
  obtain ⟨C', h1, h2, _, h4, h5, _⟩ := matMultAB_correct nhash junk mjunk A B hA hB hd hw
  rw [hC] at h1
  obtain rfl := Option.some.inj h1
  have hact : ∀ (M : CSR (Mt n n ℝ)) (U : ℕ → Fin n → ℝ) (i : ℕ), M.WF → act M U i = ∑ j ∈ range M.width, M.entry i j *ᵥ U j := by
    intro M U i hM
    have := entry_sum (fun j => AddMonoidHom.mk' (fun X : Mt n n ℝ => X *ᵥ U j) fun X Y => Matrix.add_mulVec X Y _) M i
      (hM.inRange i)
    simp only [AddMonoidHom.mk'_apply] at this
    rw [this]
    rfl
  rw [hact C U i h2, hact A _ i hA]
  simp only [h5, h4]
  rw [sum_congr rfl fun j _ => sum_mulVec' _ _ _, sum_comm]
  refine sum_congr rfl fun k _ => ?_
  rw [hact B U k hB, mulVec_sum']
  exact sum_congr rfl fun j _ => (Matrix.mulVec_mulVec _ _ _).symm

theorem pwProl_WF (Q : VD → VD → Mt n n ℝ) (F : Mesh VD ED) (C : CMap) (cvd : ℕ → VD)
    (h : ∀ v c, C.vmap v = some c → c < C.ncv) : (pwProl Q F C cvd).WF := by
  refine ⟨?_, ?_, ?_⟩
  · intro i
    simp only [pwProl]
    split
    · split <;> simp
    · simp
  · intro i e he
    simp only [pwProl] at he
    split at he
    · split at he
      · simp at he
      · rename_i cv hcv
        simp only [List.mem_singleton] at he
        subst he
        exact h _ _ hcv
    · simp at he
  · intro i hi
    simp only [pwProl] at hi ⊢
    rw [if_neg (by omega)]

/-- the smoothed prolongation, seen from outside -/
theorem sprol_exists (nhash : ℕ → ℕ) (junk mjunk : ℕ → ℕ → ℕ × ℕ) (E : Energy VD ED n) (O : Opts) (I : Input VD ED)
    (hI : InputOK I) (hO : 1 ≤ O.maxPerRow) (hn : I.ncv ≤ 2 ^ 30) (Q : VD → VD → Mt n n ℝ) (cvd : ℕ → VD) (C : CMap)
    (h1 : C.vmap = I.vmap) (h2 : C.ncv = I.ncv) :
    ∃ P, sprol nhash junk mjunk E O I (pwProl Q I.mesh C cvd) = some P ∧ P.WF ∧ P.height = I.mesh.nv ∧ P.width = I.ncv ∧
      (∀ V < I.mesh.nv, ∃ r, rmRow E O I V = some r ∧
        (∀ c, (∃ w, (c, w) ∈ P.row V) ↔ ∃ x ∈ r, I.vmap x.1 = some c) ∧
        ∀ U, act P U V = (r.map fun x => x.2 *ᵥ act (pwProl Q I.mesh C cvd) U x.1).sum) := by
  obtain ⟨RM, r1, r2, r3, r4, r5⟩ := rmat_spec E O I hI hO
  have hpw := pwProl_WF (n := n) Q I.mesh C cvd (by rw [h1, h2]; exact hI.vlt)
  -- columns of RM are fine vertices
  have hcol : ∀ V < I.mesh.nv, ∀ x ∈ RM.row V, x.1 < I.mesh.nv ∧ (I.vmap x.1).isSome := by
    intro V hV x hx
    obtain ⟨r, s1, s2, s3, s4⟩ := rmRow_spec E O I hI hO V
    rw [r4 V hV] at s1
    obtain rfl := Option.some.inj s1
    cases hv : I.vmap V with
    | none => rw [s3 hv] at hx; simp at hx
    | some CV =>
      obtain ⟨g, _, _, _, _, _, g5, _⟩ := s4 CV hv
      rcases g5 x hx with h | ⟨e, he, c, _, hc⟩
      · rw [h, hv]; exact ⟨hV, rfl⟩
      · exact ⟨(hI.ne he).2, by rw [hc]; rfl⟩
  have hRM : ({ RM with width := I.mesh.nv } : CSR (Mt n n ℝ)).WF := by
    refine ⟨?_, ?_, ?_⟩
    · intro V
      by_cases hV : V < I.mesh.nv
      · obtain ⟨r, s1, s2, _⟩ := rmRow_spec E O I hI hO V
        rw [r4 V hV] at s1
        obtain rfl := Option.some.inj s1
        exact s2
      · simp [r5 V (Nat.not_lt.1 hV)]
    · intro V x hx
      by_cases hV : V < I.mesh.nv
      · exact (hcol V hV x hx).1
      · simp [r5 V (Nat.not_lt.1 hV)] at hx
    · intro V hV
      exact r5 V (r2 ▸ hV)
  have hwid : (pwProl Q I.mesh C cvd).width = I.ncv := h2
  obtain ⟨P, p1, p2, p3, p4, _, p6⟩ := matMultAB_correct nhash junk mjunk { RM with width := I.mesh.nv }
    (pwProl Q I.mesh C cvd) hRM hpw rfl (by rw [hwid]; exact hn)
  have hsp : sprol nhash junk mjunk E O I (pwProl Q I.mesh C cvd) = some P := by
    unfold sprol
    rw [r1, Option.bind_some]
    exact p1
  refine ⟨P, hsp, p2, p3.trans r2, p4.trans hwid, ?_⟩
  intro V hV
  refine ⟨RM.row V, r4 V hV, ?_, ?_⟩
  · intro c
    rw [p6 V c]
    constructor
    · rintro ⟨k, a, w, hk, hw⟩
      refine ⟨(k, a), hk, ?_⟩
      simp only [pwProl, h1] at hw
      split at hw
      · cases hv : I.vmap k with
        | none => simp [hv] at hw
        | some cv =>
          simp only [hv, List.mem_singleton, Prod.mk.injEq] at hw
          rw [hw.1]
      · simp at hw
    · rintro ⟨x, hx, hc⟩
      refine ⟨x.1, x.2, Q (cvd c) (I.mesh.vdata x.1), hx, ?_⟩
      simp only [pwProl, (hcol V hV x hx).1, if_true, h1, hc, List.mem_singleton]
  · intro U
    exact act_matMultAB nhash junk mjunk _ _ hRM hpw rfl (by rw [hwid]; exact hn) P p1 U V

/-- **C67**: the smoothed prolongation is always found; vertices at the ground have empty rows; every other row has at most
`sp_max_per_row` entries, one of them for the vertex's own aggregate, and the others for allowed, sufficiently strong, aggregates of
neighbours -/
theorem sprol_graph (nhash : ℕ → ℕ) (junk mjunk : ℕ → ℕ → ℕ × ℕ) (E : Energy VD ED n) (O : Opts) (I : Input VD ED)
    (hI : InputOK I) (hO : 1 ≤ O.maxPerRow) (hn : I.ncv ≤ 2 ^ 30) (Q : VD → VD → Mt n n ℝ) (cvd : ℕ → VD) (C : CMap)
    (h1 : C.vmap = I.vmap) (h2 : C.ncv = I.ncv) :
    ∃ P, sprol nhash junk mjunk E O I (pwProl Q I.mesh C cvd) = some P ∧ P.WF ∧ P.height = I.mesh.nv ∧ P.width = I.ncv ∧
      ∀ V < I.mesh.nv, (I.vmap V = none → P.row V = []) ∧
        ∀ CV, I.vmap V = some CV → (∃ w, (CV, w) ∈ P.row V) ∧ (P.row V).length ≤ O.maxPerRow ∧
          ∀ x ∈ P.row V, x.1 = CV ∨ Cand I V CV x.1 ∧ O.minFrac * dgWt E I.mesh V ≤ strength E I V x.1 := by
  obtain ⟨P, p1, p2, p3, p4, p5⟩ := sprol_exists nhash junk mjunk E O I hI hO hn Q cvd C h1 h2
  refine ⟨P, p1, p2, p3, p4, ?_⟩
  intro V hV
  obtain ⟨r, q1, q2, _⟩ := p5 V hV
  obtain ⟨r', s1, s2, s3, s4⟩ := rmRow_spec E O I hI hO V
  rw [q1] at s1
  obtain rfl := Option.some.inj s1
  refine ⟨?_, ?_⟩
  · intro hv
    rw [List.eq_nil_iff_forall_not_mem]
    rintro ⟨c, w⟩ hx
    obtain ⟨x, hx, _⟩ := (q2 c).1 ⟨w, hx⟩
    rw [s3 hv] at hx
    simp at hx
  · intro CV hv
    obtain ⟨g, g1, g0, g2, g3, g4, g5, _⟩ := s4 CV hv
    have hsub : ∀ x ∈ P.row V, x.1 ∈ g := by
      rintro ⟨c, w⟩ hx
      obtain ⟨y, hy, hc⟩ := (q2 c).1 ⟨w, hx⟩
      rcases g5 y hy with h | ⟨e, he, c', hc', hc''⟩
      · rw [h, hv] at hc
        rw [← Option.some.inj hc]
        exact g0
      · rw [hc] at hc''
        rw [Option.some.inj hc'']
        exact hc'
    refine ⟨?_, ?_, fun x hx => g3 _ (hsub x hx)⟩
    · obtain ⟨x, hx, hxV⟩ := List.mem_map.1 g4
      exact (q2 CV).2 ⟨x, hx, by rw [hxV, hv]⟩
    · have hnd : ((P.row V).map Prod.fst).Nodup := (p2.sorted V).imp fun h => Nat.ne_of_lt h
      have hss : (P.row V).map Prod.fst ⊆ g := by
        intro c hc
        obtain ⟨x, hx, rfl⟩ := List.mem_map.1 hc
        exact hsub x hx
      have := (List.subperm_of_subset hnd hss).length_le
      rw [List.length_map] at this
      exact this.trans g2

/-- **C68**: whatever the relaxation, the edge matrices, their regularisation and the inverses are: if the piecewise prolongation of
`U` is `u`, and `u` is transported to the same values by all edges, then the smoothed prolongation of `U` is `u` -/
theorem sprol_preserves (nhash : ℕ → ℕ) (junk mjunk : ℕ → ℕ → ℕ × ℕ) (E : Energy VD ED n) (O : Opts) (I : Input VD ED)
    (hI : InputOK I) (hO : 1 ≤ O.maxPerRow) (hn : I.ncv ≤ 2 ^ 30) (Q : VD → VD → Mt n n ℝ) (cvd : ℕ → VD) (C : CMap)
    (h1 : C.vmap = I.vmap) (h2 : C.ncv = I.ncv) (u U : ℕ → Fin n → ℝ) (hu : EdgeAgree E I u)
    (hU : ∀ v < I.mesh.nv, ∀ c, I.vmap v = some c → Q (cvd c) (I.mesh.vdata v) *ᵥ U c = u v) :
    ∃ P, sprol nhash junk mjunk E O I (pwProl Q I.mesh C cvd) = some P ∧
      ∀ V < I.mesh.nv, (I.vmap V).isSome → act P U V = u V := by
  obtain ⟨P, p1, p2, p3, p4, p5⟩ := sprol_exists nhash junk mjunk E O I hI hO hn Q cvd C h1 h2
  refine ⟨P, p1, ?_⟩
  intro V hV hm
  obtain ⟨CV, hv⟩ := Option.isSome_iff_exists.1 hm
  obtain ⟨r, q1, _, q3⟩ := p5 V hV
  obtain ⟨r', s1, s2, s3, s4⟩ := rmRow_spec E O I hI hO V
  rw [q1] at s1
  obtain rfl := Option.some.inj s1
  obtain ⟨g, _, _, _, _, _, g5, g6⟩ := s4 CV hv
  rw [q3 U, ← g6 u hu]
  congr 1
  refine List.map_congr_left fun x hx => ?_
  have hx' : x.1 < I.mesh.nv ∧ ∃ c, I.vmap x.1 = some c := by
    rcases g5 x hx with h | ⟨e, he, c, _, hc⟩
    · rw [h]; exact ⟨hV, CV, hv⟩
    · exact ⟨(hI.ne he).2, c, hc⟩
  obtain ⟨hlt, c, hc⟩ := hx'
  rw [act_pwProl _ _ _ _ _ _ hlt, h1, hc]
  dsimp only
  rw [hU _ hlt c hc]

end NgsAMG.SProl
