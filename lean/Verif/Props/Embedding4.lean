import Verif.Props.Embedding3
import Mathlib.Tactic.Ring

/-!
# C96: the matrix of the finest level; partial Dirichlet conditions; violations; examples
-/

namespace NgsAMG.DofM
open NgsAMG NgsAMG.SparseMM NgsAMG.SparseLA NgsAMG.Spec Matrix Finset

variable {K : Type*} [CommRing K] {a b c n : ℕ}

/-! ### the matrix of the finest level -/

theorem act_entry (E : CSR (Mt a b K)) (d w : ℕ) (i : Fin a) (j : Fin b) : act E (fun v j' => if v = w ∧ j' = j then 1 else 0) d i = E.entry d w i j := by
  have : ∀ l : List (ℕ × Mt a b K), (l.map fun e => e.2 *ᵥ fun j' => if e.1 = w ∧ j' = j then (1 : K) else 0).sum i = (((l.filter fun e => e.1 = w).map Prod.snd).sum : Mt a b K) i j := by
    intro l
    induction l with
    | nil => rfl
    | cons e l ih =>
      rw [List.map_cons, List.sum_cons, Pi.add_apply, ih]
      have he : (e.2 *ᵥ fun j' => if e.1 = w ∧ j' = j then (1 : K) else 0) i = if e.1 = w then e.2 i j else 0 := by
        by_cases hw : e.1 = w
        · simp [mulVec, dotProduct, hw]
        · simp [mulVec, dotProduct, hw]
      rw [he]
      by_cases hw : e.1 = w
      · simp [hw, Matrix.add_apply]
      · simp [hw]
  exact this (E.row d)

/-- the entries of an embedding: in the column of the component `c + i` of a vertex there is a one in the row of this component and nothing else -/
theorem embeds_entry {nd nv : ℕ} {bs D : List ℕ} {num : ℕ → ℕ} {E : CSR (Mt a b K)} (hE : Embeds nd nv bs D num E) (hD : D.Nodup) (hl : D.length = nv * bs.sum) (hone : a = 1 ∨ bs = [1])
    (hinj : ∀ v < nv, ∀ w < nv, num v = num w → v = w) {k d v c : ℕ} (hk : D[k]? = some d) (hs : slot nv bs k = some (v, c)) {e : ℕ} (he : e < nd) (i i' : Fin a) (h : c + i < b) :
    E.entry e (num v) i' ⟨c + i, h⟩ = if e = d ∧ i' = i then 1 else 0 := by
  rw [← act_entry]
  by_cases hm : e ∈ D
  · obtain ⟨k', hk'⟩ := List.getElem?_of_mem hm
    obtain ⟨v', c', hs'⟩ := slot_some (nv := nv) (bs := bs) (k := k') (by rw [← hl]; exact (List.getElem?_eq_some_iff.mp hk').1)
    obtain ⟨q1, q2⟩ := hE.on k' e v' c' hk' hs'
    rw [q2 _ i' (by omega)]
    have hiff : (num v' = num v ∧ (⟨c' + i', by omega⟩ : Fin b) = ⟨c + i, h⟩) ↔ (e = d ∧ i' = i) := by
      rw [Fin.mk.injEq]
      constructor
      · rintro ⟨h1, h2⟩
        have hv := hinj v' (slot_lt hs').1 v (slot_lt hs).1 h1
        have hci : c' = c ∧ i' = i := by
          rcases hone with rfl | rfl
          · have := i.isLt
            have := i'.isLt
            exact ⟨by omega, Fin.ext (by omega)⟩
          · have := (slot_lt hs').2.1
            have := (slot_lt hs).2.1
            simp at *
            exact ⟨by omega, Fin.ext (by omega)⟩
        obtain ⟨rfl, rfl⟩ := hci
        subst hv
        have := slot_inj hs' hs
        subst this
        rw [hk] at hk'
        cases hk'
        exact ⟨rfl, rfl⟩
      · rintro ⟨rfl, rfl⟩
        have : k' = k := by
          obtain ⟨q3, q4⟩ := List.getElem?_eq_some_iff.mp hk'
          obtain ⟨q5, q6⟩ := List.getElem?_eq_some_iff.mp hk
          exact (hD.getElem_inj_iff (hi := q3) (hj := q5)).mp (by rw [q4, q6])
        subst this
        rw [hs] at hs'
        cases hs'
        exact ⟨rfl, rfl⟩
    by_cases hc : e = d ∧ i' = i
    · rw [if_pos hc, if_pos (hiff.mpr hc)]
    · rw [if_neg hc, if_neg fun h => hc (hiff.mp h)]
  · rw [hE.off e he hm, if_neg]
    · rfl
    · rintro ⟨rfl, -⟩
      exact hm (List.mem_of_getElem? hk)

/-- **C96** (matrix of the finest level): the product with the embedding from both sides is the given matrix with rows and columns regrouped by vertices. -/
theorem embedding_galerkin {nd nv : ℕ} {bs D : List ℕ} {num : ℕ → ℕ} {E : CSR (Mt a b K)} (hE : Embeds nd nv bs D num E) (hD : D.Nodup) (hlt : ∀ d ∈ D, d < nd) (hl : D.length = nv * bs.sum)
    (hone : a = 1 ∨ bs = [1]) (hinj : ∀ v < nv, ∀ w < nv, num v = num w → v = w) (A : CSR (Mt a a K)) (hA : A.WF) (h1 : A.height = nd) (h2 : A.width = nd) (hw : nd ≤ 2 ^ 30) (hw' : nv ≤ 2 ^ 30)
    (T : Tables) : ∃ C, ((transpose E).bind fun ET => restrictMatrix T.nhash T.junk T.mjunk ET A E) = some C ∧ C.WF ∧ C.height = nv ∧ C.width = nv ∧
      ∀ (k d v c k' d' v' c' : ℕ), D[k]? = some d → slot nv bs k = some (v, c) → D[k']? = some d' → slot nv bs k' = some (v', c') → ∀ (i i' : Fin a) (h : c + i < b) (h' : c' + i' < b),
        C.entry (num v) (num v') ⟨c + i, h⟩ ⟨c' + i', h'⟩ = A.entry d d' i i' := by
  obtain ⟨C, hC, hwf, hh, hwd, he⟩ := restrictMatrix_correct T.nhash T.junk T.mjunk A E hA hE.wf (by rw [h1, hE.height]) (by rw [h2, hE.height]) (by omega) (by rw [hE.width]; exact hw')
  refine ⟨C, hC, hwf, by rw [hh, hE.width], by rw [hwd, hE.width], ?_⟩
  intro k d v c k' d' v' c' hk hs hk' hs' i i' h h'
  have hd := hlt d (List.mem_of_getElem? hk)
  have hd' := hlt d' (List.mem_of_getElem? hk')
  rw [he, hE.height, Matrix.sum_apply, Finset.sum_eq_single d']
  · rw [Matrix.sum_apply, Finset.sum_eq_single d]
    · rw [Matrix.mul_apply, Finset.sum_eq_single i']
      · rw [embeds_entry hE hD hl hone hinj hk' hs' hd' i' i' h', if_pos ⟨rfl, rfl⟩, mul_one, Matrix.mul_apply, Finset.sum_eq_single i]
        · rw [Matrix.transpose_apply, embeds_entry hE hD hl hone hinj hk hs hd i i h, if_pos ⟨rfl, rfl⟩, one_mul]
        · intro j _ hj
          rw [Matrix.transpose_apply, embeds_entry hE hD hl hone hinj hk hs hd i j h, if_neg (fun q => hj q.2), zero_mul]
        · intro q
          exact absurd (Finset.mem_univ _) q
      · intro j _ hj
        rw [embeds_entry hE hD hl hone hinj hk' hs' hd' i' j h', if_neg (fun q => hj q.2), mul_zero]
      · intro q
        exact absurd (Finset.mem_univ _) q
    · intro e hem hne
      rw [Matrix.mul_apply]
      refine Finset.sum_eq_zero fun j _ => ?_
      rw [Matrix.mul_apply, Finset.sum_eq_zero, zero_mul]
      intro l _
      rw [Matrix.transpose_apply, embeds_entry hE hD hl hone hinj hk hs (Finset.mem_range.mp hem) i l h, if_neg (fun q => hne q.1), zero_mul]
    · intro q
      exact absurd (Finset.mem_range.mpr hd) q
  · intro e hem hne
    rw [Matrix.sum_apply]
    refine Finset.sum_eq_zero fun l _ => ?_
    rw [Matrix.mul_apply]
    refine Finset.sum_eq_zero fun j _ => ?_
    rw [embeds_entry hE hD hl hone hinj hk' hs' (Finset.mem_range.mp hem) i' j h', if_neg (fun q => hne q.1), mul_zero]
  · intro q
    exact absurd (Finset.mem_range.mpr hd') q

/-! ### partial Dirichlet conditions -/

theorem zeroBlock_mulVec (free : List Bool) (k : ℕ) (B : Mt a b K) (x : Fin b → K) (l : Fin a) :
    (zeroBlock free k B *ᵥ x) l = if free.getD (a * k + l) false then (B *ᵥ x) l else 0 := by
  unfold mulVec dotProduct zeroBlock
  by_cases h : free.getD (a * k + l) false = true
  · simp only [if_pos h]
  · simp only [if_neg h, zero_mul, Finset.sum_const_zero]

theorem zeroRow (free : List Bool) (k : ℕ) (r : List (ℕ × Mt a b K)) (x : ℕ → Fin b → K) (l : Fin a) :
    ((r.map fun e => (e.1, zeroBlock free k e.2)).map fun e => e.2 *ᵥ x e.1).sum l = if free.getD (a * k + l) false then (r.map fun e => e.2 *ᵥ x e.1).sum l else 0 := by
  induction r with
  | nil => simp
  | cons e r ih =>
    simp only [List.map_cons, List.sum_cons, Pi.add_apply]
    rw [ih, zeroBlock_mulVec]
    split_ifs
    · rfl
    · simp

/-- **C96, partial** (partial Dirichlet conditions): if all degrees of freedom are chosen, exactly the constrained components become zero. Missing: other subsets, see `project_subset_wrong`. -/
theorem project_partial {nd : ℕ} {free : List Bool} (hf : free.length = a * nd) {E : CSR (Mt a b K)} (hE : E.WF) (hh : E.height = nd) :
    ∃ F, projected nd (some free) (some E) = some (some F) ∧ F.WF ∧ F.height = nd ∧ F.width = E.width ∧
      ∀ d < nd, ∀ x (l : Fin a), act F x d l = if free[a * d + l]? = some true then act E x d l else 0 := by
  refine ⟨{ E with row := fun k => if k < nd then (E.row k).map (fun e => (e.1, zeroBlock free k e.2)) else E.row k }, ?_, ?_, hh, rfl, ?_⟩
  · simp only [projected, Option.getD_some, projectE]
    rw [if_pos ⟨by omega, by omega⟩]
    rfl
  · refine ⟨fun i => ?_, fun i e he => ?_, fun i hi => ?_⟩
    · dsimp only
      split_ifs
      · rw [List.map_map]
        exact hE.sorted i
      · exact hE.sorted i
    · dsimp only at he
      split_ifs at he
      · obtain ⟨e', h1, rfl⟩ := List.mem_map.mp he
        exact hE.inRange i e' h1
      · exact hE.inRange i e he
    · dsimp only at hi ⊢
      rw [hE.outside i hi]
      split_ifs <;> rfl
  · intro d hd x l
    unfold act
    dsimp only
    rw [if_pos hd, zeroRow, List.getD_eq_getElem?_getD]
    have hlt : a * d + l < free.length := by
      rw [hf]
      calc a * d + l < a * d + a := by omega
        _ = a * (d + 1) := by ring
        _ ≤ a * nd := Nat.mul_le_mul_left _ hd
    rw [List.getElem?_eq_getElem hlt, Option.getD_some]
    simp only [Option.some.injEq]

/-- **C96 fails** for partial Dirichlet conditions and a subset: the loop runs over the first rows instead of the rows of the chosen degrees of freedom. The first component of the second degree of
freedom is constrained, but it keeps the value of the vertex. -/
theorem project_subset_wrong : embBlock (K := ℤ) ⟨fun _ => 1, fun _ _ => (0, 0), fun _ _ => (0, 0)⟩ 2 2 (.bits [false, true]) none = some (some ⟨2, 1, (esRows [1]).1⟩) ∧
    Embeds 2 1 [1] [1] (newNum 1 none) (⟨2, 1, (esRows [1]).1⟩ : CSR (Mt 2 2 ℤ)) ∧
    ∃ F, projected 1 (some [true, true, false, true]) (some (⟨2, 1, (esRows [1]).1⟩ : CSR (Mt 2 2 ℤ))) = some (some F) ∧ ∀ x, act F x 1 0 = x 0 0 := by
  have h0 : embBlock (K := ℤ) ⟨fun _ => 1, fun _ _ => (0, 0), fun _ _ => (0, 0)⟩ 2 2 (.bits [false, true]) none = some (some ⟨2, 1, (esRows [1]).1⟩) := rfl
  refine ⟨h0, ?_, ?_⟩
  · obtain ⟨E, h1, h2⟩ := embedding_block (K := ℤ) (n := 2) (nd := 2) (nv := 1) (S := .bits [false, true]) rfl rfl (sort := none) (by simp) (by norm_num) ⟨fun _ => 1, fun _ _ => (0, 0), fun _ _ => (0, 0)⟩
    rw [h0] at h1
    cases h1
    exact h2
  · refine ⟨_, rfl, fun x => ?_⟩
    simp [act, esRows, esPut]

/-! ### the embedding of quadratic elements -/

/-- vertices `v2d` and edges `par` of quadratic elements on one process -/
structure P2OK (nd nv : ℕ) (v2d : List ℕ) (par : List (ℕ × ℕ × ℕ)) : Prop where
  len : v2d.length = nv
  nodup : v2d.Nodup
  lt : ∀ d ∈ v2d, d < nd
  edges : ∀ t ∈ par, t.1 < nd ∧ t.1 ∉ v2d ∧ t.2.1 < nv ∧ t.2.2 < nv ∧ t.2.1 ≠ t.2.2

theorem p2_row {nd nv : ℕ} {v2d : List ℕ} {par : List (ℕ × ℕ × ℕ)} (h : P2OK nd nv v2d par) (Q : ℕ → ℕ → Mt a b K × Mt a b K) {w d : ℕ} (hw : v2d[w]? = some d) :
    (edP2 nd nv v2d par Q).row d = [(w, dispBlock a b)] := by
  have h1 : par.find? (fun t => decide (t.1 = d)) = none := by
    rw [List.find?_eq_none]
    intro t ht he
    have := (h.edges t ht).2.1
    simp only [decide_eq_true_eq] at he
    rw [he] at this
    exact this (List.mem_of_getElem? hw)
  have h2 : v2d.idxOf? d = some w := by
    obtain ⟨hl, he⟩ := List.getElem?_eq_some_iff.mp hw
    rw [List.idxOf?_eq_some_iff]
    refine ⟨hl, he, fun j hj hjd => ?_⟩
    have := (h.nodup.getElem_inj_iff (i := j) (j := w) (hi := by omega) (hj := hl)).mp (by rw [hjd, he])
    omega
  show (match par.find? (fun t => decide (t.1 = d)) with | some t => _ | none => match v2d.idxOf? d with | some v => _ | none => _) = _
  rw [h1, h2]

theorem p2_wf {nd nv : ℕ} {v2d : List ℕ} {par : List (ℕ × ℕ × ℕ)} (h : P2OK nd nv v2d par) (Q : ℕ → ℕ → Mt a b K × Mt a b K) : (edP2 nd nv v2d par Q).WF := by
  have hcase : ∀ d, (∃ t ∈ par, t.1 = d ∧ (edP2 nd nv v2d par Q).row d = [(min t.2.1 t.2.2, (Q (min t.2.1 t.2.2) (max t.2.1 t.2.2)).1), (max t.2.1 t.2.2, (Q (min t.2.1 t.2.2) (max t.2.1 t.2.2)).2)]) ∨
      (∃ w : ℕ, v2d[w]? = some d) ∨ (edP2 nd nv v2d par Q).row d = [] := by
    intro d
    by_cases hm : d ∈ v2d
    · exact Or.inr (Or.inl (List.getElem?_of_mem hm))
    · rcases hf : par.find? (fun t => decide (t.1 = d)) with _ | t
      · right
        right
        have h2 : v2d.idxOf? d = none := List.idxOf?_eq_none_iff.mpr hm
        show (match par.find? (fun t => decide (t.1 = d)) with | some t => _ | none => match v2d.idxOf? d with | some v => _ | none => _) = _
        rw [hf, h2]
      · left
        refine ⟨t, List.mem_of_find?_eq_some hf, by simpa using List.find?_some hf, ?_⟩
        show (match par.find? (fun t => decide (t.1 = d)) with | some t => _ | none => match v2d.idxOf? d with | some v => _ | none => _) = _
        rw [hf]
  refine ⟨fun i => ?_, fun i e he => ?_, fun i hi => ?_⟩
  · rcases hcase i with ⟨t, ht, -, hr⟩ | ⟨w, hw⟩ | hr
    · rw [hr]
      have := (h.edges t ht).2.2.2.2
      simp
      omega
    · rw [p2_row h Q hw]
      simp
    · rw [hr]
      simp
  · rcases hcase i with ⟨t, ht, -, hr⟩ | ⟨w, hw⟩ | hr
    · rw [hr] at he
      have := h.edges t ht
      show e.1 < nv
      simp at he
      rcases he with rfl | rfl <;> simp <;> omega
    · rw [p2_row h Q hw] at he
      simp at he
      subst he
      have := (List.getElem?_eq_some_iff.mp hw).1
      rw [h.len] at this
      exact this
    · rw [hr] at he
      cases he
  · have hi' : nd ≤ i := hi
    rcases hcase i with ⟨t, ht, h1, hr⟩ | ⟨w, hw⟩ | hr
    · have := (h.edges t ht).1
      omega
    · have := h.lt i (List.mem_of_getElem? hw)
      omega
    · exact hr

/-- **C96** (quadratic elements, one process): the degree of freedom of the vertex `w` gets the displacement of the vertex `w`. -/
theorem p2_sequential {nd nv : ℕ} {v2d : List ℕ} {par : List (ℕ × ℕ × ℕ)} (h : P2OK nd nv v2d par) (hab : a ≤ b) (Q : ℕ → ℕ → Mt a b K × Mt a b K) (h1 h2 : Tables) :
    ∃ E, embDiff h1 h2 none (edP2 nd nv v2d par Q) (permOf b none) = some E ∧ ∀ (w d : ℕ), v2d[w]? = some d → ∀ (x : ℕ → Fin b → K) (i : Fin a), act E x d i = x w (Fin.castLE hab i) := by
  refine ⟨_, rfl, fun w d hw x i => ?_⟩
  unfold act
  rw [p2_row h Q hw, dispBlock_pick]
  simp only [List.map_cons, List.map_nil, List.sum_cons, List.sum_nil, add_zero]
  rw [pick_apply (c := 0) _ i (by have := i.isLt; omega)]
  congr 1
  exact Fin.ext (by simp)

/-- **C96 fails** for quadratic elements in parallel: the numbers of the vertices in `E_D` are already the numbers in the mesh, but the product with the permutation renumbers them again. The degree of freedom of the vertex `w`
gets the displacement of the vertex `sort[w]`, whatever the mesh is; it is wrong whenever the vertices are renumbered. -/
theorem p2_parallel_wrong {nd nv : ℕ} {v2d : List ℕ} {par : List (ℕ × ℕ × ℕ)} (h : P2OK nd nv v2d par) (hab : a ≤ b) (Q : ℕ → ℕ → Mt a b K × Mt a b K) {sort : List ℕ} (hs : sort.Perm (List.range nv))
    (hw : nv ≤ 2 ^ 30) (h1 h2 : Tables) :
    ∃ E, embDiff h1 h2 none (edP2 nd nv v2d par Q) (permOf b (some sort)) = some E ∧
      ∀ (w d s : ℕ), v2d[w]? = some d → sort[w]? = some s → ∀ (x : ℕ → Fin b → K) (i : Fin a), act E x d i = x s (Fin.castLE hab i) := by
  have hl : sort.length = nv := by rw [hs.length_eq, List.length_range]
  obtain ⟨E, hE, hwf, hh, hwd, he, -⟩ := matMultAB_correct h2.nhash h2.junk h2.mjunk (edP2 nd nv v2d par Q) (permutationMatrix b sort) (p2_wf h Q) (one_perm hs).wf
    (by rw [(one_perm (n := b) (K := K) hs).height]; rfl) (by rw [(one_perm (n := b) (K := K) hs).width]; exact hw)
  refine ⟨E, hE, fun w d s hwd' hsw x i => ?_⟩
  have hwn : w < nv := by rw [← h.len]; exact (List.getElem?_eq_some_iff.mp hwd').1
  have hent : ∀ j, E.entry d j = if j = s then dispBlock a b else 0 := by
    intro j
    rw [he, Finset.sum_eq_single w]
    · rw [(one_perm (n := b) (K := K) hs).entry hwn, hsw]
      have : (edP2 nd nv v2d par Q).entry d w = dispBlock a b := by
        unfold CSR.entry
        rw [p2_row h Q hwd']
        simp
      rw [this]
      simp only [Option.map_some]
      by_cases hj : s = j
      · rw [if_pos hj, if_pos hj.symm, Matrix.mul_one]
      · rw [if_neg hj, if_neg (Ne.symm hj), Matrix.mul_zero]
    · intro k _ hk
      have : (edP2 nd nv v2d par Q).entry d k = 0 := by
        unfold CSR.entry
        rw [p2_row h Q hwd']
        simp [Ne.symm hk]
      rw [this, Matrix.zero_mul]
    · intro hn
      exact absurd (Finset.mem_range.mpr hwn) hn
  have hsn : s < nv := List.mem_range.mp (hs.subset (List.mem_of_getElem? hsw))
  have hact : act E x d = ∑ j ∈ Finset.range E.width, E.entry d j *ᵥ x j := by
    unfold act
    exact (entry_sum (fun j => ⟨⟨fun M => M *ᵥ x j, Matrix.zero_mulVec _⟩, fun M N => Matrix.add_mulVec M N _⟩) E d (hwf.inRange d)).symm
  rw [hact, hwd, (one_perm (n := b) (K := K) hs).width, Finset.sum_eq_single s]
  · rw [hent, if_pos rfl, dispBlock_pick, pick_apply (c := 0) _ i (by have := i.isLt; omega)]
    congr 1
    exact Fin.ext (by simp)
  · intro j _ hj
    rw [hent, if_neg hj, Matrix.zero_mulVec]
  · intro hn
    exact absurd (Finset.mem_range.mpr hsn) hn

/-- a case: two vertices, one edge, blocks of two and three; the first vertex of the mesh has the value 1, the other 0, but the degree of freedom of the first vertex gets 0 -/
theorem p2_refuted : P2OK 3 2 [1, 0] [(2, 0, 1)] ∧ ∃ (E : CSR (Mt 2 3 ℤ)) (x : ℕ → Fin 3 → ℤ), embDiff ⟨fun _ => 4, fun _ _ => (0, 0), fun _ _ => (0, 0)⟩ ⟨fun _ => 4, fun _ _ => (0, 0), fun _ _ => (0, 0)⟩ none
    (edP2 3 2 [1, 0] [(2, 0, 1)] fun _ _ => (0, 0)) (permOf 3 (some [1, 0])) = some E ∧ act E x 1 0 ≠ x 0 0 := by
  have h : P2OK 3 2 [1, 0] [(2, 0, 1)] := ⟨rfl, by decide, by decide, by decide⟩
  obtain ⟨E, h1, h2⟩ := p2_parallel_wrong (K := ℤ) (a := 2) (b := 3) h (by decide) (fun _ _ => (0, 0)) (sort := [1, 0]) (by decide) (by norm_num) ⟨fun _ => 4, fun _ _ => (0, 0), fun _ _ => (0, 0)⟩ ⟨fun _ => 4, fun _ _ => (0, 0), fun _ _ => (0, 0)⟩
  refine ⟨h, E, fun v _ => if v = 0 then 1 else 0, h1, ?_⟩
  rw [h2 0 1 1 rfl rfl]
  decide

/-! ### concrete cases -/

/-- two vertices, blocks of two and one, the degrees of freedom 1..6 of 8; the vertices are swapped -/
example : ∃ E, embScal (K := ℤ) ⟨fun _ => 4, fun _ _ => (0, 0), fun _ _ => (0, 0)⟩ ⟨fun _ => 4, fun _ _ => (0, 0), fun _ _ => (0, 0)⟩ 3 8 2 (.ranges [(1, 4), (4, 7)]) [2, 1] (fun _ => (7, 0)) (some [1, 0]) = some E ∧
    Embeds 8 2 [2, 1] [1, 2, 3, 4, 5, 6] (newNum 2 (some [1, 0])) E :=
  embedding_scal (S := .ranges [(1, 4), (4, 7)]) ⟨by decide, by decide, by decide⟩ (by decide) (by decide) (by rintro s h; cases h; decide) (by norm_num) _ _ _

/-- the matrix of the finest level of it: hypotheses of `embedding_galerkin` -/
example : [1, 2, 3, 4, 5, 6].Nodup ∧ (∀ d ∈ [1, 2, 3, 4, 5, 6], d < 8) ∧ ∀ v < 2, ∀ w < 2, newNum 2 (some [1, 0]) v = newNum 2 (some [1, 0]) w → v = w := by decide

/-- displacements in the plane with rotations on the mesh, three vertices, the first degree of freedom is not chosen -/
example : ∃ E, embDisp (K := ℤ) ⟨fun _ => 4, fun _ _ => (0, 0), fun _ _ => (0, 0)⟩ ⟨fun _ => 4, fun _ _ => (0, 0), fun _ _ => (0, 0)⟩ 2 3 4 3 (.bits [false, true, true, true]) [1] (some [2, 0, 1]) = some E ∧
    Embeds 4 3 [1] [1, 2, 3] (newNum 3 (some [2, 0, 1])) E :=
  embedding_disp (S := .bits [false, true, true, true]) rfl (by decide) (by decide) (by rintro s h; cases h; decide) (by norm_num) _ _

/-- two processes, one needs an embedding and one does not -/
example : (∀ p < 2, ∃ F, finalE 2 (fun _ => 2) (fun _ => 2) (fun p => if p = 0 then none else some (permutationMatrix 2 [1, 0] : CSR (Mt 2 2 ℤ))) p = some F) := by
  intro p _
  exact ⟨_, rfl⟩

/-- hypotheses of `p2_parallel_wrong`: two vertices and an edge; in the mesh the vertices are swapped -/
example : P2OK 3 2 [1, 0] [(2, 0, 1)] ∧ ([1, 0] : List ℕ).Perm (List.range 2) := ⟨⟨rfl, by decide, by decide, by decide⟩, by decide⟩

end NgsAMG.DofM
