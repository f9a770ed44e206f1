import Verif.Model.SparseLA
import Verif.Props.SparseMM
import Verif.Props.Traversal
import Mathlib.Tactic.Linarith

/-! Sparse matrix utilities: what holds and what does not (C14 - C16, C42 - C45). -/

namespace NgsAMG.SparseLA

open Matrix SparseMM Traversal Finset

variable {K : Type*} [CommRing K] {a b c : ℕ}

theorem mapM_some {α β : Type*} (l : List α) (f : α → Option β) (g : α → β) (h : ∀ x ∈ l, f x = some (g x)) :
    l.mapM f = some (l.map g) := by
  induction l with
  | nil => rfl
  | cons x l ih =>
    rw [List.mapM_cons, h x (by simp), ih fun y hy => h y (by simp [hy])]
    rfl

theorem mapM_eq_some {α β : Type*} (l : List α) (f : α → Option β) (r : List β) (h : l.mapM f = some r) :
    l.map f = r.map some := by
  induction l generalizing r with
  | nil => simp [List.mapM_nil] at h; subst h; rfl
  | cons x l ih =>
    rw [List.mapM_cons] at h
    rcases hx : f x with _ | y
    · simp [hx] at h
    · rcases hl : l.mapM f with _ | ys
      · simp [hx, hl] at h
      · simp [hx, hl] at h
        subst h
        simp [hx, ih ys hl]

/-! ### C15: sums -/

theorem iterABC_self (l : List ℕ) (i : ℕ) : iterABC i l i l = (List.range' i l.length).map fun k => Ev.inter k k := by
  induction l generalizing i with
  | nil => rw [iterABC]; rfl
  | cons x l ih => rw [iterABC, if_pos rfl, ih]; rfl

theorem collect_eq_some {E : Type*} {n : ℕ} {f : ℕ → Option (List E)} {g : ℕ → List E} (h : collect n f = some g) :
    (∀ i < n, f i = some (g i)) ∧ ∀ i, n ≤ i → g i = [] := by
  unfold collect at h
  split at h
  · rename_i hall
    rw [List.all_eq_true] at hall
    obtain rfl := Option.some.inj h
    refine ⟨fun i hi => ?_, fun i hi => by simp [Nat.not_lt.2 hi]⟩
    obtain ⟨v, hv⟩ := Option.isSome_iff_exists.1 (hall i (List.mem_range.2 hi))
    simp [hi, hv]
  · exact absurd h (by simp)

theorem zipIdx_map_self {E F : Type*} (l : List E) (f : ℕ → F) (g : E → F) (k : ℕ)
    (h : ∀ (i : ℕ) (e : E), l[i]? = some e → f (k + i) = g e) : (List.range' k l.length).map f = l.map g := by
  induction l generalizing k with
  | nil => rfl
  | cons e l ih =>
    rw [List.length_cons, List.range'_succ, List.map_cons, List.map_cons]
    congr 1
    · exact h 0 e rfl
    · exact ih (k + 1) fun i e he => by rw [← h (i + 1) e (by simpa using he)]; congr 1; omega

/-- **C15 is violated by the code**, for all matrices with the same graph: "`alpha A + beta B`" is `2 A`, whatever `alpha`,
`beta` and the values of `B` are. -/
theorem addMerge_same_graph (alpha beta : K) (A B : CSR (Mt a b K)) (hA : A.WF)
    (hg : ∀ i, (B.row i).map Prod.fst = (A.row i).map Prod.fst) :
    ∃ C, addMerge alpha A beta B = some C ∧ C.WF ∧ ∀ i j, C.entry i j = A.entry i j + A.entry i j := by
  have hrow : ∀ i, mergeRow (A.row i) (B.row i) = some ((A.row i).map fun e => (e.1, e.2 + e.2)) := by
    intro i
    have hl := congrArg List.length (hg i)
    simp only [List.length_map] at hl
    unfold mergeRow
    by_cases hb : (B.row i).isEmpty
    · have : A.row i = [] := by
        rw [List.isEmpty_iff] at hb
        rw [hb] at hl
        exact List.eq_nil_of_length_eq_zero hl.symm
      simp [hb, this]
    · have ha : ¬ (A.row i).isEmpty := by
        rw [List.isEmpty_iff] at hb ⊢
        intro h; rw [h] at hl; exact hb (List.eq_nil_of_length_eq_zero hl)
      rw [if_neg (by simpa using hb), if_neg (by simpa using ha), hg i, iterABC_self, List.length_map]
      rw [mapM_some _ _ (fun ev => match ev with
        | .inter k _ => (((A.row i)[k]?.getD (0, 0)).1, ((A.row i)[k]?.getD (0, 0)).2 + ((A.row i)[k]?.getD (0, 0)).2)
        | _ => (0, 0))]
      · congr 1
        rw [List.map_map]
        apply zipIdx_map_self
        intro k e he
        simp [he]
      · intro ev hev
        obtain ⟨k, hk, rfl⟩ := List.mem_map.1 hev
        have hk' : k < (A.row i).length := by simpa using hk
        simp [mergeEv, List.getElem?_eq_getElem hk']
  refine ⟨_, by
    unfold addMerge
    rw [collect_spec A.height _ _ (fun i _ => hrow i) (fun i hi => by simp [hA.outside i hi]), Option.map_some], ?_, ?_⟩
  · refine ⟨fun i => ?_, fun i e he => ?_, fun i hi => ?_⟩
    · simp only [List.map_map]; exact hA.sorted i
    · simp only [List.mem_map] at he
      obtain ⟨e', he', rfl⟩ := he
      exact hA.inRange i e' he'
    · simp [hA.outside i hi]
  · intro i j
    by_cases h : ∃ v, (j, v) ∈ A.row i
    · obtain ⟨v, hv⟩ := h
      rw [entry_of_mem A i j v (hA.sorted i) hv]
      refine entry_of_mem _ i j _ ?_ (List.mem_map.2 ⟨_, hv, rfl⟩)
      simp only [List.map_map]; exact hA.sorted i
    · push Not at h
      rw [entry_of_not_mem A i j h, add_zero]
      apply entry_of_not_mem
      intro v hv
      obtain ⟨e, he, hh⟩ := List.mem_map.1 hv
      simp only [Prod.mk.injEq] at hh
      exact h e.2 (hh.1 ▸ he)

/-- **C15, negation.** There are well-formed matrices whose computed sum `1 A + 1 B` is not `A + B`. -/
theorem addMerge_wrong : ∃ (A B C : CSR (Mt 1 1 ℤ)), A.WF ∧ B.WF ∧ addMerge 1 A 1 B = some C ∧
    C.entry 0 0 ≠ A.entry 0 0 + B.entry 0 0 := by
  let A : CSR (Mt 1 1 ℤ) := ⟨1, 1, fun i => if i = 0 then [(0, !![2])] else []⟩
  let B : CSR (Mt 1 1 ℤ) := ⟨1, 1, fun i => if i = 0 then [(0, !![5])] else []⟩
  have wf : ∀ v, (⟨1, 1, fun i => if i = 0 then [(0, v)] else []⟩ : CSR (Mt 1 1 ℤ)).WF := by
    intro v
    refine ⟨fun i => by simp only; split_ifs <;> simp, fun i e he => ?_, fun i hi => ?_⟩
    · simp only at he ⊢; split_ifs at he <;> simp at he; simp [he]
    · simp only at hi ⊢; rw [if_neg (by omega)]
  obtain ⟨C, h1, _, h3⟩ := addMerge_same_graph 1 1 A B (wf _) (by intro i; simp only [A, B]; split_ifs <;> rfl)
  refine ⟨A, B, C, wf _, wf _, h1, ?_⟩
  rw [h3]
  decide +kernel

/-- **C15, negation.** Overlapping but different graphs: the code reads behind the end of a row of `A`. -/
theorem addMerge_ub : addMerge (K := ℤ) 1 (⟨1, 2, fun i => if i = 0 then [(0, !![2])] else []⟩ : CSR (Mt 1 1 ℤ)) 1
    ⟨1, 2, fun i => if i = 0 then [(0, !![2]), (1, !![3])] else []⟩ = none := by
  have : (addMerge (K := ℤ) 1 (⟨1, 2, fun i => if i = 0 then [(0, !![2])] else []⟩ : CSR (Mt 1 1 ℤ)) 1
    ⟨1, 2, fun i => if i = 0 then [(0, !![2]), (1, !![3])] else []⟩).isNone = true := by decide +kernel
  simpa using this

/-- **C15, what does hold (1).** The graph of the computed sum is the union of the graphs, well-formed. -/
theorem addMerge_graph_partial (alpha beta : K) (A B C : CSR (Mt a b K)) (hA : A.WF) (hB : B.WF) (hw : A.width = B.width)
    (hh : A.height = B.height) (h : addMerge alpha A beta B = some C) :
    C.WF ∧ C.height = A.height ∧ C.width = A.width ∧
      ∀ i j, (∃ v, (j, v) ∈ C.row i) ↔ (∃ v, (j, v) ∈ A.row i) ∨ ∃ v, (j, v) ∈ B.row i := by
  unfold addMerge at h
  obtain ⟨rows, hr, rfl⟩ := Option.map_eq_some_iff.1 h
  obtain ⟨h1, h2⟩ := collect_eq_some hr
  have hcols : ∀ i, (rows i).map Prod.fst = merge2 ((A.row i).map Prod.fst) ((B.row i).map Prod.fst) := by
    intro i
    by_cases hi : i < A.height
    · have := h1 i hi
      unfold mergeRow at this
      by_cases hb : (B.row i).isEmpty
      · rw [if_pos hb] at this
        rw [List.isEmpty_iff] at hb
        rw [← Option.some.inj this, hb]
        cases (A.row i).map Prod.fst <;> simp [merge2]
      · rw [if_neg hb] at this
        by_cases ha : (A.row i).isEmpty
        · rw [if_pos ha] at this
          rw [List.isEmpty_iff] at ha
          rw [← Option.some.inj this, ha]
          simp [merge2]
        · rw [if_neg ha] at this
          have hm := map_iterABC ((A.row i).map Prod.fst) ((B.row i).map Prod.fst) [] _ [] _ rfl rfl
          have hmm := mapM_eq_some _ _ _ this
          have hok := iterABC_ok ((A.row i).map Prod.fst) ((B.row i).map Prod.fst) [] _ [] _ rfl rfl (hA.sorted i)
            (hB.sorted i) (by simp) (by simp)
          have key : (iterABC 0 ((A.row i).map Prod.fst) 0 ((B.row i).map Prod.fst)).map
              (fun ev => (mergeEv (A.row i) (B.row i) ev).map Prod.fst) =
              (iterABC 0 ((A.row i).map Prod.fst) 0 ((B.row i).map Prod.fst)).map
                (evVal ((A.row i).map Prod.fst) ((B.row i).map Prod.fst)) := by
            refine List.map_congr_left fun ev hev => ?_
            have hsome : ∃ y, mergeEv (A.row i) (B.row i) ev = some y := by
              have : mergeEv (A.row i) (B.row i) ev ∈ (rows i).map some := by
                rw [← hmm]; exact List.mem_map_of_mem hev
              obtain ⟨y, _, hy⟩ := List.mem_map.1 this
              exact ⟨y, hy.symm⟩
            obtain ⟨y, hy⟩ := hsome
            cases ev with
            | aNotB k => simp [mergeEv, evVal]
            | bNotA k =>
              rw [hy]
              simp only [mergeEv, Option.bind_eq_some_iff, Option.map_eq_some_iff] at hy
              obtain ⟨e, he, f, hf, rfl⟩ := hy
              simp [evVal, he]
            | inter k l =>
              rw [hy]
              simp only [mergeEv, Option.bind_eq_some_iff, Option.map_eq_some_iff] at hy
              obtain ⟨e, he, f, hf, rfl⟩ := hy
              simp [evVal, he]
          simp only [List.length_nil] at hm
          rw [hm] at key
          have h3 : ((rows i).map Prod.fst).map some =
              (iterABC 0 ((A.row i).map Prod.fst) 0 ((B.row i).map Prod.fst)).map
              (fun ev => (mergeEv (A.row i) (B.row i) ev).map Prod.fst) := by
            rw [show (fun ev => (mergeEv (A.row i) (B.row i) ev).map Prod.fst) =
              Option.map Prod.fst ∘ mergeEv (A.row i) (B.row i) from rfl, ← List.map_map, hmm, List.map_map, List.map_map]
            rfl
          rw [key] at h3
          exact List.map_injective_iff.2 (Option.some_injective _) h3
    · rw [h2 i (Nat.not_lt.1 hi), hA.outside i (Nat.not_lt.1 hi), hB.outside i (hh ▸ Nat.not_lt.1 hi)]
      simp [merge2]
  have hmem : ∀ i j, (∃ v, (j, v) ∈ rows i) ↔ (∃ v, (j, v) ∈ A.row i) ∨ ∃ v, (j, v) ∈ B.row i := by
    intro i j
    have hx : ∀ l : List (ℕ × Mt a b K), (∃ v, (j, v) ∈ l) ↔ j ∈ l.map Prod.fst := by
      intro l
      simp
    rw [hx, hx, hx, hcols, mem_merge2]
  refine ⟨⟨fun i => ?_, fun i e he => ?_, fun i hi => h2 i hi⟩, rfl, rfl, hmem⟩
  · change ((rows i).map Prod.fst).Pairwise _
    rw [hcols]; exact merge2_pairwise _ _ (hA.sorted i) (hB.sorted i)
  · rcases (hmem i e.1).1 ⟨e.2, he⟩ with ⟨v, hv⟩ | ⟨v, hv⟩
    · exact hA.inRange i (e.1, v) hv
    · exact Nat.lt_of_lt_of_eq (hB.inRange i (e.1, v) hv) hw.symm

/-- **C15, what does hold (2).** If no row has entries in both matrices, `1 A + 1 B` is exact. -/
theorem addMerge_disjoint_partial (A B : CSR (Mt a b K)) (hA : A.WF) (hB : B.WF) (hh : A.height = B.height)
    (hd : ∀ i, A.row i = [] ∨ B.row i = []) :
    ∃ C, addMerge 1 A 1 B = some C ∧ ∀ i j, C.entry i j = A.entry i j + B.entry i j := by
  refine ⟨⟨A.height, A.width, fun i => A.row i ++ B.row i⟩, ?_, ?_⟩
  · unfold addMerge
    rw [collect_spec A.height _ (fun i => A.row i ++ B.row i), Option.map_some]
    · intro i _
      unfold mergeRow
      rcases hd i with h | h
      · by_cases hb : B.row i = [] <;> simp [h, hb]
      · simp [h]
    · intro i hi
      simp [hA.outside i hi, hB.outside i (hh ▸ hi)]
  · intro i j
    simp [CSR.entry]

/-- **C15** for the variant `AddSPM` (not used by the code any more): exact for matrices with the same graph. -/
theorem addSPM_correct (alpha beta : K) (A B : CSR (Mt a b K)) (hA : A.WF) (hB : B.WF)
    (hg : ∀ i, (B.row i).map Prod.fst = (A.row i).map Prod.fst) :
    ∃ C, addSPM alpha A beta B = some C ∧ C.WF ∧
      ∀ i j, C.entry i j = alpha • A.entry i j + beta • B.entry i j := by
  have hrow : ∀ i, ((A.row i).zipIdx.mapM fun e =>
      ((B.row i)[e.2]?).map fun f => (e.1.1, alpha • e.1.2 + beta • f.2)) =
      some ((A.row i).map fun e => (e.1, alpha • e.2 + beta • B.entry i e.1)) := by
    intro i
    rw [mapM_some _ _ (fun e => (e.1.1, alpha • e.1.2 + beta • B.entry i e.1.1))]
    · congr 1
      have : ∀ (l : List (ℕ × Mt a b K)) (k : ℕ), (l.zipIdx k).map
          (fun e => (e.1.1, alpha • e.1.2 + beta • B.entry i e.1.1)) =
          l.map fun e => (e.1, alpha • e.2 + beta • B.entry i e.1) := by
        intro l
        induction l with
        | nil => simp
        | cons x l ih => intro k; simp [List.zipIdx_cons, ih]
      exact this _ 0
    · rintro ⟨e, k⟩ he
      have he' := List.mem_zipIdx_iff_getElem?.1 he
      have hc : ((B.row i).map Prod.fst)[k]? = some e.1 := by rw [hg, List.getElem?_map, he']; rfl
      rw [List.getElem?_map, Option.map_eq_some_iff] at hc
      obtain ⟨f, hf, hfe⟩ := hc
      simp only [hf, Option.map_some]
      rw [entry_of_mem B i e.1 f.2 (hB.sorted i) (by rw [← hfe]; exact List.mem_of_getElem? hf)]
  refine ⟨_, by
    unfold addSPM
    rw [collect_spec A.height _ _ (fun i _ => hrow i) (fun i hi => by simp [hA.outside i hi]), Option.map_some], ?_, ?_⟩
  · refine ⟨fun i => ?_, fun i e he => ?_, fun i hi => by simp [hA.outside i hi]⟩
    · simp only [List.map_map]; exact hA.sorted i
    · simp only [List.mem_map] at he
      obtain ⟨e', he', rfl⟩ := he
      exact hA.inRange i e' he'
  · intro i j
    by_cases h : ∃ v, (j, v) ∈ A.row i
    · obtain ⟨v, hv⟩ := h
      rw [entry_of_mem A i j v (hA.sorted i) hv]
      refine entry_of_mem _ i j _ ?_ (List.mem_map.2 ⟨_, hv, rfl⟩)
      simp only [List.map_map]; exact hA.sorted i
    · push Not at h
      have hb : ∀ v, (j, v) ∉ B.row i := by
        intro v hv
        have : j ∈ (A.row i).map Prod.fst := by rw [← hg]; exact List.mem_map.2 ⟨_, hv, rfl⟩
        obtain ⟨e, he, rfl⟩ := List.mem_map.1 this
        exact h e.2 he
      rw [entry_of_not_mem A i j h, entry_of_not_mem B i j hb]
      simp only [smul_zero, add_zero]
      apply entry_of_not_mem
      intro v hv
      obtain ⟨e, he, hh⟩ := List.mem_map.1 hv
      simp only [Prod.mk.injEq] at hh
      exact h e.2 (hh.1 ▸ he)

/-! ### C14: identity -/

/-- **C14 is violated by the code** for every size and block size: the first diagonal block of the "identity" is zero. -/
theorem sparseIdentity_wrong (n H : ℕ) (hn : 0 < n) (_hH : 0 < H) :
    (sparseIdentity n H none : CSR (Mt n n ℤ)).entry 0 0 ≠ 1 := by
  have h0 : (sparseIdentity n H none : CSR (Mt n n ℤ)).entry 0 0 = 0 := by
    apply entry_of_not_mem
    intro v hv
    simp only [sparseIdentity] at hv
    split_ifs at hv
    · rw [List.mem_singleton] at hv
      exact absurd (congrArg Prod.fst hv) (by simp)
    · simp at hv
  rw [h0]
  intro h
  have := congrFun (congrFun h ⟨0, hn⟩) ⟨0, hn⟩
  simp at this

/-- **C14**: for size 1 the column index is even out of range -/
theorem sparseIdentity_not_wf (n : ℕ) : ¬ (sparseIdentity n 1 none : CSR (Mt n n ℤ)).WF := by
  intro h
  have := h.inRange 0 (1, fun _ _ => 1) (by simp [sparseIdentity])
  simp [sparseIdentity] at this

/-- **C14**, what the matrix is: it maps every vector to copies of its block 1, summed over components -/
theorem sparseIdentity_action (n H : ℕ) (x : BVec n) (i : ℕ) (hi : i < H) :
    multRow (sparseIdentity n H none) x i = fun _ => ∑ l, x 1 l := by
  funext k
  simp [multRow, rowTimesVector, sparseIdentity, hi, mulVec, dotProduct]

/-! ### C43: permutation matrices -/

/-- **C43.** The permutation matrix of an arbitrary array of indices acts as `y_k = x_{sort[k]}`. -/
theorem permutationMatrix_action (n : ℕ) (sort : List ℕ) (x : BVec n) (k s : ℕ) (h : sort[k]? = some s) :
    multRow (permutationMatrix n sort) x k = x s := by
  simp [multRow, rowTimesVector, permutationMatrix, h]

theorem permutationMatrix_wf (n : ℕ) (sort : List ℕ) (h : ∀ s ∈ sort, s < sort.length) :
    (permutationMatrix n sort : CSR (Mt n n K)).WF := by
  refine ⟨fun i => ?_, fun i e he => ?_, fun i hi => ?_⟩
  · simp only [permutationMatrix]; rcases sort[i]? with _ | s <;> simp
  · simp only [permutationMatrix] at he ⊢
    rcases hs : sort[i]? with _ | s
    · simp [hs] at he
    · simp only [hs, Option.map_some, Option.getD_some, List.mem_singleton] at he
      rw [he]; exact h s (List.mem_of_getElem? hs)
  · simp only [permutationMatrix] at hi ⊢
    simp [List.getElem?_eq_none hi]

theorem permutationMatrix_entry (n : ℕ) (sort : List ℕ) (i j : ℕ) :
    (permutationMatrix n sort : CSR (Mt n n K)).entry i j = if sort[i]? = some j then 1 else 0 := by
  simp only [CSR.entry, permutationMatrix]
  rcases hs : sort[i]? with _ | s
  · simp
  · by_cases h : s = j <;> simp [h]

/-- **C43.** The permutation matrix of a permutation is orthogonal: `P^T P = I` and `P P^T = I`, with the transpose and
the products computed by the code. -/
theorem permutationMatrix_orthogonal (nhash : ℕ → ℕ) (junk mjunk : ℕ → ℕ → ℕ × ℕ) (n : ℕ) (sort : List ℕ)
    (hs : sort.Perm (List.range sort.length)) (hl : sort.length ≤ 2 ^ 30) :
    ∃ T C D, transpose (permutationMatrix n sort : CSR (Mt n n K)) = some T ∧
      matMultAB nhash junk mjunk T (permutationMatrix n sort) = some C ∧
      matMultAB nhash junk mjunk (permutationMatrix n sort) T = some D ∧
      (∀ i j, i < sort.length → C.entry i j = if i = j then 1 else 0) ∧
      ∀ i j, i < sort.length → D.entry i j = if i = j then 1 else 0 := by
  have hlt : ∀ s ∈ sort, s < sort.length := fun s h => by simpa using hs.mem_iff.1 h
  have hnd : sort.Nodup := hs.nodup_iff.2 List.nodup_range
  have hwf := permutationMatrix_wf (K := K) n sort hlt
  obtain ⟨T, hT, hTwf, hTh, hTw, hTe⟩ := transpose_correct _ hwf
  obtain ⟨C, hC, _, _, _, hCe, _⟩ := matMultAB_correct nhash junk mjunk T (permutationMatrix n sort) hTwf hwf hTw hl
  obtain ⟨D, hD, _, _, _, hDe, _⟩ := matMultAB_correct nhash junk mjunk (permutationMatrix n sort) T hwf hTwf hTh.symm
    (by rw [hTw]; exact hl)
  refine ⟨T, C, D, hT, hC, hD, ?_, ?_⟩
  · intro i j hi
    rw [hCe, hTw]
    simp only [hTe, permutationMatrix_entry]
    obtain ⟨k, hk⟩ := List.mem_iff_getElem?.1 (hs.mem_iff.2 (List.mem_range.2 hi))
    have hkl := (List.getElem?_eq_some_iff.1 hk).1
    rw [Finset.sum_eq_single k]
    · by_cases hij : i = j
      · simp [hk, hij]
      · simp [hk, hij]
    · intro l _ hlk
      have : sort[l]? ≠ some i := by
        intro h
        have hll := (List.getElem?_eq_some_iff.1 h).1
        exact hlk ((List.getElem?_inj hll hnd).1 (h.trans hk.symm))
      simp [this]
    · intro h; exact absurd (mem_range.2 hkl) h
  · intro i j hi
    rw [hDe]
    simp only [hTe, permutationMatrix_entry]
    obtain ⟨s, hs'⟩ : ∃ s, sort[i]? = some s := ⟨_, List.getElem?_eq_getElem hi⟩
    rw [Finset.sum_eq_single s]
    · by_cases hij : i = j
      · subst hij; simp [hs']
      · have : sort[j]? ≠ some s := fun h => hij ((List.getElem?_inj hi hnd).1 (hs'.trans h.symm))
        simp [hs', hij, this]
    · intro l _ hls
      have : sort[i]? ≠ some l := by rw [hs']; exact fun h => hls (Option.some.inj h).symm
      simp [this]
    · intro h
      exact absurd (mem_range.2 (hlt s (List.mem_of_getElem? hs'))) h

example : ([2, 0, 1] : List ℕ).Perm (List.range ([2, 0, 1] : List ℕ).length) := by decide

/-! ### C44: embedding -/

/-- **C44.** Embedding a matrix into rows `off ..` of a taller one: the entries are shifted, all other rows are empty. -/
theorem embed_correct (A : CSR (Mt a b K)) (hA : A.WF) (off bigH : ℕ) (h : off + A.height ≤ bigH) :
    ∃ C, embed A off bigH = some C ∧ C.WF ∧ C.height = bigH ∧ C.width = A.width ∧
      ∀ i j, C.entry i j = if off ≤ i then A.entry (i - off) j else 0 := by
  refine ⟨{ height := bigH, width := A.width, row := fun i => if off ≤ i ∧ i < off + A.height then A.row (i - off) else [] },
    by unfold embed; rw [if_pos h], ⟨fun i => ?_, fun i e he => ?_, fun i hi => ?_⟩, rfl, rfl, ?_⟩
  · simp only; split_ifs
    · exact hA.sorted _
    · simp
  · simp only at he ⊢; split_ifs at he
    · exact hA.inRange _ e he
    · simp at he
  · simp only at hi ⊢; rw [if_neg (by omega)]
  · intro i j
    simp only [CSR.entry]
    by_cases h1 : off ≤ i
    · by_cases h2 : i < off + A.height
      · simp [h1, h2]
      · simp [h1, h2, hA.outside (i - off) (by omega)]
    · simp [h1]

/-- **C44**: too few rows is out of bounds -/
theorem embed_ub (A : CSR (Mt a b K)) (off bigH : ℕ) (h : bigH < off + A.height) : embed A off bigH = none := by
  unfold embed; rw [if_neg (by omega)]

/-! ### C16: dropping small entries -/

/-- specification: sum of absolute values of the entries of a block -/
def blockSize {n m : ℕ} (M : Mt n m ℝ) : ℝ := ∑ i, ∑ j, |M i j|

theorem absSum_eq {n m : ℕ} (M : Mt n m ℝ) (h : ¬ (n = 1 ∧ m = 1) ∨ ∀ i j, 0 ≤ M i j) : absSum M = blockSize M := by
  unfold absSum blockSize
  split
  · rename_i h1
    rcases h with h | h
    · exact absurd h1 h
    · obtain ⟨rfl, rfl⟩ := h1
      simp [abs_of_nonneg (h 0 0)]
  · rfl

theorem compress_wf {n m : ℕ} (A : CSR (Mt n m ℝ)) (hA : A.WF) (t : ℝ) : (compress A t).WF := by
  refine ⟨fun i => ?_, fun i e he => ?_, fun i hi => ?_⟩
  · simp only [compress]; split_ifs
    · exact (hA.sorted i).sublist (List.filter_sublist.map _)
    · simp
  · simp only [compress] at he ⊢; split_ifs at he
    · exact hA.inRange i e (List.mem_filter.1 he).1
    · simp at he
  · simp only [compress] at hi ⊢; rw [if_neg (by omega)]

theorem compress_mem {n m : ℕ} (A : CSR (Mt n m ℝ)) (hA : A.WF) (t : ℝ) (i : ℕ) (e : ℕ × Mt n m ℝ) :
    e ∈ (compress A t).row i ↔ e ∈ A.row i ∧ t < absSum e.2 := by
  simp only [compress]
  by_cases hi : i < A.height
  · simp [hi]
  · simp [hi, hA.outside i (Nat.not_lt.1 hi)]

/-- **C16, what does hold.** For proper blocks (not `1 x 1`), or for matrices without negative entries, compression keeps exactly
the stored entries whose sum of absolute values exceeds `thresh * n * m`, with unchanged values. -/
theorem compress_correct_partial {n m : ℕ} (A : CSR (Mt n m ℝ)) (hA : A.WF) (t : ℝ)
    (h : ¬ (n = 1 ∧ m = 1) ∨ ∀ i, ∀ e ∈ A.row i, ∀ k l, 0 ≤ e.2 k l) :
    (compressGeneric A t).WF ∧ ∀ i j v, (j, v) ∈ (compressGeneric A t).row i ↔
      (j, v) ∈ A.row i ∧ t * n * m < blockSize v := by
  refine ⟨compress_wf A hA _, fun i j v => ?_⟩
  unfold compressGeneric
  rw [compress_mem A hA]
  constructor
  · rintro ⟨h1, h2⟩
    refine ⟨h1, ?_⟩
    rwa [absSum_eq v (h.imp id fun h => h i _ h1)] at h2
  · rintro ⟨h1, h2⟩
    refine ⟨h1, ?_⟩
    rwa [absSum_eq v (h.imp id fun h => h i _ h1)]

/-- **C16.** Every dense entry changes by at most the threshold. -/
theorem compress_error_partial {n m : ℕ} (A : CSR (Mt n m ℝ)) (hA : A.WF) (t : ℝ) (ht : 0 ≤ t)
    (h : ¬ (n = 1 ∧ m = 1) ∨ ∀ i, ∀ e ∈ A.row i, ∀ k l, 0 ≤ e.2 k l) (i j : ℕ) :
    blockSize (A.entry i j - (compressGeneric A t).entry i j) ≤ t * n * m := by
  obtain ⟨hwf, hmem⟩ := compress_correct_partial A hA t h
  have ht' : 0 ≤ t * n * m := by positivity
  by_cases hj : ∃ v, (j, v) ∈ A.row i
  · obtain ⟨v, hv⟩ := hj
    rw [entry_of_mem A i j v (hA.sorted i) hv]
    by_cases hk : t * n * m < blockSize v
    · rw [entry_of_mem _ i j v (hwf.sorted i) ((hmem i j v).2 ⟨hv, hk⟩)]
      simpa [blockSize] using ht'
    · rw [entry_of_not_mem (compressGeneric A t) i j, sub_zero]
      · exact not_lt.1 hk
      · intro w hw
        have h1 := ((hmem i j w).1 hw)
        have : w = v := by
          rw [← entry_of_mem A i j w (hA.sorted i) h1.1, entry_of_mem A i j v (hA.sorted i) hv]
        exact hk (this ▸ h1.2)
  · push Not at hj
    rw [entry_of_not_mem A i j hj, entry_of_not_mem (compressGeneric A t) i j fun w hw => hj w ((hmem i j w).1 hw).1]
    simpa [blockSize] using ht'

/-- **C16 is violated by the code** for scalar matrices: every negative entry is dropped, however large it is. -/
theorem compress_drops_negative (A : CSR (Mt 1 1 ℝ)) (hA : A.WF) (t : ℝ) (ht : 0 ≤ t) (i j : ℕ) (v : Mt 1 1 ℝ)
    (hv : v 0 0 ≤ 0) : (j, v) ∉ (compressGeneric A t).row i := by
  unfold compressGeneric
  rw [compress_mem A hA]
  rintro ⟨_, h⟩
  simp only [absSum, and_self, dif_pos] at h
  have : v ⟨0, by omega⟩ ⟨0, by omega⟩ = v 0 0 := rfl
  rw [this] at h
  norm_num at h
  linarith

/-- a scalar `1 x 1` matrix with the entry `-1`: hypotheses of `compress_drops_negative` -/
example : ∃ A : CSR (Mt 1 1 ℝ), A.WF ∧ A.entry 0 0 = !![-1] ∧ (compressGeneric A 0).row 0 = [] := by
  have wf : (⟨1, 1, fun i => if i = 0 then [(0, !![-1])] else []⟩ : CSR (Mt 1 1 ℝ)).WF := by
    refine ⟨fun i => by simp only; split_ifs <;> simp, fun i e he => ?_, fun i hi => ?_⟩
    · simp only at he ⊢; split_ifs at he <;> simp at he; simp [he]
    · simp only at hi ⊢; rw [if_neg (by omega)]
  refine ⟨_, wf, by simp [CSR.entry], ?_⟩
  rw [List.eq_nil_iff_forall_not_mem]
  rintro ⟨j, v⟩ h
  have h' := h
  unfold compressGeneric at h'
  rw [compress_mem _ wf] at h'
  have hv : v = !![-1] := by have := h'.1; simp at this; exact this.2
  exact compress_drops_negative _ wf 0 le_rfl 0 j v (by rw [hv]; norm_num) h

/-! ### C45: restriction to blocks -/

theorem foldl_zeroAt_getElem? {E : Type*} [Zero E] (idxs : List ℕ) (row : List (ℕ × E)) (k : ℕ) :
    (idxs.foldl zeroAt row)[k]? = (row[k]?).map fun e => if k ∈ idxs then (e.1, 0) else e := by
  induction idxs generalizing row with
  | nil => simp
  | cons i idxs ih =>
    rw [List.foldl_cons, ih, zeroAt, List.getElem?_modify]
    rcases row[k]? with _ | e
    · simp
    · by_cases hik : i = k
      · subst hik; simp
      · simp [hik, Ne.symm hik]

/-- one row after removing the columns outside of a block -/
theorem zeroed_row {E : Type*} [Zero E] (row : List (ℕ × E)) (cb : List ℕ) (hr : (row.map Prod.fst).Pairwise (· < ·))
    (hc : cb.Pairwise (· < ·)) :
    (iterANotB 0 (row.map Prod.fst) cb).foldl zeroAt row = row.map fun e => if e.1 ∈ cb then e else (e.1, 0) := by
  apply List.ext_getElem?
  intro k
  rw [foldl_zeroAt_getElem?, List.getElem?_map]
  rcases hk : row[k]? with _ | e
  · rfl
  · have := (iterANotB_correct (row.map Prod.fst) cb hr hc).1 k
    rw [List.getElem?_map, hk] at this
    simp only [Option.map_some, Option.some.injEq, exists_eq_left'] at this
    by_cases he : e.1 ∈ cb
    · simp [this, he]
    · simp [this, he]

/-- specification: position `(i,j)` is removed by one of the blocks -/
def Removed (blocks : List (List ℕ × List ℕ)) (i j : ℕ) : Prop := ∃ blk ∈ blocks, i ∈ blk.1 ∧ j ∉ blk.2

theorem zeroRows_spec {E : Type*} [AddCommMonoid E] (cb : List ℕ) (hc : cb.Pairwise (· < ·)) (rb : List ℕ) (A : CSR E)
    (hA : A.WF) : (rb.foldl (zeroRow cb) A).height = A.height ∧ (rb.foldl (zeroRow cb) A).width = A.width ∧
      ∀ i, (rb.foldl (zeroRow cb) A).row i = if i ∈ rb then (A.row i).map fun e => if e.1 ∈ cb then e else (e.1, 0)
        else A.row i := by
  induction rb generalizing A with
  | nil => simp
  | cons r rb ih =>
    have hz : (zeroRow cb A r).row = Function.update A.row r ((A.row r).map fun e => if e.1 ∈ cb then e else (e.1, 0)) := by
      unfold zeroRow
      simp only [zeroed_row (A.row r) cb (hA.sorted r) hc]
    have hfst : ∀ l : List (ℕ × E), (l.map fun e => if e.1 ∈ cb then e else (e.1, 0)).map Prod.fst = l.map Prod.fst := by
      intro l
      rw [List.map_map]
      refine List.map_congr_left fun e _ => ?_
      simp only [Function.comp]
      split_ifs <;> rfl
    have hwf : (zeroRow cb A r).WF := by
      refine ⟨fun i => ?_, fun i e he => ?_, fun i hi => ?_⟩
      · rw [hz]
        by_cases hi : i = r
        · subst hi; rw [Function.update_self, hfst]; exact hA.sorted i
        · rw [Function.update_of_ne hi]; exact hA.sorted i
      · rw [hz] at he
        by_cases hi : i = r
        · subst hi
          rw [Function.update_self] at he
          have : e.1 ∈ (A.row i).map Prod.fst := by rw [← hfst]; exact List.mem_map_of_mem he
          obtain ⟨e', he', h'⟩ := List.mem_map.1 this
          rw [← h']; exact hA.inRange i e' he'
        · rw [Function.update_of_ne hi] at he; exact hA.inRange i e he
      · rw [hz]
        by_cases hir : i = r
        · subst hir
          rw [Function.update_self, hA.outside i hi]; rfl
        · rw [Function.update_of_ne hir]; exact hA.outside i hi
    obtain ⟨h1, h2, h3⟩ := ih _ hwf
    refine ⟨by rw [List.foldl_cons, h1]; rfl, by rw [List.foldl_cons, h2]; rfl, fun i => ?_⟩
    rw [List.foldl_cons, h3, hz]
    by_cases hi : i = r
    · subst hi
      simp only [Function.update_self, List.mem_cons, true_or, if_true]
      split_ifs
      · rw [List.map_map]
        refine List.map_congr_left fun e _ => ?_
        simp only [Function.comp]
        by_cases he : e.1 ∈ cb <;> simp [he]
      · rfl
    · simp [Function.update_of_ne hi, hi]

theorem map_entry {E : Type*} [AddCommMonoid E] (A B : CSR E) (hA : A.WF) (i j : ℕ) (F : ℕ → E → E) (hF : ∀ j, F j 0 = 0)
    (hB : B.row i = (A.row i).map fun e => (e.1, F e.1 e.2)) : B.entry i j = F j (A.entry i j) := by
  have hs : ((B.row i).map Prod.fst).Pairwise (· < ·) := by
    rw [hB, List.map_map]; exact hA.sorted i
  by_cases h : ∃ v, (j, v) ∈ A.row i
  · obtain ⟨v, hv⟩ := h
    rw [entry_of_mem A i j v (hA.sorted i) hv]
    exact entry_of_mem B i j _ hs (by rw [hB]; exact List.mem_map.2 ⟨_, hv, rfl⟩)
  · push Not at h
    rw [entry_of_not_mem A i j h, hF]
    apply entry_of_not_mem
    intro v hv
    rw [hB] at hv
    obtain ⟨e, he, hh⟩ := List.mem_map.1 hv
    simp only [Prod.mk.injEq] at hh
    exact h e.2 (hh.1 ▸ he)

open Classical in
/-- **C45.** Restricting a matrix to blocks (the in-place step): entries in rows of a block and outside of the columns of that
block become zero, all others stay; the graph does not change. -/
theorem zeroBlocks_correct {E : Type*} [AddCommMonoid E] (blocks : List (List ℕ × List ℕ))
    (hc : ∀ blk ∈ blocks, blk.2.Pairwise (· < ·)) (A : CSR E) (hA : A.WF) :
    (zeroBlocks blocks A).WF ∧ (zeroBlocks blocks A).height = A.height ∧ (zeroBlocks blocks A).width = A.width ∧
      (∀ i, (zeroBlocks blocks A).row i = (A.row i).map fun e => (e.1, if Removed blocks i e.1 then 0 else e.2)) ∧
      ∀ i j, (zeroBlocks blocks A).entry i j = if Removed blocks i j then 0 else A.entry i j := by
  have hrow : (zeroBlocks blocks A).height = A.height ∧ (zeroBlocks blocks A).width = A.width ∧
      ∀ i, (zeroBlocks blocks A).row i = (A.row i).map fun e => (e.1, if Removed blocks i e.1 then 0 else e.2) := by
    unfold zeroBlocks
    induction blocks generalizing A with
    | nil => simp [Removed]
    | cons blk blocks ih =>
      obtain ⟨h1, h2, h3⟩ := zeroRows_spec blk.2 (hc blk (by simp)) blk.1 A hA
      have hfst : ∀ i, ((blk.1.foldl (zeroRow blk.2) A).row i).map Prod.fst = (A.row i).map Prod.fst := by
        intro i
        rw [h3]
        split_ifs
        · rw [List.map_map]
          refine List.map_congr_left fun e _ => ?_
          simp only [Function.comp]
          split_ifs <;> rfl
        · rfl
      have hwf : (blk.1.foldl (zeroRow blk.2) A).WF := by
        refine ⟨fun i => by rw [hfst]; exact hA.sorted i, fun i e he => ?_, fun i hi => ?_⟩
        · have : e.1 ∈ (A.row i).map Prod.fst := by rw [← hfst]; exact List.mem_map_of_mem he
          obtain ⟨e', he', h'⟩ := List.mem_map.1 this
          rw [← h', h2]; exact hA.inRange i e' he'
        · rw [h3, hA.outside i (h1 ▸ hi)]; simp
      obtain ⟨g1, g2, g3⟩ := ih (fun b hb => hc b (by simp [hb])) _ hwf
      refine ⟨by rw [List.foldl_cons, g1, h1], by rw [List.foldl_cons, g2, h2], fun i => ?_⟩
      rw [List.foldl_cons, g3, h3]
      by_cases hi : i ∈ blk.1
      · rw [if_pos hi, List.map_map]
        refine List.map_congr_left fun e _ => ?_
        simp only [Function.comp]
        by_cases he : e.1 ∈ blk.2
        · have : Removed (blk :: blocks) i e.1 ↔ Removed blocks i e.1 := by simp [Removed, he]
          simp [he, this]
        · have : Removed (blk :: blocks) i e.1 := ⟨blk, by simp, hi, he⟩
          simp [he, this]
      · rw [if_neg hi]
        refine List.map_congr_left fun e _ => ?_
        have : Removed (blk :: blocks) i e.1 ↔ Removed blocks i e.1 := by simp [Removed, hi]
        simp [this]
  obtain ⟨h1, h2, h3⟩ := hrow
  refine ⟨⟨fun i => ?_, fun i e he => ?_, fun i hi => ?_⟩, h1, h2, h3, fun i j => ?_⟩
  · rw [h3, List.map_map]; exact hA.sorted i
  · rw [h3] at he
    obtain ⟨e', he', rfl⟩ := List.mem_map.1 he
    rw [h2]; exact hA.inRange i e' he'
  · rw [h3, hA.outside i (h1 ▸ hi)]; rfl
  · rw [map_entry A (zeroBlocks blocks A) hA i j (fun j v => if Removed blocks i j then 0 else v) (by simp) (h3 i)]

/-- **C45, what does hold.** For proper blocks (not `1 x 1`) or non-negative matrices, and a tolerance `0 ≤ tol`, the restricted
matrix stores exactly the entries that are in the blocks and larger than the tolerance. (For scalar matrices negative entries
are lost as well, `compress_drops_negative`.) -/
theorem restrictToBlocks_correct_partial {n m : ℕ} (A : CSR (Mt n m ℝ)) (hA : A.WF) (blocks : List (List ℕ × List ℕ))
    (hc : ∀ blk ∈ blocks, blk.2.Pairwise (· < ·)) (tol : ℝ) (ht : 0 ≤ tol)
    (h : ¬ (n = 1 ∧ m = 1) ∨ ∀ i, ∀ e ∈ A.row i, ∀ k l, 0 ≤ e.2 k l) :
    (restrictToBlocks A blocks tol).WF ∧ ∀ i j v, (j, v) ∈ (restrictToBlocks A blocks tol).row i ↔
      (j, v) ∈ A.row i ∧ ¬ Removed blocks i j ∧ tol < blockSize v := by
  obtain ⟨hwf, _, _, hrow, _⟩ := zeroBlocks_correct blocks hc A hA
  refine ⟨compress_wf _ hwf _, fun i j v => ?_⟩
  unfold restrictToBlocks
  rw [compress_mem _ hwf, hrow]
  simp only [List.mem_map, Prod.mk.injEq]
  constructor
  · rintro ⟨⟨e, he, rfl, rfl⟩, hs⟩
    by_cases hr : Removed blocks i e.1
    · rw [if_pos hr, absSum_eq (0 : Mt n m ℝ) (Or.inr fun _ _ => le_refl (0 : ℝ))] at hs
      simp [blockSize] at hs
      linarith
    · rw [if_neg hr] at hs ⊢
      exact ⟨he, hr, by rwa [absSum_eq _ (h.imp id fun h => h i _ he)] at hs⟩
  · rintro ⟨h1, h2, h3⟩
    exact ⟨⟨(j, v), h1, rfl, by simp [h2]⟩, by rwa [absSum_eq v (h.imp id fun h => h i _ h1)]⟩

/-! ### C42: symbolic expressions -/

section
variable {K : Type} [CommRing K]

/-- specification: the dense matrix an expression stands for (height, width, entries) -/
structure Dense (K : Type) (a b : ℕ) where
  h : ℕ
  w : ℕ
  e : ℕ → ℕ → Mt a b K

/-- specification: an identity factor (an `IdentityMatrix` has no size of its own) -/
def IsIdent {a b : ℕ} (e : Expr K a b) : Prop := match e with | .ident => True | _ => False

/-- specification: value of an expression. `Val e D`: the expression is meaningful (dimensions conform, embedded matrices
fit) and stands for the dense matrix `D` -/
inductive Val : {a b : ℕ} → Expr K a b → Dense K a b → Prop
  | sparse {a b : ℕ} (A : CSR (Mt a b K)) (hA : A.WF) (hw : A.width ≤ 2 ^ 30) (hh : A.height ≤ 2 ^ 30) :
      Val (.sparse A) ⟨A.height, A.width, A.entry⟩
  | trans {a b : ℕ} (e : Expr K a b) (D : Dense K a b) : Val e D → Val (.trans e) ⟨D.w, D.h, fun i j => (D.e j i)ᵀ⟩
  | prod {a b c : ℕ} (e : Expr K a b) (f : Expr K b c) (D : Dense K a b) (F : Dense K b c) : Val e D → Val f F → D.w = F.h →
      Val (.prod e f) ⟨D.h, F.w, fun i j => ∑ k ∈ range D.w, D.e i k * F.e k j⟩
  | prodIdR {a b : ℕ} (e : Expr K a b) (D : Dense K a b) : Val e D → Val (.prod e .ident) D
  | prodIdL {a b : ℕ} (f : Expr K a b) (D : Dense K a b) : Val f D → Val (.prod .ident f) D
  | embed {a b : ℕ} (e : Expr K a b) (D : Dense K a b) (off bigH : ℕ) : Val e D → off + D.h ≤ bigH → bigH ≤ 2 ^ 30 →
      Val (.embed e off bigH) ⟨bigH, D.w, fun i j => if off ≤ i then D.e (i - off) j else 0⟩

theorem Val.not_ident {a b : ℕ} {e : Expr K a b} {D : Dense K a b} (h : Val e D) : ¬ IsIdent e := by
  cases h <;> simp [IsIdent]

theorem prodConv_ne (nhash : ℕ → ℕ) (junk mjunk : ℕ → ℕ → ℕ × ℕ) {a b c : ℕ} (e : Expr K a b) (f : Expr K b c)
    (A : CSR (Mt a b K)) (B : CSR (Mt b c K)) (he : ¬ IsIdent e) (hf : ¬ IsIdent f) :
    prodConv nhash junk mjunk e f (some A) (some B) = matMultAB nhash junk mjunk A B := by
  unfold prodConv
  cases f <;> first | exact absurd trivial hf | skip
  all_goals
    simp only
    cases e <;> first | exact absurd trivial he | rfl

theorem prodConv_idL (nhash : ℕ → ℕ) (junk mjunk : ℕ → ℕ → ℕ × ℕ) {a b : ℕ} (f : Expr K a b) (se : Option (CSR (Mt a a K)))
    (sf : Option (CSR (Mt a b K))) (hf : ¬ IsIdent f) : prodConv nhash junk mjunk .ident f se sf = sf := by
  unfold prodConv
  cases f <;> first | exact absurd trivial hf | rfl

/-- **C42, what does hold.** Converting an expression built from sparse matrices by transposition, products (with identity
factors) and embedding succeeds and represents the same matrix. Missing: sums (wrong, `toSparse_sum_wrong`), scaled matrices and
lone identities (an exception, `toSparse_scale`), block matrices (wrong, `block2Sparse_wrong`). -/
theorem toSparse_correct_partial (nhash : ℕ → ℕ) (junk mjunk : ℕ → ℕ → ℕ × ℕ) {a b : ℕ} (e : Expr K a b) (D : Dense K a b)
    (h : Val e D) : ∃ S, toSparse nhash junk mjunk e = some S ∧ S.WF ∧ S.height = D.h ∧ S.width = D.w ∧
      D.h ≤ 2 ^ 30 ∧ D.w ≤ 2 ^ 30 ∧ ∀ i j, S.entry i j = D.e i j := by
  induction h with
  | sparse A hA hw hh => exact ⟨A, rfl, hA, rfl, rfl, hh, hw, fun _ _ => rfl⟩
  | trans e D _ ih =>
    obtain ⟨S, h1, h2, h3, h4, h5, h6, h7⟩ := ih
    obtain ⟨T, t1, t2, t3, t4, t5⟩ := transpose_correct S h2
    exact ⟨T, by simp [toSparse, h1, t1], t2, t3.trans h4, t4.trans h3, h6, h5, fun i j => by rw [t5, h7]⟩
  | prod e f D F he hf hd ih1 ih2 =>
    obtain ⟨S, h1, h2, h3, h4, h5, h6, h7⟩ := ih1
    obtain ⟨T, t1, t2, t3, t4, t5, t6, t7⟩ := ih2
    obtain ⟨C, c1, c2, c3, c4, c5, _⟩ := matMultAB_correct nhash junk mjunk S T h2 t2 (by rw [h4, t3, hd]) (by rw [t4]; exact t6)
    refine ⟨C, ?_, c2, c3.trans h3, c4.trans t4, h5, t6, fun i j => ?_⟩
    · rw [toSparse, h1, t1, prodConv_ne _ _ _ _ _ _ _ he.not_ident hf.not_ident, c1]
    · rw [c5, h4]
      exact sum_congr rfl fun k _ => by rw [h7, t7]
  | prodIdR e D _ ih =>
    obtain ⟨S, h1, h⟩ := ih
    exact ⟨S, by rw [toSparse, h1]; rfl, h⟩
  | prodIdL f D hf ih =>
    obtain ⟨S, h1, h⟩ := ih
    exact ⟨S, by rw [toSparse, h1, prodConv_idL _ _ _ _ _ _ hf.not_ident], h⟩
  | embed e D off bigH _ hoff hb ih =>
    obtain ⟨S, h1, h2, h3, h4, h5, h6, h7⟩ := ih
    obtain ⟨C, c1, c2, c3, c4, c5⟩ := embed_correct S h2 off bigH (by rw [h3]; exact hoff)
    refine ⟨C, by rw [toSparse, h1]; exact c1, c2, c3, c4.trans h4, hb, h6, fun i j => ?_⟩
    rw [c5]
    simp only [h7]

/-- **C42, negation.** The conversion of a sum of two matrices with the same graph is twice the first one. -/
theorem toSparse_sum_wrong (nhash : ℕ → ℕ) (junk mjunk : ℕ → ℕ → ℕ × ℕ) {a b : ℕ} (A B : CSR (Mt a b K)) (hA : A.WF)
    (hh : A.height = B.height) (hw : A.width = B.width) (hg : ∀ i, (B.row i).map Prod.fst = (A.row i).map Prod.fst) :
    ∃ S, toSparse nhash junk mjunk (.sum (.sparse A) (.sparse B)) = some S ∧
      ∀ i j, S.entry i j = A.entry i j + A.entry i j := by
  obtain ⟨C, h1, _, h3⟩ := addMerge_same_graph 1 1 A B hA hg
  exact ⟨C, by simp [toSparse, sumConv, hh, hw, h1], h3⟩

/-- **C42.** Adding an identity to a matrix that is not square is rejected (exception), on both sides of the sum. -/
theorem toSparse_sum_ident_not_square (nhash : ℕ → ℕ) (junk mjunk : ℕ → ℕ → ℕ × ℕ) {a : ℕ} (A : CSR (Mt a a K))
    (h : A.height ≠ A.width) :
    toSparse nhash junk mjunk (.sum (.sparse A) .ident) = none ∧ toSparse nhash junk mjunk (.sum .ident (.sparse A)) = none := by
  constructor <;> simp [toSparse, sumConv, h]

/-- **C42.** For a square matrix the sum with an identity is the computed sum with the sparse identity of the same height. -/
theorem toSparse_sum_ident_square (nhash : ℕ → ℕ) (junk mjunk : ℕ → ℕ → ℕ × ℕ) {a : ℕ} (A : CSR (Mt a a K))
    (h : A.height = A.width) :
    toSparse nhash junk mjunk (.sum (.sparse A) .ident) = addMerge 1 A 1 (sparseIdentity a A.height none) ∧
    toSparse nhash junk mjunk (.sum .ident (.sparse A)) = addMerge 1 (sparseIdentity a A.height none) 1 A := by
  constructor <;> simp [toSparse, sumConv, h]

example : (⟨1, 2, fun _ => []⟩ : CSR (Mt 1 1 ℤ)).height ≠ (⟨1, 2, fun _ => []⟩ : CSR (Mt 1 1 ℤ)).width := by decide

/-- **C42, negation.** Scaled matrices and lone identities cannot be converted. -/
theorem toSparse_scale (nhash : ℕ → ℕ) (junk mjunk : ℕ → ℕ → ℕ × ℕ) {a b : ℕ} (s : K) (e : Expr K a b) :
    toSparse nhash junk mjunk (.scale s e) = none := rfl

end

/-- **C42, negation.** The dimensions of a converted block matrix are never right (unless it is empty): its width is zero, its
height is the sum of all heights and widths. -/
theorem block2Sparse_wrong (hs ws : List ℕ) : (block2SparseDims hs ws).2 = 0 ∧
    (block2SparseDims hs ws).1 = hs.sum + ws.sum := by
  have gen : ∀ (l : List ℕ) (s : ℕ), l.foldl (· + ·) s = s + l.sum := by
    intro l
    induction l with
    | nil => simp
    | cons x l ih => intro s; simp [ih, Nat.add_assoc]
  refine ⟨rfl, ?_⟩
  simp [block2SparseDims, gen]

/-- an expression with all supported operations: `(P^T A) P` with an identity factor -/
example : ∃ S, toSparse (fun _ => 2048) (fun _ _ => (0, 0)) (fun _ _ => (0, 0))
    (.prod (.prod (.trans (.sparse exP)) (.prod (.sparse exA) .ident)) (.sparse exP)) = some S ∧
      S.entry 0 1 = !![0, 11; 0, 0] := by
  have hP : Val (.sparse exP) _ := Val.sparse exP exP_wf (by decide) (by decide)
  have hA : Val (.sparse exA) _ := Val.sparse exA exA_wf (by decide) (by decide)
  obtain ⟨S, h1, _, _, _, _, _, h7⟩ := toSparse_correct_partial (fun _ => 2048) (fun _ _ => (0, 0)) (fun _ _ => (0, 0)) _ _
    (Val.prod _ _ _ _ (Val.prod _ _ _ _ (Val.trans _ _ hP) (Val.prodIdR _ _ hA) rfl) hP rfl)
  exact ⟨S, h1, by rw [h7]; decide +kernel⟩

end NgsAMG.SparseLA
