import Verif.Model.CtrMap
import Verif.Props.MergeArrays
import Verif.Props.SortedArray
import Verif.Props.Permutation
import Verif.Props.SparseMM
import Verif.Props.RedTab
import Mathlib.Data.List.FinRange
import Mathlib.Data.List.OfFn
import Mathlib.Data.Fintype.Perm

/-! C86, first part: rows of the contracted matrix (`DoAssembleMatrix` on one master). -/

namespace NgsAMG.Ctr
open NgsAMG.DCC NgsAMG.SparseMM

variable {E : Type} [AddCommMonoid E]

/-- everything stored for column `c` -/
def colSum (L : List (ℕ × E)) (c : ℕ) : E := ((L.filter fun e => e.1 = c).map Prod.snd).sum

theorem colSum_nil (c : ℕ) : colSum ([] : List (ℕ × E)) c = 0 := rfl

theorem colSum_cons (e : ℕ × E) (L : List (ℕ × E)) (c : ℕ) : colSum (e :: L) c = (if e.1 = c then e.2 else 0) + colSum L c := by
  unfold colSum
  by_cases h : e.1 = c <;> simp [h]

theorem colSum_append (L L' : List (ℕ × E)) (c : ℕ) : colSum (L ++ L') c = colSum L c + colSum L' c := by simp [colSum]

theorem colSum_perm {L L' : List (ℕ × E)} (h : L.Perm L') (c : ℕ) : colSum L c = colSum L' c := ((h.filter _).map _).sum_eq

theorem colSum_zero {L : List (ℕ × E)} {c : ℕ} (h : c ∉ L.map Prod.fst) : colSum L c = 0 := by
  induction L with
  | nil => rfl
  | cons e L ih =>
    rw [List.map_cons, List.mem_cons, not_or] at h
    rw [colSum_cons, if_neg (Ne.symm h.1), ih h.2, zero_add]

theorem colSum_flatMap {α : Type} (l : List α) (f : α → List (ℕ × E)) (c : ℕ) : colSum (l.flatMap f) c = (l.map fun a => colSum (f a) c).sum := by
  induction l with
  | nil => rfl
  | cons a l ih => rw [List.flatMap_cons, colSum_append, ih, List.map_cons, List.sum_cons]

/-- what the sort of NGSolve has to do -/
def SortIOK (sortI : SortI) : Prop := ∀ n keys, ∃ σ : Equiv.Perm (Fin n), sortI n keys = Permutation.asInts σ ∧ ∀ i j, i ≤ j → keys (σ i) ≤ keys (σ j)

/-! ### rows in contracted numbering -/

/-- the entries of a row, columns in contracted numbering -/
def mrow (map : List ℕ) (row : List (ℕ × E)) : List (ℕ × E) := row.map fun e => ((map[e.1]?).getD 0, e.2)

omit [AddCommMonoid E] in
theorem remapRow_eq (map : List ℕ) (row : List (ℕ × E)) (h : ∀ e ∈ row, e.1 < map.length) : remapRow map row = some (mrow map row) := by
  refine RedTab.mapM_some_of row _ _ fun e he => ?_
  rw [List.getElem?_eq_getElem (h e he)]
  rfl

omit [AddCommMonoid E] in
theorem mrow_keys (map : List ℕ) (row : List (ℕ × E)) : (mrow map row).map Prod.fst = row.map fun e => (map[e.1]?).getD 0 := by
  rw [mrow, List.map_map]
  rfl

omit [AddCommMonoid E] in
theorem mrow_nodup {map : List ℕ} (hm : map.Nodup) {row : List (ℕ × E)} (hs : (row.map Prod.fst).Nodup) (h : ∀ e ∈ row, e.1 < map.length) :
    ((mrow map row).map Prod.fst).Nodup := by
  rw [mrow_keys, show (row.map fun e => (map[e.1]?).getD 0) = (row.map Prod.fst).map fun c => (map[c]?).getD 0 by rw [List.map_map]; rfl]
  refine List.Nodup.map_on ?_ hs
  intro a ha b hb hab
  obtain ⟨e, he, rfl⟩ := List.mem_map.1 ha
  obtain ⟨f, hf, rfl⟩ := List.mem_map.1 hb
  rw [List.getElem?_eq_getElem (h e he), List.getElem?_eq_getElem (h f hf)] at hab
  exact (List.Nodup.getElem_inj_iff hm).1 hab

theorem needsSort_sorted : ∀ (last : ℕ) (cs : List ℕ), needsSort last cs = false → (last :: cs).Pairwise (· ≤ ·)
  | last, [], _ => by simp
  | last, c :: cs, h => by
    rw [needsSort, Bool.or_eq_false_iff, decide_eq_false_iff_not, Nat.not_lt] at h
    have := needsSort_sorted c cs h.2
    rw [List.pairwise_cons]
    refine ⟨fun d hd => ?_, this⟩
    rcases List.mem_cons.1 hd with rfl | hd
    · exact h.1
    · exact h.1.trans ((List.pairwise_cons.1 this).1 d hd)

theorem lt_of_le_nodup {cs : List ℕ} (h : cs.Pairwise (· ≤ ·)) (hn : cs.Nodup) : cs.Pairwise (· < ·) :=
  (h.and hn).imp fun h => lt_of_le_of_ne h.1 h.2

theorem sortCols_spec {cs : List ℕ} (hn : cs.Nodup) : (sortCols cs).Pairwise (· < ·) ∧ (sortCols cs).Perm cs := by
  unfold sortCols
  split
  · exact ⟨lt_of_le_nodup (List.pairwise_insertionSort _ _) ((List.perm_insertionSort _ _).nodup_iff.2 hn), List.perm_insertionSort _ _⟩
  · rename_i h
    rw [Bool.not_eq_true] at h
    exact ⟨lt_of_le_nodup (List.pairwise_cons.1 (needsSort_sorted 0 cs h)).2 hn, List.Perm.refl _⟩

omit [AddCommMonoid E] in
theorem qsColVal_spec {sortI : SortI} (hs : SortIOK sortI) (row : List (ℕ × E)) :
    ∃ r, qsColVal sortI row = some r ∧ r.Perm row ∧ (r.map Prod.fst).Pairwise (· ≤ ·) := by
  obtain ⟨σ, h1, h2⟩ := hs row.length fun i => row[i].1
  refine ⟨List.ofFn fun i : Fin row.length => row[σ i], ?_, ?_, ?_⟩
  · rw [qsColVal, h1, Permutation.applyInPlace_correct σ _ _ (Nat.le_succ _)]
    rfl
  · have := Equiv.Perm.ofFn_comp_perm σ fun i : Fin row.length => row[i]
    refine this.trans ?_
    rw [show (List.ofFn fun i : Fin row.length => row[i]) = row from List.ofFn_getElem]
  · rw [List.map_ofFn, List.pairwise_ofFn]
    intro i j hij
    exact h2 i j (le_of_lt hij)

omit [AddCommMonoid E] in
theorem mapInPlace_spec {sortI : SortI} (hs : SortIOK sortI) {map : List ℕ} (hm : map.Nodup) {row : List (ℕ × E)} (hr : (row.map Prod.fst).Nodup) (h : ∀ e ∈ row, e.1 < map.length) :
    ∃ r, mapInPlace sortI map row = some r ∧ r.Perm (mrow map row) ∧ (r.map Prod.fst).Pairwise (· < ·) := by
  have hn := mrow_nodup hm hr h
  rw [mapInPlace, remapRow_eq map row h, Option.bind_some]
  split
  · obtain ⟨r, h1, h2, h3⟩ := qsColVal_spec hs (mrow map row)
    exact ⟨r, h1, h2, lt_of_le_nodup h3 ((h2.map Prod.fst).nodup_iff.2 hn)⟩
  · rename_i h'
    rw [Bool.not_eq_true] at h'
    exact ⟨_, rfl, List.Perm.refl _, lt_of_le_nodup (List.pairwise_cons.1 (needsSort_sorted 0 _ h')).2 hn⟩

/-! ### values -/

omit [AddCommMonoid E] in
theorem putVal_spec {ris : List ℕ} (hr : ris.Pairwise (· < ·)) (f : E → E → E) (vals : ℕ → E) {c : ℕ} (hc : c ∈ ris) (v : E) :
    ∃ vals', putVal ris f vals c v = some vals' ∧ ∀ i (_ : i < ris.length), vals' i = if ris[i] = c then f (vals i) v else vals i := by
  obtain ⟨r, h1, h2, -⟩ := SortedArray.find_correct c ris hr
  obtain ⟨i, rfl, hi⟩ := h2 hc
  obtain ⟨hi', hi⟩ := List.getElem?_eq_some_iff.1 hi
  refine ⟨_, by rw [putVal, h1], fun j hj => ?_⟩
  rw [Function.update_apply]
  have hnd : ris.Nodup := hr.imp fun h => Nat.ne_of_lt h
  by_cases hij : j = i
  · subst hij
    rw [if_pos rfl, if_pos hi]
  · rw [if_neg hij, if_neg]
    intro h
    exact hij ((List.Nodup.getElem_inj_iff hnd).1 (h.trans hi.symm))

theorem foldAdd {ris : List ℕ} (hr : ris.Pairwise (· < ·)) : ∀ (L : List (ℕ × E)) (_ : ∀ e ∈ L, e.1 ∈ ris) (vals : ℕ → E),
    ∃ vals', L.foldlM (fun vals e => putVal ris (· + ·) vals e.1 e.2) vals = some vals' ∧ ∀ i (_ : i < ris.length), vals' i = vals i + colSum L ris[i]
  | [], _, vals => ⟨vals, rfl, fun i _ => by rw [colSum_nil, add_zero]⟩
  | e :: L, h, vals => by
    obtain ⟨v1, h1, h2⟩ := putVal_spec hr (· + ·) vals (h e List.mem_cons_self) e.2
    obtain ⟨v2, h3, h4⟩ := foldAdd hr L (fun f hf => h f (List.mem_cons_of_mem _ hf)) v1
    refine ⟨v2, by rw [List.foldlM_cons, h1]; exact h3, fun i hi => ?_⟩
    rw [h4 i hi, h2 i hi, colSum_cons]
    by_cases hc : ris[i] = e.1
    · rw [if_pos hc, if_pos hc.symm, add_assoc]
    · rw [if_neg hc, if_neg (Ne.symm hc), zero_add]

theorem foldSet {ris : List ℕ} (hr : ris.Pairwise (· < ·)) : ∀ (L : List (ℕ × E)) (_ : ∀ e ∈ L, e.1 ∈ ris) (_ : (L.map Prod.fst).Nodup) (vals : ℕ → E),
    ∃ vals', L.foldlM (fun vals e => putVal ris (fun _ v => v) vals e.1 e.2) vals = some vals' ∧
      ∀ i (_ : i < ris.length), vals' i = if ris[i] ∈ L.map Prod.fst then colSum L ris[i] else vals i
  | [], _, _, vals => ⟨vals, rfl, fun i _ => by simp⟩
  | e :: L, h, hn, vals => by
    rw [List.map_cons, List.nodup_cons] at hn
    obtain ⟨v1, h1, h2⟩ := putVal_spec hr (fun _ v => v) vals (h e List.mem_cons_self) e.2
    obtain ⟨v2, h3, h4⟩ := foldSet hr L (fun f hf => h f (List.mem_cons_of_mem _ hf)) hn.2 v1
    refine ⟨v2, by rw [List.foldlM_cons, h1]; exact h3, fun i hi => ?_⟩
    rw [h4 i hi, h2 i hi, colSum_cons, List.map_cons]
    by_cases hc : ris[i] = e.1
    · rw [if_neg (by rw [hc]; exact hn.1), if_pos hc, if_pos (List.mem_cons.2 (.inl hc)), if_pos hc.symm, colSum_zero (by rw [hc]; exact hn.1), add_zero]
    · rw [if_neg hc, if_neg (Ne.symm hc), zero_add]
      by_cases h' : ris[i] ∈ L.map Prod.fst
      · rw [if_pos h', if_pos (List.mem_cons_of_mem _ h')]
      · rw [if_neg h', if_neg (by rw [List.mem_cons]; tauto)]

theorem addRow_zero (ris map : List ℕ) (row : List (ℕ × E)) (h : ∀ e ∈ row, e.1 < map.length) (vals : ℕ → E) :
    addRow ris 0 map vals row = (mrow map row).foldlM (fun vals e => putVal ris (· + ·) vals e.1 e.2) vals := by
  unfold addRow mrow
  induction row generalizing vals with
  | nil => rfl
  | cons e row ih =>
    rw [List.map_cons, List.foldlM_cons, List.foldlM_cons, if_pos rfl, List.getElem?_eq_getElem (h e List.mem_cons_self)]
    simp only [Option.bind_some, Option.getD_some]
    congr 1
    funext v
    exact ih (fun f hf => h f (List.mem_cons_of_mem _ hf)) v

theorem addRow_pos (ris map : List ℕ) {km : ℕ} (hk : km ≠ 0) (row : List (ℕ × E)) (vals : ℕ → E) :
    addRow ris km map vals row = row.foldlM (fun vals e => putVal ris (· + ·) vals e.1 e.2) vals := by
  unfold addRow
  simp only [if_neg hk, Option.bind_some]

/-- the row that is written, given the values -/
theorem tabulate (ris : List ℕ) (vals : ℕ → E) (F : ℕ → E) (h : ∀ i (_ : i < ris.length), vals i = F ris[i]) :
    (ris.zipIdx.map fun e => (e.1, vals e.2)) = ris.map fun c => (c, F c) := by
  apply List.ext_getElem
  · simp
  · intro i h1 h2
    have hi : i < ris.length := by simpa using h1
    simp [h i hi]

/-! ### rows of the contracted matrix -/

theorem mem_revRow {maps : List (List ℕ)} {r k j : ℕ} : (k, j) ∈ revRow maps r ↔ ∃ map, maps[k]? = some map ∧ map[j]? = some r := by
  unfold revRow
  rw [List.mem_flatMap]
  constructor
  · rintro ⟨⟨map, k'⟩, hm, h⟩
    rw [List.mem_zipIdx_iff_getElem?] at hm
    obtain ⟨⟨c, j'⟩, hc, h'⟩ := List.mem_filterMap.1 h
    rw [List.mem_zipIdx_iff_getElem?] at hc
    dsimp only at h' hm hc
    by_cases e : c = r
    · rw [if_pos e] at h'
      obtain ⟨rfl, rfl⟩ := Prod.mk.inj (Option.some.inj h')
      exact ⟨map, hm, e ▸ hc⟩
    · rw [if_neg e] at h'
      cases h'
  · rintro ⟨map, hm, hj⟩
    refine ⟨(map, k), List.mem_zipIdx_iff_getElem?.2 hm, List.mem_filterMap.2 ⟨(r, j), List.mem_zipIdx_iff_getElem?.2 hj, ?_⟩⟩
    exact if_pos rfl

theorem revRow_zero_le (maps : List (List ℕ)) (h : ∀ map, maps[0]? = some map → map.Nodup) (r : ℕ) : ((revRow maps r).filter fun kj => kj.1 = 0).length ≤ 1 := by
  cases maps with
  | nil => simp [revRow]
  | cons m ms =>
    have h1 : (revRow (m :: ms) r).filter (fun kj => kj.1 = 0) = m.zipIdx.filterMap fun c => if c.1 = r then some (0, c.2) else none := by
      unfold revRow
      rw [List.zipIdx_cons, List.flatMap_cons, List.filter_append]
      rw [List.filter_eq_self.2, List.filter_eq_nil_iff.2, List.append_nil]
      · intro kj hkj
        obtain ⟨⟨map, k'⟩, hm, h⟩ := List.mem_flatMap.1 hkj
        obtain ⟨c, -, h'⟩ := List.mem_filterMap.1 h
        have : 1 ≤ k' := by
          have := List.le_snd_of_mem_zipIdx hm
          simpa using this
        by_cases e : c.1 = r
        · rw [if_pos e] at h'
          rw [← Option.some.inj h']
          simp
          omega
        · rw [if_neg e] at h'
          cases h'
      · intro kj hkj
        obtain ⟨c, -, h'⟩ := List.mem_filterMap.1 hkj
        by_cases e : c.1 = r
        · rw [if_pos e] at h'
          rw [← Option.some.inj h']
          simp
        · rw [if_neg e] at h'
          cases h'
    rw [h1]
    have h2 : (m.zipIdx.filterMap fun c => if c.1 = r then some (0, c.2) else none).length = m.count r := by
      clear h1 h
      generalize 0 = z at *
      have : ∀ n, (((m.zipIdx n).filterMap fun c => if c.1 = r then some (z, c.2) else none) : List (ℕ × ℕ)).length = m.count r := by
        induction m with
        | nil => intro n; rfl
        | cons a m ih =>
          intro n
          rw [List.zipIdx_cons, List.filterMap_cons, List.count_cons]
          by_cases e : a = r
          · simp [e, ih]
          · simp [e, ih]
      exact this _
    rw [h2]
    exact List.nodup_iff_count_le_one.1 (h m rfl) r

/-- the arguments of `DoAssembleMatrix` fit together -/
structure AsmOK (maps : List (List ℕ)) (mats : List (CSR E)) (n : ℕ) : Prop where
  len : maps.length = mats.length
  nodup : ∀ map ∈ maps, map.Nodup
  lt : ∀ map ∈ maps, ∀ c ∈ map, c < n
  mat : ∀ (k : ℕ) (map : List ℕ) (A : CSR E), maps[k]? = some map → mats[k]? = some A → A.WF ∧ A.height = map.length ∧ A.width = map.length

/-- all entries of a contracted row -/
def contrib (maps : List (List ℕ)) (mats : List (CSR E)) (kj : ℕ × ℕ) : List (ℕ × E) :=
  mrow ((maps[kj.1]?).getD []) (((mats[kj.1]?).elim [] fun A => A.row kj.2))

/-- see `contrib` -/
def contribs (maps : List (List ℕ)) (mats : List (CSR E)) (r : ℕ) : List (ℕ × E) := (revRow maps r).flatMap (contrib maps mats)

/-- a row of a member -/
theorem member {maps : List (List ℕ)} {mats : List (CSR E)} {n : ℕ} (h : AsmOK maps mats n) {r : ℕ} {kj : ℕ × ℕ} (hk : kj ∈ revRow maps r) :
    ∃ map A, maps[kj.1]? = some map ∧ mats[kj.1]? = some A ∧ map.Nodup ∧ ((A.row kj.2).map Prod.fst).Nodup ∧ (∀ e ∈ A.row kj.2, e.1 < map.length) ∧
      contrib maps mats kj = mrow map (A.row kj.2) ∧ ∀ c ∈ map, c < n := by
  obtain ⟨map, hm, -⟩ := mem_revRow.1 (show (kj.1, kj.2) ∈ _ from hk)
  have hl : kj.1 < mats.length := by rw [← h.len]; exact (List.getElem?_eq_some_iff.1 hm).1
  have hA := List.getElem?_eq_getElem hl
  obtain ⟨h1, h2, h3⟩ := h.mat _ _ _ hm hA
  have hmem : map ∈ maps := List.mem_of_getElem? hm
  refine ⟨map, _, hm, hA, h.nodup map hmem, (h1.sorted _).imp fun h => Nat.ne_of_lt h, fun e he => h3 ▸ h1.inRange _ e he, ?_, h.lt map hmem⟩
  rw [contrib, hm, hA]
  rfl

theorem mrow_lt {map : List ℕ} {n : ℕ} (hm : ∀ c ∈ map, c < n) {row : List (ℕ × E)} (h : ∀ e ∈ row, e.1 < map.length) : ∀ e ∈ mrow map row, e.1 < n := by
  intro e he
  obtain ⟨f, hf, rfl⟩ := List.mem_map.1 he
  dsimp only
  rw [List.getElem?_eq_getElem (h f hf)]
  exact hm _ (List.getElem_mem _)

theorem prepRow_spec {sortI : SortI} (hs : SortIOK sortI) {maps : List (List ℕ)} {mats : List (CSR E)} {n : ℕ} (h : AsmOK maps mats n) {r : ℕ} {kj : ℕ × ℕ} (hk : kj ∈ revRow maps r) :
    ∃ q, prepRow sortI maps mats kj = some q ∧ q.1.Pairwise (· < ·) ∧ (∀ c, c ∈ q.1 ↔ c ∈ (contrib maps mats kj).map Prod.fst) ∧
      ∀ (ris : List ℕ) (_ : ris.Pairwise (· < ·)) (_ : ∀ c ∈ q.1, c ∈ ris) (vals : ℕ → E), ∃ vals', addRow ris kj.1 ((maps[kj.1]?).getD []) vals q.2 = some vals' ∧
        ∀ i (_ : i < ris.length), vals' i = vals i + colSum (contrib maps mats kj) ris[i] := by
  obtain ⟨map, A, hm, hA, h1, h2, h3, h4, h5⟩ := member h hk
  rw [prepRow, hm, hA, h4, Option.bind_some, Option.bind_some, Option.getD_some]
  by_cases h0 : kj.1 = 0
  · rw [if_neg (not_not.2 h0), remapRow_eq _ _ h3, Option.map_some]
    obtain ⟨h6, h7⟩ := sortCols_spec (mrow_nodup h1 h2 h3)
    refine ⟨_, rfl, h6, fun c => h7.mem_iff, fun ris hr hc vals => ?_⟩
    rw [h0, addRow_zero ris map _ h3]
    exact foldAdd hr _ (fun e he => hc e.1 (h7.mem_iff.2 (List.mem_map_of_mem he))) vals
  · rw [if_pos h0]
    obtain ⟨q, h6, h7, h8⟩ := mapInPlace_spec hs h1 h2 h3
    rw [h6, Option.map_some]
    refine ⟨_, rfl, h8, fun c => (h7.map Prod.fst).mem_iff, fun ris hr hc vals => ?_⟩
    rw [addRow_pos ris map h0]
    obtain ⟨v, h9, h10⟩ := foldAdd hr q (fun e he => hc e.1 (List.mem_map_of_mem he)) vals
    exact ⟨v, h9, fun i hi => by rw [h10 i hi, colSum_perm h7]⟩

theorem foldRows {maps : List (List ℕ)} {mats : List (CSR E)} {ris : List ℕ} (g : ℕ × ℕ → List ℕ × List (ℕ × E)) :
    ∀ (kjs : List (ℕ × ℕ)) (_ : ∀ kj ∈ kjs, ∀ vals : ℕ → E, ∃ vals', addRow ris kj.1 ((maps[kj.1]?).getD []) vals (g kj).2 = some vals' ∧
        ∀ i (_ : i < ris.length), vals' i = vals i + colSum (contrib maps mats kj) ris[i]) (vals : ℕ → E),
    ∃ vals', (kjs.zip (kjs.map g)).foldlM (fun vals kr => addRow ris kr.1.1 ((maps[kr.1.1]?).getD []) vals kr.2.2) vals = some vals' ∧
      ∀ i (_ : i < ris.length), vals' i = vals i + colSum (kjs.flatMap (contrib maps mats)) ris[i]
  | [], _, vals => ⟨vals, rfl, fun i _ => by rw [List.flatMap_nil, colSum_nil, add_zero]⟩
  | kj :: kjs, h, vals => by
    obtain ⟨v1, h1, h2⟩ := h kj List.mem_cons_self vals
    obtain ⟨v2, h3, h4⟩ := foldRows g kjs (fun q hq => h q (List.mem_cons_of_mem _ hq)) v1
    refine ⟨v2, ?_, fun i hi => ?_⟩
    · rw [List.map_cons, List.zip_cons_cons, List.foldlM_cons, h1]
      exact h3
    · rw [h4 i hi, h2 i hi, List.flatMap_cons, colSum_append, add_assoc]

theorem asmRow_spec {sortI : SortI} (hs : SortIOK sortI) {maps : List (List ℕ)} {mats : List (CSR E)} {n : ℕ} (h : AsmOK maps mats n) (hn : ∀ c < n, 2 * c ≤ MergeArrays.intMax)
    (mjunk : ℕ → ℕ × ℕ) (junk : ℕ → E) (r : ℕ) :
    ∃ cols : List ℕ, asmRow sortI mjunk junk maps mats r = some (cols.map fun c => (c, colSum (contribs maps mats r) c)) ∧ cols.Pairwise (· < ·) ∧
      ∀ c, c ∈ cols ↔ c ∈ (contribs maps mats r).map Prod.fst := by
  have hz := revRow_zero_le maps (fun map hm => h.nodup map (List.mem_of_getElem? hm)) r
  have hmem : ∀ kj ∈ revRow maps r, kj ∈ revRow maps r := fun _ h => h
  rw [contribs]
  unfold asmRow
  revert hz hmem
  generalize hR : revRow maps r = R
  intro hz hmem
  match R, hz, hmem with
  | [], _, _ => exact ⟨[], rfl, List.Pairwise.nil, fun c => by simp⟩
  | [(km, jm)], _, hmem =>
    obtain ⟨map, A, hm, hA, h1, h2, h3, h4, h5⟩ := member h (kj := (km, jm)) (r := r) (by rw [hR]; exact List.mem_cons_self)
    dsimp only at hm hA h2 h3 h4
    obtain ⟨h6, h7⟩ := sortCols_spec (mrow_nodup h1 h2 h3)
    obtain ⟨v, h8, h9⟩ := foldSet h6 (mrow map (A.row jm)) (fun e he => h7.mem_iff.2 (List.mem_map_of_mem he)) (mrow_nodup h1 h2 h3) junk
    refine ⟨sortCols ((mrow map (A.row jm)).map Prod.fst), ?_, h6, fun c => ?_⟩
    · dsimp only
      rw [hm, hA, Option.bind_some, Option.bind_some, remapRow_eq _ _ h3, Option.bind_some, h8, Option.map_some]
      congr 1
      refine tabulate _ _ _ fun i hi => ?_
      rw [h9 i hi, if_pos (h7.mem_iff.1 (List.getElem_mem _)), List.flatMap_singleton, h4]
    · rw [List.flatMap_singleton, h4]
      exact h7.mem_iff
  | kj :: kj' :: R', hz, hmem =>
    dsimp only
    rw [if_neg (Nat.not_lt.2 hz)]
    obtain ⟨l, hl⟩ : ∃ l, l = kj :: kj' :: R' := ⟨_, rfl⟩
    rw [← hl] at hR ⊢
    have hp : ∀ q ∈ l, q ∈ revRow maps r := fun q hq => by rw [hR]; exact hq
    clear hmem hz hl
    choose! g hg using fun q (hq : q ∈ l) => prepRow_spec hs h (hp q hq)
    rw [RedTab.mapM_some_of l _ g fun q hq => (hg q hq).1, Option.bind_some]
    obtain ⟨ris, hr1, hr2, hr3⟩ := MergeArrays.run_correct mjunk ((l.map g).map Prod.fst)
      (by
        intro x hx
        obtain ⟨q', hq', rfl⟩ := List.mem_map.1 hx
        obtain ⟨q, hq, rfl⟩ := List.mem_map.1 hq'
        exact (hg q hq).2.1)
      (by
        intro x hx c hc
        obtain ⟨q', hq', rfl⟩ := List.mem_map.1 hx
        obtain ⟨q, hq, rfl⟩ := List.mem_map.1 hq'
        obtain ⟨e, he, rfl⟩ := List.mem_map.1 (((hg q hq).2.2.1 c).1 hc)
        obtain ⟨map, A, -, -, -, -, h3, h4, h5⟩ := member h (hp q hq)
        rw [h4] at he
        exact hn _ (mrow_lt h5 h3 e he))
    rw [hr1, Option.bind_some]
    have hin : ∀ q ∈ l, ∀ c ∈ (g q).1, c ∈ ris := fun q hq c hc => (hr3 c).2 ⟨_, List.mem_map_of_mem (List.mem_map_of_mem hq), hc⟩
    obtain ⟨v, h1, h2⟩ := foldRows g l (fun q hq vals => (hg q hq).2.2.2 ris hr2 (hin q hq) vals) 0
    refine ⟨ris, ?_, hr2, fun c => ?_⟩
    · rw [h1, Option.map_some]
      congr 1
      refine tabulate _ _ _ fun i hi => ?_
      rw [h2 i hi, Pi.zero_apply, zero_add]
    · rw [hr3, List.map_flatMap, List.mem_flatMap]
      constructor
      · rintro ⟨x, hx, hc⟩
        obtain ⟨q', hq', rfl⟩ := List.mem_map.1 hx
        obtain ⟨q, hq, rfl⟩ := List.mem_map.1 hq'
        exact ⟨q, hq, ((hg q hq).2.2.1 c).1 hc⟩
      · rintro ⟨q, hq, hc⟩
        exact ⟨_, List.mem_map_of_mem (List.mem_map_of_mem hq), ((hg q hq).2.2.1 c).2 hc⟩

end NgsAMG.Ctr
