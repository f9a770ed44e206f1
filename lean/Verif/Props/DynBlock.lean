import Verif.Model.DynBlock
import Verif.Props.SparseMM
import Verif.Props.Traversal
import Mathlib.Data.List.GetD
import Mathlib.Tactic.IntervalCases

/-! C17: the dynamic block format represents the same matrix. -/

namespace NgsAMG.DynBlock

open NgsAMG.SparseMM NgsAMG.Traversal

/-! ### specification -/

/-- a blocking is a partition of `0 .. scalSize-1` into consecutive, non-empty blocks -/
structure Blocking.Valid (B : Blocking) : Prop where
  first : B.off 0 = 0
  last : B.off B.size = B.scalSize
  incr : ∀ b < B.size, B.off b < B.off (b + 1)

/-- `i` and `j` lie in the same block -/
def Blocking.Same (B : Blocking) (i j : ℕ) : Prop := ∃ b < B.size, i ∈ B.scals b ∧ j ∈ B.scals b

/-- the pattern of `A` consists of full blocks: rows of a row block have the same columns, and a row contains all columns of a
column block or none -/
structure Consistent {E : Type*} (A : CSR E) (rb cb : Blocking) : Prop where
  rowsValid : rb.Valid
  colsValid : cb.Valid
  height : rb.scalSize = A.height
  width : cb.scalSize = A.width
  rows : ∀ i j, rb.Same i j → cols A i = cols A j
  cols : ∀ i j j', cb.Same j j' → j ∈ cols A i → j' ∈ cols A i

/-- postcondition of `QuickSort(_rows, lexiLess)` -/
structure SortedBy {E : Type*} (A : CSR E) (rb : Blocking) (order : List ℕ) : Prop where
  perm : order.Perm (List.range rb.size)
  sorted : order.Pairwise fun a b => lexiLess (cols A (rb.off b)) (cols A (rb.off a)) = false

/-- the matrix-vector product -/
def matVec {K : Type*} [CommRing K] (A : CSR K) (x : ℕ → K) (i : ℕ) : K := ∑ j ∈ Finset.range A.width, A.entry i j * x j

/-! ### blockings -/

section
variable {B : Blocking}

theorem Blocking.Valid.mono (h : B.Valid) {b c : ℕ} (hbc : b ≤ c) (hc : c ≤ B.size) : B.off b ≤ B.off c := by
  induction c, hbc using Nat.le_induction with
  | base => exact le_rfl
  | succ c _ ih => exact (ih (by omega)).trans (h.incr c (by omega)).le

theorem Blocking.Valid.mem (h : B.Valid) {b x : ℕ} (hb : b < B.size) : x ∈ B.scals b ↔ B.off b ≤ x ∧ x < B.off (b + 1) := by
  have := h.incr b hb
  simp only [Blocking.scals, List.mem_range'_1]
  omega

theorem Blocking.Valid.unique (h : B.Valid) {b c x : ℕ} (hb : b < B.size) (hc : c < B.size) (hx : x ∈ B.scals b)
    (hy : x ∈ B.scals c) : b = c := by
  rw [h.mem hb] at hx
  rw [h.mem hc] at hy
  rcases lt_trichotomy b c with hbc | hbc | hbc
  · have := h.mono (b := b + 1) (c := c) hbc hc.le; omega
  · exact hbc
  · have := h.mono (b := c + 1) (c := b) hbc hb.le; omega

theorem Blocking.Valid.exists_block (h : B.Valid) {x : ℕ} (hx : x < B.scalSize) : ∃ b < B.size, x ∈ B.scals b := by
  have key : ∀ n ≤ B.size, x < B.off n → ∃ b < n, B.off b ≤ x ∧ x < B.off (b + 1) := by
    intro n
    induction n with
    | zero => intro _ hx; rw [h.first] at hx; omega
    | succ n ih =>
      intro hn hx
      by_cases hlt : x < B.off n
      · obtain ⟨b, hb, h1⟩ := ih (by omega) hlt
        exact ⟨b, by omega, h1⟩
      · exact ⟨n, by omega, by omega, hx⟩
  obtain ⟨b, hb, h1⟩ := key B.size le_rfl (by rw [h.last]; exact hx)
  exact ⟨b, hb, (h.mem hb).2 h1⟩

theorem Blocking.Valid.scals_lt (h : B.Valid) {b x : ℕ} (hb : b < B.size) (hx : x ∈ B.scals b) : x < B.scalSize := by
  rw [h.mem hb] at hx
  have := h.mono (b := b + 1) (c := B.size) hb le_rfl
  rw [h.last] at this
  omega

theorem Blocking.Valid.off_mem (h : B.Valid) {b : ℕ} (hb : b < B.size) : B.off b ∈ B.scals b := by
  rw [h.mem hb]
  exact ⟨le_rfl, h.incr b hb⟩

theorem Blocking.mem_scalNums (B : Blocking) (bs : List ℕ) (x : ℕ) : x ∈ B.scalNums bs ↔ ∃ b ∈ bs, x ∈ B.scals b := by
  simp [Blocking.scalNums]

theorem Blocking.Valid.scalNums_sorted (h : B.Valid) (bs : List ℕ) (hs : bs.Pairwise (· < ·)) (hb : ∀ b ∈ bs, b < B.size) :
    (B.scalNums bs).Pairwise (· < ·) := by
  rw [Blocking.scalNums, List.pairwise_flatMap]
  refine ⟨fun b _ => by rw [Blocking.scals]; exact List.pairwise_lt_range', ?_⟩
  refine hs.imp_of_mem ?_
  intro b c hbm hcm hbc x hx y hy
  rw [h.mem (hb b hbm)] at hx
  rw [h.mem (hb c hcm)] at hy
  have := h.mono (b := b + 1) (c := c) hbc (hb c hcm).le
  omega

theorem Blocking.Valid.scalNums_nodup (h : B.Valid) (bs : List ℕ) (hs : bs.Nodup) (hb : ∀ b ∈ bs, b < B.size) :
    (B.scalNums bs).Nodup := by
  have hp : (B.scalNums bs).Perm (B.scalNums (bs.insertionSort (· ≤ ·))) :=
    ((List.perm_insertionSort (· ≤ ·) bs).symm).flatMap_right _
  rw [hp.nodup_iff]
  have hs' : (bs.insertionSort (· ≤ ·)).Pairwise (· < ·) := by
    have h1 := List.pairwise_insertionSort (· ≤ ·) bs
    have h2 : (bs.insertionSort (· ≤ ·)).Nodup := (List.perm_insertionSort (· ≤ ·) bs).nodup_iff.2 hs
    exact (h1.and h2).imp fun h => lt_of_le_of_ne h.1 h.2
  exact (h.scalNums_sorted _ hs' (by intro b hbm; exact hb b (by simpa using hbm))).imp (fun h => ne_of_lt h)

theorem foldl_update_list (l : List ℕ) (b : ℕ) (m : ℕ → ℕ) (x : ℕ) :
    (l.foldl (fun m s => Function.update m s b) m) x = if x ∈ l then b else m x := by
  induction l generalizing m with
  | nil => simp
  | cons a l ih =>
    rw [List.foldl_cons, ih]
    by_cases h : x ∈ l
    · simp [h]
    · by_cases hx : x = a <;> simp [h, hx]

theorem Blocking.Valid.scal2Block_eq (h : B.Valid) {b x : ℕ} (hb : b < B.size) (hx : x ∈ B.scals b) : scal2Block B x = b := by
  have key : ∀ (l : List ℕ) (m : ℕ → ℕ), (∀ c ∈ l, c < B.size) → (b ∈ l ∨ m x = b) →
      (l.foldl (fun m b => (B.scals b).foldl (fun m s => Function.update m s b) m) m) x = b := by
    intro l
    induction l with
    | nil => intro m _ h; simpa using h
    | cons c l ih =>
      intro m hl hm
      rw [List.foldl_cons]
      apply ih _ (fun d hd => hl d (List.mem_cons_of_mem _ hd))
      rw [foldl_update_list]
      by_cases hc : x ∈ B.scals c
      · right
        rw [if_pos hc]
        exact h.unique (hl c List.mem_cons_self) hb hc hx
      · rw [if_neg hc]
        rcases hm with hm | hm
        · rcases List.mem_cons.1 hm with rfl | hm
          · exact absurd hx hc
          · exact Or.inl hm
        · exact Or.inr hm
  exact key _ _ (by simp) (Or.inl (by simpa using hb))

end

/-! ### block columns -/

theorem dedup_spec (l : List ℕ) (last : ℕ) (h : (last :: l).Pairwise (· ≤ ·)) :
    (last :: dedup last l).Pairwise (· < ·) ∧ ∀ x, x ∈ last :: dedup last l ↔ x ∈ last :: l := by
  induction l generalizing last with
  | nil => simp [dedup]
  | cons c l ih =>
    rw [dedup]
    have hc := List.pairwise_cons.1 h
    by_cases hlc : last = c
    · subst hlc
      simp only [ne_eq, not_true_eq_false, if_false]
      have := ih last hc.2
      exact ⟨this.1, fun x => by rw [this.2]; simp⟩
    · simp only [ne_eq, hlc, not_false_eq_true, if_true]
      have := ih c hc.2
      refine ⟨List.pairwise_cons.2 ⟨?_, this.1⟩, fun x => ?_⟩
      · intro x hx
        have hlt : last < c := lt_of_le_of_ne (hc.1 c List.mem_cons_self) hlc
        rcases List.mem_cons.1 hx with rfl | hx
        · exact hlt
        · exact hlt.trans ((List.pairwise_cons.1 this.1).1 x hx)
      · rw [List.mem_cons, this.2, ← List.mem_cons]

theorem dedup_length (l : List ℕ) (last : ℕ) : (dedup last l).length ≤ l.length := by
  induction l generalizing last with
  | nil => simp [dedup]
  | cons c l ih =>
    rw [dedup]
    split
    · simpa using ih c
    · have := ih last; simp only [List.length_cons]; omega

theorem blockCols_length (s2b : ℕ → ℕ) (l : List ℕ) : (blockCols s2b l).length ≤ l.length := by
  cases l with
  | nil => simp [blockCols]
  | cons c l => simpa [blockCols] using (dedup_length (l.map s2b) (s2b c)).trans (by simp)

theorem blockCols_spec (s2b : ℕ → ℕ) (l : List ℕ) (h : (l.map s2b).Pairwise (· ≤ ·)) :
    (blockCols s2b l).Pairwise (· < ·) ∧ ∀ x, x ∈ blockCols s2b l ↔ x ∈ l.map s2b := by
  cases l with
  | nil => simp [blockCols]
  | cons c l => exact dedup_spec (l.map s2b) (s2b c) h

/-- the scalar columns of the block-columns are the original columns -/
theorem expand_blockCols {B : Blocking} (h : B.Valid) (l : List ℕ) (hs : l.Pairwise (· < ·)) (hl : ∀ x ∈ l, x < B.scalSize)
    (hc : ∀ j j', B.Same j j' → j ∈ l → j' ∈ l) : B.scalNums (blockCols (scal2Block B) l) = l := by
  have hblk : ∀ x ∈ l, scal2Block B x < B.size ∧ x ∈ B.scals (scal2Block B x) := by
    intro x hx
    obtain ⟨b, hb, hxb⟩ := h.exists_block (hl x hx)
    rw [h.scal2Block_eq hb hxb]
    exact ⟨hb, hxb⟩
  have hmono : (l.map (scal2Block B)).Pairwise (· ≤ ·) := by
    rw [List.pairwise_map]
    refine hs.imp_of_mem ?_
    intro a b ha hb hab
    by_contra hlt
    have h1 := hblk a ha
    have h2 := hblk b hb
    rw [h.mem h1.1] at h1
    rw [h.mem h2.1] at h2
    have := h.mono (b := scal2Block B b + 1) (c := scal2Block B a) (by omega) h1.1.le
    omega
  have hbc := blockCols_spec (scal2Block B) l hmono
  apply eq_of_pairwise_of_mem (h.scalNums_sorted _ hbc.1 ?_) hs
  · intro x
    rw [Blocking.mem_scalNums]
    constructor
    · rintro ⟨b, hb, hx⟩
      rw [hbc.2, List.mem_map] at hb
      obtain ⟨c, hcl, rfl⟩ := hb
      exact hc c x ⟨_, (hblk c hcl).1, (hblk c hcl).2, hx⟩ hcl
    · intro hx
      exact ⟨scal2Block B x, (hbc.2 _).2 (List.mem_map_of_mem hx), (hblk x hx).2⟩
  · intro b hb
    rw [hbc.2, List.mem_map] at hb
    obtain ⟨c, hcl, rfl⟩ := hb
    exact (hblk c hcl).1

/-! ### row-blocks -/

section
variable (key : ℕ → List ℕ)

theorem chunkGo_flatten (cur : List ℕ) (last : ℕ) (l : List ℕ) : (chunkGo key cur last l).flatten = cur ++ l := by
  induction l generalizing cur last with
  | nil => simp [chunkGo]
  | cons k l ih => rw [chunkGo]; split <;> simp [ih]

theorem chunks_flatten (l : List ℕ) : (chunks key l).flatten = l := by
  cases l with
  | nil => rfl
  | cons k l => simpa [chunks] using chunkGo_flatten key [k] k l

theorem chunkGo_uniform (cur : List ℕ) (last : ℕ) (l : List ℕ) (hne : cur ≠ []) (hcur : ∀ b ∈ cur, key b = key last) :
    ∀ rs ∈ chunkGo key cur last l, rs ≠ [] ∧ ∀ b ∈ rs, ∀ c ∈ rs, key b = key c := by
  induction l generalizing cur last with
  | nil =>
    intro rs hrs
    simp only [chunkGo, List.mem_singleton] at hrs
    subst hrs
    exact ⟨hne, fun b hb c hc => (hcur b hb).trans (hcur c hc).symm⟩
  | cons k l ih =>
    intro rs hrs
    rw [chunkGo] at hrs
    split at hrs
    · rcases List.mem_cons.1 hrs with rfl | hrs
      · exact ⟨hne, fun b hb c hc => (hcur b hb).trans (hcur c hc).symm⟩
      · exact ih [k] k (by simp) (by simp) rs hrs
    · rename_i heq
      simp only [ne_eq, not_not] at heq
      refine ih (cur ++ [k]) k (by simp) ?_ rs hrs
      intro b hb
      rcases List.mem_append.1 hb with hb | hb
      · exact (hcur b hb).trans heq
      · simp only [List.mem_singleton] at hb; rw [hb]

theorem chunks_uniform (l : List ℕ) : ∀ rs ∈ chunks key l, rs ≠ [] ∧ ∀ b ∈ rs, ∀ c ∈ rs, key b = key c := by
  cases l with
  | nil => simp [chunks]
  | cons k l => exact chunkGo_uniform key [k] k l (by simp) (by simp)

/-- number of columns added at the jumps of the ordered block-rows -/
def jumps (l : List ℕ) : ℕ := ((l.zip l.tail).map fun p => if key p.1 ≠ key p.2 then (key p.2).length else 0).sum

theorem chunkGo_size (f : List ℕ → ℕ) (cur : List ℕ) (last : ℕ) (l : List ℕ) (hne : cur ≠ [])
    (hcur : ∀ b ∈ cur, key b = key last)
    (hf : ∀ rs, rs ≠ [] → (∀ b ∈ rs, ∀ c ∈ rs, key b = key c) → ∀ b ∈ rs, f rs ≤ (key b).length) :
    ((chunkGo key cur last l).map f).sum ≤ (key last).length + jumps key (last :: l) := by
  have hfc : f cur ≤ (key last).length := by
    obtain ⟨b, hb⟩ := List.exists_mem_of_ne_nil cur hne
    rw [← hcur b hb]
    exact hf cur hne (fun b hb c hc => (hcur b hb).trans (hcur c hc).symm) b hb
  induction l generalizing cur last with
  | nil => simpa [chunkGo] using hfc.trans (Nat.le_add_right _ _)
  | cons k l ih =>
    have hj : jumps key (last :: k :: l) = (if key last ≠ key k then (key k).length else 0) + jumps key (k :: l) := by
      simp [jumps]
    rw [chunkGo, hj]
    split
    · have := ih [k] k (by simp) (by simp) (hf [k] (by simp) (by simp) k (by simp))
      simp only [List.map_cons, List.sum_cons]
      omega
    · rename_i heq
      simp only [ne_eq, not_not] at heq
      have hcur' : ∀ b ∈ cur ++ [k], key b = key k := by
        intro b hb
        rcases List.mem_append.1 hb with hb | hb
        · exact (hcur b hb).trans heq
        · simp only [List.mem_singleton] at hb; rw [hb]
      have := ih (cur ++ [k]) k (by simp) hcur'
        (hf _ (by simp) (fun b hb c hc => (hcur' b hb).trans (hcur' c hc).symm) k (by simp))
      rw [heq]
      omega

end

theorem lexiLess_false_length {a b : List ℕ} (h : lexiLess b a = false) : a.length ≤ b.length := by
  rw [lexiLess] at h
  split at h
  · omega
  · simpa using h

/-! ### dense row-block product -/

section
variable {K : Type*} [CommRing K]

theorem denseRow_cons (v rest X : List K) (hv : v.length = X.length) (l : ℕ) :
    denseRow (v ++ rest) X (l + 1) = denseRow rest X l := by
  unfold denseRow
  congr 1
  apply List.map_congr_left
  intro k _
  congr 1
  rw [List.getD_append_right _ _ _ _ (by rw [hv, Nat.add_mul]; omega)]
  congr 1
  rw [hv, Nat.add_mul]
  omega

theorem denseRow_zero (v rest X : List K) (hv : v.length = X.length) :
    denseRow (v ++ rest) X 0 = (List.zipWith (· * ·) v X).sum := by
  unfold denseRow
  congr 1
  apply List.ext_getElem
  · simp [hv]
  · intro n h1 h2
    simp only [List.length_map, List.length_range] at h1
    rw [List.getElem_map, List.getElem_range, List.getElem_zipWith, Nat.zero_mul, Nat.zero_add,
      List.getD_append _ _ _ _ (by omega), List.getD_eq_getElem _ _ (by omega), List.getD_eq_getElem _ _ h1]

theorem denseRow_flatMap (rows : List ℕ) (vals : ℕ → List K) (X : List K) (hv : ∀ r ∈ rows, (vals r).length = X.length)
    (l r : ℕ) (hl : rows[l]? = some r) : denseRow (rows.flatMap vals) X l = (List.zipWith (· * ·) (vals r) X).sum := by
  induction rows generalizing l with
  | nil => simp at hl
  | cons a rows ih =>
    rw [List.flatMap_cons]
    cases l with
    | zero =>
      simp only [List.length_cons, Nat.zero_lt_succ, List.getElem?_eq_getElem, List.getElem_cons_zero, Option.some.injEq] at hl
      subst hl
      exact denseRow_zero _ _ _ (hv a List.mem_cons_self)
    | succ l =>
      rw [denseRow_cons _ _ _ (hv a List.mem_cons_self)]
      exact ih (fun r hr => hv r (List.mem_cons_of_mem _ hr)) l (by simpa using hl)

theorem rowSum_eq (A : CSR K) (x : ℕ → K) (i : ℕ) (hA : ∀ e ∈ A.row i, e.1 < A.width) :
    (List.zipWith (· * ·) ((A.row i).map Prod.snd) ((cols A i).map x)).sum = matVec A x i := by
  have h := entry_sum (fun j => (AddMonoidHom.mulRight (x j) : K →+ K)) A i hA
  simp only [AddMonoidHom.coe_mulRight] at h
  rw [matVec, h, cols]
  congr 1
  generalize A.row i = l
  induction l with
  | nil => rfl
  | cons e l ih => simpa using ih

omit [CommRing K] in
/-- writing the output of one row-block -/
theorem putOut_fold (out : K → K → K) (nRows : ℕ) (small : ℕ → K) (g : ℕ → K) (rows : List ℕ) (n : ℕ) (y : ℕ → K)
    (hn : rows.Nodup) (hlen : n + rows.length ≤ nRows) (hs : ∀ l r, rows[l]? = some r → small (n + l) = g r) :
    (rows.zipIdx n).foldl (putOut out nRows small) (some y) =
      some fun i => if i ∈ rows then out (y i) (g i) else y i := by
  induction rows generalizing n y with
  | nil => simp
  | cons a rows ih =>
    have hnd := List.nodup_cons.1 hn
    simp only [List.length_cons] at hlen
    rw [List.zipIdx_cons, List.foldl_cons, putOut, Option.bind_some, if_pos (by simp only []; omega)]
    rw [ih (n + 1) _ hnd.2 (by omega)]
    · congr 1
      funext i
      have h0 := hs 0 a (by simp)
      by_cases hia : i = a
      · subst hia
        simp [hnd.1, ← h0]
      · simp [hia]
    · intro l r hl
      have := hs (l + 1) r (by simpa using hl)
      rwa [Nat.add_comm l 1, ← Nat.add_assoc] at this

theorem foldl_max_ge (l : List ℕ) (m : ℕ) : m ≤ l.foldl max m ∧ ∀ x ∈ l, x ≤ l.foldl max m := by
  induction l generalizing m with
  | nil => simp
  | cons a l ih =>
    rw [List.foldl_cons]
    have h := ih (max m a)
    refine ⟨(le_max_left _ _).trans h.1, ?_⟩
    intro x hx
    rcases List.mem_cons.1 hx with rfl | hx
    · exact (le_max_right _ _).trans h.1
    · exact h.2 x hx

/-- one row-block is multiplied correctly -/
theorem multiplyBlock_eq (A : CSR K) (hA : A.WF) (rb cb : Blocking) (hc : Consistent A rb cb) (D : Dyn K) (hrb : D.rowB = rb)
    (hcb : D.colB = cb) (rs : List ℕ) (hrs : rs ≠ []) (hnd : rs.Nodup) (hlt : ∀ b ∈ rs, b < rb.size)
    (hkey : ∀ b ∈ rs, ∀ c ∈ rs, cols A (rb.off b) = cols A (rb.off c))
    (hmr : (rb.scalNums (rs.insertionSort (· ≤ ·))).length ≤ D.maxRows) (hmc : nScalCols A rb rs ≤ D.maxCols)
    (out : K → K → K) (x y : ℕ → K) :
    multiplyBlock D out x (some y) (makeBlock A rb (scal2Block cb) rs) =
      some fun i => if i ∈ rb.scalNums rs then out (y i) (matVec A x i) else y i := by
  set sorted := rs.insertionSort (· ≤ ·) with hsorted
  have hmem : ∀ b, b ∈ sorted ↔ b ∈ rs := by intro b; simp [hsorted]
  have hne : sorted ≠ [] := by
    intro h0
    obtain ⟨b, hb⟩ := List.exists_mem_of_ne_nil rs hrs
    rw [← hmem, h0] at hb
    simp at hb
  obtain ⟨r0, rest, hr0⟩ := List.exists_cons_of_ne_nil hne
  have hr0m : r0 ∈ rs := by rw [← hmem, hr0]; simp
  have hhead : sorted.headD 0 = r0 := by rw [hr0]; rfl
  have hndS : (rb.scalNums sorted).Nodup := by
    apply hc.rowsValid.scalNums_nodup _ _ (fun b hb => hlt b ((hmem b).1 hb))
    exact (List.perm_insertionSort (· ≤ ·) rs).nodup_iff.2 hnd
  have hrow : ∀ r ∈ rb.scalNums sorted, cols A r = cols A (rb.off r0) := by
    intro r hr
    obtain ⟨b, hb, hrb'⟩ := (rb.mem_scalNums _ _).1 hr
    have hbm := (hmem b).1 hb
    rw [hc.rows r (rb.off b) ⟨b, hlt b hbm, hrb', hc.rowsValid.off_mem (hlt b hbm)⟩]
    exact hkey b hbm r0 hr0m
  have hexp : cb.scalNums (blockCols (scal2Block cb) (cols A (rb.off r0))) = cols A (rb.off r0) := by
    apply expand_blockCols hc.colsValid _ (hA.sorted _)
    · intro j hj
      obtain ⟨e, he, rfl⟩ := List.mem_map.1 hj
      rw [hc.width]
      exact hA.inRange _ e he
    · exact fun j j' hs hj => hc.cols _ j j' hs hj
  have hlen : ∀ r ∈ rb.scalNums sorted, ((A.row r).map Prod.snd).length = ((cols A (rb.off r0)).map x).length := by
    intro r hr
    rw [List.length_map, List.length_map, ← hrow r hr, cols, List.length_map]
  have hmemS : ∀ i, i ∈ rb.scalNums sorted ↔ i ∈ rb.scalNums rs := by
    intro i
    simp only [Blocking.mem_scalNums, hmem]
  have hfin : (fun i => if i ∈ rb.scalNums rs then out (y i) (matVec A x i) else y i) =
      fun i => if i ∈ rb.scalNums sorted then out (y i) (matVec A x i) else y i := by
    funext i; simp only [hmemS]
  rw [hfin]
  simp only [multiplyBlock, makeBlock, hrb, hcb, ← hsorted, hhead, hexp]
  have hcl : ((cols A (rb.off r0)).map x).length ≤ D.maxCols := by
    rw [List.length_map]
    simpa only [nScalCols, ← hsorted, hhead] using hmc
  rw [if_neg (by omega)]
  have hdl : ((rb.scalNums sorted).flatMap fun r => (A.row r).map Prod.snd).length =
      (rb.scalNums sorted).length * ((cols A (rb.off r0)).map x).length := by
    rw [List.length_flatMap, List.map_congr_left hlen]
    simp
  have hval : ∀ r ∈ rb.scalNums sorted, (List.zipWith (· * ·) ((A.row r).map Prod.snd) ((cols A (rb.off r0)).map x)).sum
      = matVec A x r := by
    intro r hr
    rw [← hrow r hr]
    exact rowSum_eq A x r (hA.inRange r)
  split
  · rename_i hpos
    rw [hdl, Nat.mul_div_cancel _ (by omega)]
    rw [if_neg (by omega)]
    apply putOut_fold _ _ _ _ _ 0 _ hndS (by omega)
    intro l r hl
    rw [Nat.zero_add, denseRow_flatMap _ _ _ hlen l r hl]
    exact hval r (List.mem_of_getElem? hl)
  · rename_i hpos
    apply putOut_fold _ _ _ _ _ 0 _ hndS (by omega)
    intro l r hl
    rw [← hval r (List.mem_of_getElem? hl)]
    have h0 : (cols A (rb.off r0)).map x = [] := List.eq_nil_of_length_eq_zero (by omega)
    rw [h0]
    simp

/-- folding disjoint updates over the row-blocks -/
theorem blocks_fold (D : Dyn K) (out : K → K → K) (x : ℕ → K) (g : ℕ → K) (S : List ℕ → List ℕ) (mk : List ℕ → RowBlock K)
    (css : List (List ℕ)) (y : ℕ → K) (hd : css.Pairwise fun a b => ∀ i ∈ S a, i ∉ S b)
    (hm : ∀ rs ∈ css, ∀ y, multiplyBlock D out x (some y) (mk rs) = some fun i => if i ∈ S rs then out (y i) (g i) else y i) :
    (css.map mk).foldl (multiplyBlock D out x) (some y) =
      some fun i => if ∃ rs ∈ css, i ∈ S rs then out (y i) (g i) else y i := by
  induction css generalizing y with
  | nil => simp
  | cons a css ih =>
    have hd' := List.pairwise_cons.1 hd
    rw [List.map_cons, List.foldl_cons, hm a List.mem_cons_self,
      ih _ hd'.2 (fun rs hrs => hm rs (List.mem_cons_of_mem _ hrs))]
    congr 1
    funext i
    by_cases hi : i ∈ S a
    · have : ¬ ∃ rs ∈ css, i ∈ S rs := fun ⟨rs, hrs, h⟩ => hd'.1 rs hrs i hi h
      rw [if_neg this, if_pos hi, if_pos ⟨a, List.mem_cons_self, hi⟩]
    · by_cases h : ∃ rs ∈ css, i ∈ S rs
      · rw [if_pos h, if_neg hi, if_pos]
        obtain ⟨rs, hrs, h'⟩ := h
        exact ⟨rs, List.mem_cons_of_mem _ hrs, h'⟩
      · rw [if_neg h, if_neg hi, if_neg]
        rintro ⟨rs, hrs, h'⟩
        rcases List.mem_cons.1 hrs with rfl | hrs
        · exact hi h'
        · exact h ⟨rs, hrs, h'⟩

/-- C17. Conversion to the dynamic block format never leaves its arrays, and multiplying with the converted matrix is
multiplying with the original matrix: every row is handed to the output callback exactly once, with `(A x)_i`. `order` is any
result of the unstable sort. -/
theorem multiply_correct (A : CSR K) (hA : A.WF) (rb cb : Blocking) (hc : Consistent A rb cb) (order : List ℕ)
    (ho : SortedBy A rb order) :
    ∃ D, finalize A rb cb order = some D ∧ ∀ (out : K → K → K) (x y : ℕ → K),
      multiply D out x y = some fun i => if i < A.height then out (y i) (matVec A x i) else y i := by
  set key := fun b => cols A (rb.off b) with hkey
  have hordlt : ∀ b ∈ order, b < rb.size := fun b hb => by simpa using ho.perm.subset hb
  have hordnd : order.Nodup := ho.perm.nodup_iff.2 List.nodup_range
  have hfl := chunks_flatten key order
  have huni := chunks_uniform key order
  have hnd : ∀ rs ∈ chunks key order, rs.Nodup := by
    intro rs hrs
    have : (chunks key order).flatten.Nodup := by rw [hfl]; exact hordnd
    exact (List.nodup_flatten.1 this).1 rs hrs
  have hdis : (chunks key order).Pairwise List.Disjoint := by
    have : (chunks key order).flatten.Nodup := by rw [hfl]; exact hordnd
    exact (List.nodup_flatten.1 this).2
  have hsub : ∀ rs ∈ chunks key order, ∀ b ∈ rs, b ∈ order := by
    intro rs hrs b hb
    rw [← hfl]
    exact List.mem_flatten.2 ⟨rs, hrs, hb⟩
  -- space for the columns
  have hspace : (((chunks key order).map (makeBlock A rb (scal2Block cb))).map fun b => b.cols.length).sum ≤
      maxColSize A key order := by
    rw [List.map_map]
    have hf : ∀ rs, rs ≠ [] → (∀ b ∈ rs, ∀ c ∈ rs, key b = key c) → ∀ b ∈ rs,
        ((fun b => b.cols.length) ∘ makeBlock A rb (scal2Block cb)) rs ≤ (key b).length := by
      intro rs hne hu b hb
      simp only [Function.comp, makeBlock]
      refine (blockCols_length _ _).trans ?_
      have hm : (rs.insertionSort (· ≤ ·)).headD 0 ∈ rs := by
        have : rs.insertionSort (· ≤ ·) ≠ [] := by
          intro h0
          have h1 : b ∈ rs.insertionSort (· ≤ ·) := by simpa using hb
          rw [h0] at h1; simp at h1
        obtain ⟨a, t, hat⟩ := List.exists_cons_of_ne_nil this
        rw [hat]
        have : a ∈ rs.insertionSort (· ≤ ·) := by rw [hat]; simp
        simpa using this
      exact (congrArg List.length (hu _ hm b hb)).le
    cases hord : order with
    | nil => simp [chunks]
    | cons k l =>
      have h1 := chunkGo_size key _ [k] k l (by simp) (by simp) hf
      have hk : k < rb.size := hordlt k (by rw [hord]; simp)
      have hpos : 0 < A.height := by
        rw [← hc.height]
        exact lt_of_le_of_lt (Nat.zero_le _) (hc.rowsValid.scals_lt hk (hc.rowsValid.off_mem hk))
      have hmin : (key k).length ≤ (cols A 0).length := by
        have h0 : 0 ∈ order := ho.perm.symm.subset (by simpa using lt_of_le_of_lt (Nat.zero_le _) hk)
        have h00 : cols A 0 = key 0 := by rw [hkey]; simp [hc.rowsValid.first]
        rw [h00]
        rw [hord] at h0
        rcases List.mem_cons.1 h0 with h0 | h0
        · rw [h0]
        · have hsrt := ho.sorted
          rw [hord] at hsrt
          exact lexiLess_false_length ((List.pairwise_cons.1 hsrt).1 0 h0)
      have h2 : maxColSize A key (k :: l) = 256 + (cols A 0).length + jumps key (k :: l) := by
        rw [maxColSize, if_neg (by omega), jumps]
      rw [h2, chunks]
      omega
  refine ⟨_, if_pos hspace, fun out x y => ?_⟩
  rw [multiply]
  rw [blocks_fold _ out x (matVec A x) rb.scalNums (makeBlock A rb (scal2Block cb)) (chunks key order) y]
  · congr 1
    funext i
    have : (∃ rs ∈ chunks key order, i ∈ rb.scalNums rs) ↔ i < A.height := by
      rw [← hc.height]
      constructor
      · rintro ⟨rs, hrs, hi⟩
        obtain ⟨b, hb, hib⟩ := (rb.mem_scalNums _ _).1 hi
        exact hc.rowsValid.scals_lt (hordlt b (hsub rs hrs b hb)) hib
      · intro hi
        obtain ⟨b, hb, hib⟩ := hc.rowsValid.exists_block hi
        have : b ∈ (chunks key order).flatten := by rw [hfl]; exact ho.perm.symm.subset (by simpa using hb)
        obtain ⟨rs, hrs, hbr⟩ := List.mem_flatten.1 this
        exact ⟨rs, hrs, (rb.mem_scalNums _ _).2 ⟨b, hbr, hib⟩⟩
    simp only [this]
  · refine hdis.imp_of_mem ?_
    intro r s hr hs hrs i hi hj
    obtain ⟨b, hb, hib⟩ := (rb.mem_scalNums _ _).1 hi
    obtain ⟨c, hcc, hic⟩ := (rb.mem_scalNums _ _).1 hj
    have := hc.rowsValid.unique (hordlt b (hsub r hr b hb)) (hordlt c (hsub s hs c hcc)) hib hic
    subst this
    exact hrs hb hcc
  · intro rs hrs y
    apply multiplyBlock_eq A hA rb cb hc _ rfl rfl rs (huni rs hrs).1 (hnd rs hrs)
      (fun b hb => hordlt b (hsub rs hrs b hb)) (huni rs hrs).2
    · exact (foldl_max_ge _ _).2 _ (List.mem_map.2 ⟨rs, hrs, rfl⟩)
    · exact (foldl_max_ge _ _).2 _ (List.mem_map.2 ⟨rs, hrs, rfl⟩)

/-- C17: `Mult` overwrites `y` with `A x` -/
theorem mult_correct (A : CSR K) (hA : A.WF) (rb cb : Blocking) (hc : Consistent A rb cb) (order : List ℕ)
    (ho : SortedBy A rb order) : ∃ D, finalize A rb cb order = some D ∧ ∀ x y : ℕ → K, ∃ y', mult D x y = some y' ∧
      ∀ i < A.height, y' i = matVec A x i := by
  obtain ⟨D, hD, h⟩ := multiply_correct A hA rb cb hc order ho
  refine ⟨D, hD, fun x y => ⟨_, h _ x y, fun i hi => ?_⟩⟩
  simp [hi]

/-- C17: `MultAdd` adds `s A x` to `y` -/
theorem multAdd_correct (A : CSR K) (hA : A.WF) (rb cb : Blocking) (hc : Consistent A rb cb) (order : List ℕ)
    (ho : SortedBy A rb order) : ∃ D, finalize A rb cb order = some D ∧ ∀ (s : K) (x y : ℕ → K), ∃ y',
      multAdd D s x y = some y' ∧ ∀ i < A.height, y' i = y i + s * matVec A x i := by
  obtain ⟨D, hD, h⟩ := multiply_correct A hA rb cb hc order ho
  refine ⟨D, hD, fun s x y => ⟨_, h _ x y, fun i hi => ?_⟩⟩
  simp [hi]

end

/-! ### the constructor that detects the blocks -/

/-- the pattern is symmetric -/
def SymPattern {E : Type*} (A : CSR E) : Prop := ∀ i j, i ∈ cols A j ↔ j ∈ cols A i

section
variable {E : Type*}

theorem chunkOffsets_sorted (A : CSR E) : (chunkOffsets A).Pairwise (· < ·) := by
  rw [chunkOffsets]
  split
  · simp
  · rename_i h
    rw [List.cons_append, List.pairwise_cons, List.pairwise_append]
    refine ⟨?_, ?_, by simp, ?_⟩
    · intro x hx
      simp only [List.mem_append, List.mem_filter, List.mem_range'_1, List.mem_singleton] at hx
      omega
    · exact (List.pairwise_lt_range').filter _
    · intro a ha b hb
      simp only [List.mem_filter, List.mem_range'_1, List.mem_singleton] at ha hb
      omega

theorem chunkOffsets_ne (A : CSR E) : chunkOffsets A ≠ [] := by
  rw [chunkOffsets]; split <;> simp

theorem chunkOffsets_last (A : CSR E) : (chunkOffsets A).getLast (chunkOffsets_ne A) = A.height := by
  by_cases h : A.height = 0 <;> simp [chunkOffsets, h]

theorem chunkOffsets_head (A : CSR E) : (chunkOffsets A).getD 0 0 = 0 := by
  by_cases h : A.height = 0 <;> simp [chunkOffsets, h]

theorem rowBlocking_valid (A : CSR E) : (rowBlocking A).Valid where
  first := chunkOffsets_head A
  last := by
    have hne := chunkOffsets_ne A
    have hlen : 0 < (chunkOffsets A).length := List.length_pos_iff.2 hne
    simp only [rowBlocking]
    rw [List.getD_eq_getElem _ _ (by omega), ← List.getLast_eq_getElem hne]
    exact chunkOffsets_last A
  incr := by
    intro b hb
    simp only [rowBlocking] at hb ⊢
    rw [List.getD_eq_getElem _ _ (by omega), List.getD_eq_getElem _ _ (by omega)]
    exact List.pairwise_iff_getElem.1 (chunkOffsets_sorted A) _ _ _ _ (by omega)

theorem rowBlocking_rows (A : CSR E) (i j : ℕ) (h : (rowBlocking A).Same i j) : cols A i = cols A j := by
  obtain ⟨b, hb, hi, hj⟩ := h
  have hv := rowBlocking_valid A
  have key : ∀ k ∈ (rowBlocking A).scals b, cols A k = cols A ((rowBlocking A).off b) := by
    intro k hk
    rw [hv.mem hb] at hk
    obtain ⟨hlo, hhi⟩ := hk
    induction k, hlo using Nat.le_induction with
    | base => rfl
    | succ k hk ih =>
      rw [← ih (by omega)]
      by_contra hne
      have hoff := hv.mono (b := b + 1) (c := (rowBlocking A).size) hb le_rfl
      rw [hv.last] at hoff
      have hh : k + 1 < A.height := lt_of_lt_of_le hhi hoff
      have hmem : k + 1 ∈ chunkOffsets A := by
        rw [chunkOffsets, if_neg (by omega)]
        simp only [List.cons_append, List.mem_cons, List.mem_append, List.mem_filter, List.mem_range'_1]
        right; left
        refine ⟨by omega, ?_⟩
        simpa using fun h => hne h.symm
      obtain ⟨n, hn, hnk⟩ := List.getElem_of_mem hmem
      have hs := List.pairwise_iff_getElem.1 (chunkOffsets_sorted A)
      have hb1 : b + 1 < (chunkOffsets A).length := by simp only [rowBlocking] at hb; omega
      simp only [rowBlocking] at hk hhi
      rw [List.getD_eq_getElem _ _ (by omega)] at hk
      rw [List.getD_eq_getElem _ _ hb1] at hhi
      have h1 : b < n := by
        by_contra hle
        rcases Nat.lt_or_ge n b with h | h
        · have := hs n b hn (by omega) h; omega
        · have : n = b := by omega
          subst this; omega
      rcases Nat.lt_or_ge n (b + 1) with h | h
      · omega
      · rcases Nat.lt_or_ge (b + 1) n with h' | h'
        · have := hs (b + 1) n hb1 hn h'; omega
        · have : n = b + 1 := by omega
          subst this; omega
  rw [key i hi, key j hj]

/-- a matrix with symmetric pattern has the block structure that the constructor detects -/
theorem rowBlocking_consistent (A : CSR E) (hsq : A.height = A.width) (hs : SymPattern A) :
    Consistent A (rowBlocking A) (rowBlocking A) where
  rowsValid := rowBlocking_valid A
  colsValid := rowBlocking_valid A
  height := rfl
  width := hsq
  rows := rowBlocking_rows A
  cols := by
    intro i j j' hj hm
    rw [← hs, rowBlocking_rows A j j' hj] at hm
    exact (hs _ _).1 hm

/-- C17 for the constructor without given blocking: correct for every matrix with symmetric pattern -/
theorem default_correct {K : Type*} [CommRing K] (A : CSR K) (hA : A.WF) (hsq : A.height = A.width) (hs : SymPattern A)
    (order : List ℕ) (ho : SortedBy A (rowBlocking A) order) :
    ∃ D, finalize A (rowBlocking A) (rowBlocking A) order = some D ∧ ∀ (x y : ℕ → K),
      (∃ y', mult D x y = some y' ∧ ∀ i < A.height, y' i = matVec A x i) ∧
      ∀ s, ∃ y', multAdd D s x y = some y' ∧ ∀ i < A.height, y' i = y i + s * matVec A x i := by
  have hc := rowBlocking_consistent A hsq hs
  obtain ⟨D, hD, h1⟩ := mult_correct A hA _ _ hc order ho
  obtain ⟨D', hD', h2⟩ := multAdd_correct A hA _ _ hc order ho
  rw [hD] at hD'
  cases hD'
  exact ⟨D, hD, fun x y => ⟨h1 x y, fun s => h2 s x y⟩⟩

end

theorem lexEq_asymm (a b : List ℕ) (h : lexEq a b = true) : lexEq b a = false := by
  induction a generalizing b with
  | nil => simp [lexEq] at h
  | cons x a ih =>
    cases b with
    | nil => simp [lexEq] at h
    | cons y b =>
      rw [lexEq] at h ⊢
      by_cases hxy : x < y
      · rw [if_neg (by omega), if_pos hxy]
      · rw [if_neg hxy] at h
        by_cases hyx : y < x
        · simp [hyx] at h
        · rw [if_neg hyx] at h
          rw [if_neg hyx, if_neg hxy]
          exact ih b h

theorem lexEq_negTrans (a b c : List ℕ) (hab : a.length = b.length) (hbc : b.length = c.length) (h1 : lexEq b a = false)
    (h2 : lexEq c b = false) : lexEq c a = false := by
  induction a generalizing b c with
  | nil => cases c <;> simp [lexEq]
  | cons x a ih =>
    cases b with
    | nil => simp at hab
    | cons y b =>
      cases c with
      | nil => simp at hbc
      | cons z c =>
        simp only [List.length_cons, Nat.add_right_cancel_iff] at hab hbc
        rw [lexEq] at h1 h2 ⊢
        by_cases hyx : y < x
        · simp [hyx] at h1
        by_cases hzy : z < y
        · simp [hzy] at h2
        rw [if_neg hyx] at h1
        rw [if_neg hzy] at h2
        rw [if_neg (by omega)]
        by_cases hxz : x < z
        · rw [if_pos hxz]
        · rw [if_neg hxz]
          rw [if_neg (by omega)] at h1 h2
          exact ih b c hab hbc h1 h2

/-- the comparison is a strict weak order, which is what the library sort requires -/
theorem lexiLess_order : (∀ a b, lexiLess a b = true → lexiLess b a = false) ∧
    ∀ a b c, lexiLess b a = false → lexiLess c b = false → lexiLess c a = false := by
  constructor
  · intro a b h
    rw [lexiLess] at h ⊢
    by_cases hl : a.length = b.length
    · rw [if_pos hl] at h
      rw [if_pos hl.symm]
      exact lexEq_asymm a b h
    · rw [if_neg hl] at h
      rw [if_neg (Ne.symm hl)]
      simp only [decide_eq_true_eq, decide_eq_false_iff_not] at h ⊢
      omega
  · intro a b c h1 h2
    have l1 := lexiLess_false_length h1
    have l2 := lexiLess_false_length h2
    rw [lexiLess] at h1 h2 ⊢
    by_cases hl : c.length = a.length
    · rw [if_pos hl]
      rw [if_pos (by omega)] at h1 h2
      exact lexEq_negTrans a b c (by omega) (by omega) h1 h2
    · rw [if_neg hl]
      simp only [decide_eq_false_iff_not]
      omega

/-- non-vacuity: for every matrix and blocking there is an ordering as the sort delivers it -/
theorem sortedBy_exists {E : Type*} (A : CSR E) (rb : Blocking) : ∃ order, SortedBy A rb order := by
  let r : ℕ → ℕ → Prop := fun a b => lexiLess (cols A (rb.off b)) (cols A (rb.off a)) = false
  haveI : DecidableRel r := fun a b => inferInstanceAs (Decidable (_ = false))
  haveI : Std.Total r := ⟨fun a b => by
    by_cases h : lexiLess (cols A (rb.off b)) (cols A (rb.off a)) = false
    · exact Or.inl h
    · exact Or.inr (lexiLess_order.1 _ _ (by simpa using h))⟩
  haveI : IsTrans ℕ r := ⟨fun a b c h1 h2 => lexiLess_order.2 _ _ _ h1 h2⟩
  exact ⟨(List.range rb.size).insertionSort r, List.perm_insertionSort r _, List.pairwise_insertionSort r _⟩

/-- a 4×4 matrix with two rows {0,1} and {3} of equal pattern that are not neighbours -/
def exA : CSR ℤ where
  height := 4
  width := 4
  row i := if i = 0 then [(0, 2), (1, 1), (3, 5)] else if i = 1 then [(0, 1), (1, 7), (3, 4)]
    else if i = 2 then [(2, 3)] else if i = 3 then [(0, 5), (1, 4), (3, 9)] else []

theorem exA_wf : exA.WF := by
  refine ⟨?_, ?_, ?_⟩
  · intro i
    by_cases h : i < 4
    · interval_cases i <;> decide
    · have : exA.row i = [] := by simp only [exA]; split_ifs <;> first | omega | rfl
      simp [this]
  · intro i
    by_cases h : i < 4
    · interval_cases i <;> decide
    · have : exA.row i = [] := by simp only [exA]; split_ifs <;> first | omega | rfl
      simp [this]
  · intro i h
    have h : 4 ≤ i := h
    simp only [exA]; split_ifs <;> first | omega | rfl

/-- non-vacuity: the detected blocks are {0,1}, {2}, {3}; rows {0,1} and {3} share a row-block -/
example : ∃ order, SortedBy exA (rowBlocking exA) order ∧ SymPattern exA ∧ exA.WF := by
  refine ⟨[1, 2, 0], ⟨by decide, by decide⟩, ?_, exA_wf⟩
  intro i j
  by_cases hi : i < 4
  · by_cases hj : j < 4
    · interval_cases i <;> interval_cases j <;> decide
    · have h1 : cols exA j = [] := by simp only [cols, exA]; split_ifs <;> first | omega | rfl
      have h2 : j ∉ cols exA i := by
        intro h
        obtain ⟨e, he, rfl⟩ := List.mem_map.1 h
        exact hj (exA_wf.inRange i e he)
      simp [h1, h2]
  · have h1 : cols exA i = [] := by simp only [cols, exA]; split_ifs <;> first | omega | rfl
    have h2 : i ∉ cols exA j := by
      intro h
      obtain ⟨e, he, rfl⟩ := List.mem_map.1 h
      exact hi (exA_wf.inRange j e he)
    simp [h1, h2]

example : (finalize exA (rowBlocking exA) (rowBlocking exA) [1, 2, 0]).bind
    (fun D => (mult D (fun i => (i : ℤ) + 1) (fun _ => 0)).map fun y => (y 0, y 1, y 2, y 3)) = some (24, 31, 9, 49) := by
  decide +kernel

/-- C17: without a symmetric pattern the detecting constructor writes outside of its column buffer (rows `{0}`, `{0}`) -/
theorem default_needs_symmetric : ∃ (A : CSR ℤ) (order : List ℕ), A.WF ∧ A.height = A.width ∧
    SortedBy A (rowBlocking A) order ∧ ∃ D, finalize A (rowBlocking A) (rowBlocking A) order = some D ∧
      ∀ x y : ℕ → ℤ, mult D x y = none := by
  refine ⟨⟨2, 2, fun i => if i < 2 then [(0, 1)] else []⟩, [0], ⟨?_, ?_, ?_⟩, rfl, ⟨by decide, by decide⟩, ?_⟩
  · intro i; dsimp only; split <;> simp
  · intro i; dsimp only; split <;> simp
  · intro i h; dsimp only at h ⊢; rw [if_neg (by omega)]
  · refine ⟨_, rfl, fun x y => ?_⟩
    rfl

end NgsAMG.DynBlock
