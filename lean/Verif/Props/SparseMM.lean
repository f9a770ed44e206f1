import Verif.Model.SparseMM
import Verif.Props.MergeArrays
import Verif.Props.GaussSeidel
import Mathlib.Data.List.Sort
import Mathlib.Data.Fin.VecNotation
import Mathlib.Tactic.IntervalCases
import Mathlib.LinearAlgebra.Matrix.Notation
import Mathlib.Algebra.BigOperators.Group.Finset.Sigma

/-! Sparse transposition, products and Galerkin projections are exact (C10 - C13). The specification is in terms of
`CSR.entry`, the dense entry represented by a sparse matrix, and of `CSR.WF`: columns strictly increasing and in range. -/

namespace NgsAMG.SparseMM

open Matrix Finset

variable {K : Type*} [CommRing K] {a b c : ℕ}

/-! ### sums over stored entries and dense sums -/

theorem list_dense' {E M : Type*} [AddCommMonoid E] [AddCommMonoid M] (g : ℕ → E →+ M) (l : List (ℕ × E)) (n : ℕ)
    (h : ∀ e ∈ l, e.1 < n) :
    ∑ j ∈ range n, g j ((l.filter (fun e => e.1 = j)).map Prod.snd).sum = (l.map fun e => g e.1 e.2).sum := by
  induction l with
  | nil => simp
  | cons e l ih =>
    have ih := ih fun x hx => h x (List.mem_cons_of_mem _ hx)
    have he : e.1 < n := h e (by simp)
    rw [List.map_cons, List.sum_cons, ← ih]
    have : ∀ j ∈ range n, g j (((e :: l).filter (fun e => e.1 = j)).map Prod.snd).sum =
        (if j = e.1 then g e.1 e.2 else 0) + g j ((l.filter (fun e => e.1 = j)).map Prod.snd).sum := by
      intro j _
      by_cases hj : e.1 = j
      · subst hj; simp
      · simp [hj, Ne.symm hj]
    rw [sum_congr rfl this, sum_add_distrib, sum_ite_eq' (range n) e.1 (fun _ => g e.1 e.2)]
    simp [he]

theorem entry_sum {E M : Type*} [AddCommMonoid E] [AddCommMonoid M] (g : ℕ → E →+ M) (A : CSR E) (i : ℕ)
    (h : ∀ e ∈ A.row i, e.1 < A.width) :
    ∑ j ∈ range A.width, g j (A.entry i j) = ((A.row i).map fun e => g e.1 e.2).sum :=
  list_dense' g _ _ h

/-! ### C10: transposition -/

/-- all entries with their row numbers, row by row -/
def allEntries {E : Type*} (A : CSR E) : List (ℕ × ℕ × E) :=
  (List.range A.height).flatMap fun i => (A.row i).map fun e => (i, e)

theorem countCols_eq {E : Type*} (A : CSR E) (x : ℕ) :
    countCols A x = (allEntries A).countP (fun p => p.2.1 = x) := by
  have gen : ∀ (l : List (ℕ × ℕ × E)) (cnt : ℕ → ℕ),
      l.foldl (fun cnt p => Function.update cnt p.2.1 (cnt p.2.1 + 1)) cnt x
        = cnt x + l.countP (fun p => p.2.1 = x) := by
    intro l
    induction l with
    | nil => simp
    | cons p l ih =>
      intro cnt
      rw [List.foldl_cons, ih, List.countP_cons]
      by_cases hp : p.2.1 = x
      · subst hp; simp; omega
      · simp [hp, Function.update_of_ne (Ne.symm hp)]
  have := gen (allEntries A) (fun _ => 0)
  rw [Nat.zero_add] at this
  rw [← this, allEntries, List.foldl_flatMap]
  simp only [countCols, List.foldl_map]

theorem put_fold (size : ℕ → ℕ) (l : List (ℕ × ℕ × Mt a b K)) (rows : ℕ → List (ℕ × Mt b a K))
    (h : ∀ x, (rows x).length + l.countP (fun p => p.2.1 = x) ≤ size x) :
    l.foldl (fun rows p => putTrans size p.1 rows p.2) (some rows) =
      some fun x => rows x ++ (l.filter (fun p => p.2.1 = x)).map fun p => (p.1, p.2.2ᵀ) := by
  induction l generalizing rows with
  | nil => simp
  | cons p l ih =>
    have h0 := h p.2.1
    rw [List.countP_cons] at h0
    simp only [decide_true, if_true] at h0
    have hlt : (rows p.2.1).length < size p.2.1 := by omega
    have hstep : putTrans size p.1 (some rows) p.2 =
        some (Function.update rows p.2.1 (rows p.2.1 ++ [(p.1, p.2.2ᵀ)])) := by
      simp only [putTrans, Option.bind_some, hlt, if_true]
    rw [List.foldl_cons, hstep, ih]
    · congr 1
      funext x
      by_cases hx : p.2.1 = x
      · subst hx; simp
      · simp [hx, Function.update_of_ne (Ne.symm hx)]
    · intro x
      have hx' := h x
      rw [List.countP_cons] at hx'
      by_cases hx : p.2.1 = x
      · subst hx; simp at hx' ⊢; omega
      · rw [Function.update_of_ne (Ne.symm hx)]; simp [hx] at hx'; exact hx'

/-- row `x` of the transposed matrix -/
def transRow (A : CSR (Mt a b K)) (x : ℕ) : List (ℕ × Mt b a K) :=
  ((allEntries A).filter (fun p => p.2.1 = x)).map fun p => (p.1, p.2.2ᵀ)

theorem allEntries_sorted {E : Type*} (A : CSR E) (hs : ∀ i, ((A.row i).map Prod.fst).Pairwise (· < ·)) :
    (allEntries A).Pairwise (fun p q => p.1 < q.1 ∨ (p.1 = q.1 ∧ p.2.1 < q.2.1)) := by
  rw [allEntries, List.pairwise_flatMap]
  refine ⟨fun i _ => ?_, ?_⟩
  · rw [List.pairwise_map]
    have := hs i
    rw [List.pairwise_map] at this
    exact this.imp fun h => Or.inr ⟨rfl, h⟩
  · refine List.pairwise_lt_range.imp ?_
    intro i j hij x hx y hy
    rw [List.mem_map] at hx hy
    obtain ⟨_, _, rfl⟩ := hx
    obtain ⟨_, _, rfl⟩ := hy
    exact Or.inl hij

theorem transRow_sorted (A : CSR (Mt a b K)) (hs : ∀ i, ((A.row i).map Prod.fst).Pairwise (· < ·)) (x : ℕ) :
    ((transRow A x).map Prod.fst).Pairwise (· < ·) := by
  rw [transRow, List.map_map, List.pairwise_map]
  have h1 := (allEntries_sorted A hs).filter (fun p => decide (p.2.1 = x))
  refine h1.imp_of_mem ?_
  intro p q hp hq h
  have hp := (List.mem_filter.1 hp).2
  have hq := (List.mem_filter.1 hq).2
  simp only [decide_eq_true_eq] at hp hq
  simp only [Function.comp]
  omega

theorem mem_transRow (A : CSR (Mt a b K)) (x i : ℕ) (v : Mt b a K) :
    (i, v) ∈ transRow A x ↔ i < A.height ∧ (x, vᵀ) ∈ A.row i := by
  simp only [transRow, allEntries, List.mem_map, List.mem_filter, List.mem_flatMap, List.mem_range, decide_eq_true_eq]
  constructor
  · rintro ⟨p, ⟨⟨k, hk, e, he, rfl⟩, hx⟩, hp⟩
    simp only [Prod.mk.injEq] at hp
    obtain ⟨rfl, rfl⟩ := hp
    simp only at hx
    subst hx
    exact ⟨hk, by simpa using he⟩
  · rintro ⟨hi, he⟩
    exact ⟨(i, x, vᵀ), ⟨⟨i, hi, _, he, rfl⟩, rfl⟩, by simp⟩

theorem transpose_eq (A : CSR (Mt a b K)) (hs : ∀ i, ((A.row i).map Prod.fst).Pairwise (· < ·)) :
    transpose A = some { height := A.width, width := A.height, row := transRow A } := by
  have h1 := put_fold (countCols A) (allEntries A) (fun _ => []) (by intro x; rw [countCols_eq]; simp)
  simp only [List.nil_append] at h1
  rw [allEntries, List.foldl_flatMap] at h1
  simp only [List.foldl_map] at h1
  unfold transpose
  simp only [h1, Option.map_some]
  congr 2
  funext x
  change (transRow A x).insertionSort _ = transRow A x
  apply List.Pairwise.insertionSort_eq
  have := transRow_sorted A hs x
  rw [List.pairwise_map] at this
  exact this.imp fun h => Nat.le_of_lt h

theorem nodup_of_sorted {E : Type*} {l : List (ℕ × E)} (h : (l.map Prod.fst).Pairwise (· < ·)) : l.Nodup :=
  List.Nodup.of_map Prod.fst (h.imp fun h => Nat.ne_of_lt h)

/-- a row is determined by its entries -/
theorem row_ext {E : Type*} {l l' : List (ℕ × E)} (h : (l.map Prod.fst).Pairwise (· < ·))
    (h' : (l'.map Prod.fst).Pairwise (· < ·)) (he : ∀ e, e ∈ l ↔ e ∈ l') : l = l' := by
  have hp : l.Perm l' := (List.perm_ext_iff_of_nodup (nodup_of_sorted h) (nodup_of_sorted h')).2 he
  rw [List.pairwise_map] at h h'
  exact hp.eq_of_pairwise (fun x y _ _ h1 h2 => absurd h1 (by omega)) h h'

theorem entry_of_mem {E : Type*} [AddCommMonoid E] (A : CSR E) (i j : ℕ) (v : E)
    (hs : ((A.row i).map Prod.fst).Pairwise (· < ·)) (h : (j, v) ∈ A.row i) : A.entry i j = v := by
  unfold CSR.entry
  revert hs h
  induction A.row i with
  | nil => simp
  | cons e l ih =>
    intro hs h
    rw [List.map_cons, List.pairwise_cons] at hs
    rcases List.mem_cons.1 h with h | h
    · subst h
      have : l.filter (fun e => decide (e.1 = j)) = [] := by
        rw [List.filter_eq_nil_iff]
        intro e he
        have := hs.1 e.1 (List.mem_map_of_mem he)
        simp only at this
        simp; omega
      simp [this]
    · have hne : ¬ e.1 = j := by
        have := hs.1 j (List.mem_map.2 ⟨_, h, rfl⟩)
        omega
      simp [hne, ih hs.2 h]

theorem entry_of_not_mem {E : Type*} [AddCommMonoid E] (A : CSR E) (i j : ℕ) (h : ∀ v, (j, v) ∉ A.row i) :
    A.entry i j = 0 := by
  unfold CSR.entry
  have : (A.row i).filter (fun e => decide (e.1 = j)) = [] := by
    rw [List.filter_eq_nil_iff]
    intro e he hj
    simp only [decide_eq_true_eq] at hj
    subst hj
    exact h e.2 he
  simp [this]

/-- **C10.** Transposing a sparse matrix succeeds (never writes outside of its allocation) and yields a well-formed sparse
matrix with the dimensions swapped, which represents the transposed matrix of transposed blocks. -/
theorem transpose_correct (A : CSR (Mt a b K)) (hA : A.WF) :
    ∃ T, transpose A = some T ∧ T.WF ∧ T.height = A.width ∧ T.width = A.height ∧
      ∀ i j, T.entry j i = (A.entry i j)ᵀ := by
  refine ⟨_, transpose_eq A hA.sorted, ⟨transRow_sorted A hA.sorted, ?_, ?_⟩, rfl, rfl, ?_⟩
  · rintro x ⟨i, v⟩ h; exact ((mem_transRow A x i v).1 h).1
  · intro x hx
    rw [List.eq_nil_iff_forall_not_mem]
    rintro ⟨i, v⟩ h
    exact absurd (hA.inRange i _ ((mem_transRow A x i v).1 h).2) (Nat.not_lt.2 hx)
  · intro i j
    by_cases h : ∃ v, (j, v) ∈ A.row i
    · obtain ⟨v, hv⟩ := h
      have hi : i < A.height := by
        by_contra hi
        rw [hA.outside i (Nat.not_lt.1 hi)] at hv; simp at hv
      rw [entry_of_mem A i j v (hA.sorted i) hv]
      exact entry_of_mem _ j i _ (transRow_sorted A hA.sorted j) ((mem_transRow A j i _).2 ⟨hi, by simpa using hv⟩)
    · push Not at h
      rw [entry_of_not_mem A i j h, transpose_zero]
      exact entry_of_not_mem _ j i fun v hv => h _ ((mem_transRow A j i v).1 hv).2

/-- **C10.** Transposing twice gives the same sparse matrix back, including its structure. -/
theorem transpose_transpose (A : CSR (Mt a b K)) (hA : A.WF) : (transpose A).bind transpose = some A := by
  rw [transpose_eq A hA.sorted, Option.bind_some, transpose_eq _ (transRow_sorted A hA.sorted)]
  have : transRow ({ height := A.width, width := A.height, row := transRow A } : CSR (Mt b a K)) = A.row := by
    funext i
    apply row_ext (transRow_sorted _ (transRow_sorted A hA.sorted) i) (hA.sorted i)
    rintro ⟨j, v⟩
    rw [mem_transRow]
    simp only
    rw [mem_transRow]
    constructor
    · rintro ⟨_, _, h⟩; simpa using h
    · intro h
      refine ⟨hA.inRange i _ h, ?_, by simpa using h⟩
      by_contra hi
      rw [hA.outside i (Nat.not_lt.1 hi)] at h; simp at h
  rw [this]

/-! ### C11, C12: product -/

theorem fillHash_spec (nhash : ℕ) (cols : List ℕ) (junk : ℕ → ℕ × ℕ) (x : ℕ) (hx : x ∈ cols) :
    cols[(fillHash nhash cols junk (x &&& (nhash - 1))).2]? = some (fillHash nhash cols junk (x &&& (nhash - 1))).1 := by
  have gen : ∀ (l : List (ℕ × ℕ)) (h : ℕ → ℕ × ℕ), (∀ p ∈ l, cols[p.2]? = some p.1) →
      ((∃ p ∈ l, p.1 &&& (nhash - 1) = x &&& (nhash - 1)) ∨
        cols[(h (x &&& (nhash - 1))).2]? = some (h (x &&& (nhash - 1))).1) →
      cols[(l.foldl (fun h ck => Function.update h (ck.1 &&& (nhash - 1)) (ck.1, ck.2)) h (x &&& (nhash - 1))).2]? =
        some (l.foldl (fun h ck => Function.update h (ck.1 &&& (nhash - 1)) (ck.1, ck.2)) h (x &&& (nhash - 1))).1 := by
    intro l
    induction l with
    | nil => intro h _ h2; simpa using h2
    | cons p l ih =>
      intro h h1 h2
      rw [List.foldl_cons]
      apply ih _ fun q hq => h1 q (List.mem_cons_of_mem _ hq)
      by_cases hp : p.1 &&& (nhash - 1) = x &&& (nhash - 1)
      · right
        rw [hp, Function.update_self]
        exact h1 p (by simp)
      · rcases h2 with ⟨q, hq, hqx⟩ | h2
        · rcases List.mem_cons.1 hq with rfl | hq
          · exact absurd hqx hp
          · exact Or.inl ⟨q, hq, hqx⟩
        · right
          rw [Function.update_of_ne (Ne.symm hp)]
          exact h2
  apply gen
  · rintro ⟨p, k⟩ hp
    exact List.mem_zipIdx_iff_getElem?.1 hp
  · left
    obtain ⟨k, hk⟩ := List.mem_iff_getElem?.1 hx
    exact ⟨(x, k), List.mem_zipIdx_iff_getElem?.2 hk, rfl⟩

theorem addContrib_spec {E : Type*} [Add E] (nhash : ℕ) (cols : List ℕ) (hn : cols.Nodup) (junk : ℕ → ℕ × ℕ)
    (F : ℕ → E) (x : ℕ) (v : E) (hx : x ∈ cols) :
    addContrib nhash cols (fillHash nhash cols junk) (some (cols.map F)) (x, v) =
      some (cols.map (Function.update F x (F x + v))) := by
  have hpos : ∃ p : ℕ, (if (fillHash nhash cols junk (x &&& (nhash - 1))).1 = x then
      some (fillHash nhash cols junk (x &&& (nhash - 1))).2 else cols.idxOf? x) = some p ∧ cols[p]? = some x := by
    split
    · rename_i h
      exact ⟨_, rfl, by rw [fillHash_spec nhash cols junk x hx, h]⟩
    · refine ⟨cols.idxOf x, ?_, ?_⟩
      · rw [List.idxOf?_eq_some_iff]
        exact ⟨List.idxOf_lt_length_iff.2 hx, by simp, fun j hj => by
          intro h
          have := List.not_of_lt_findIdx (p := (· == x)) hj
          simp [h] at this⟩
      · simp [List.getElem?_idxOf hx]
  obtain ⟨p, h1, h2⟩ := hpos
  have hp : p < cols.length := (List.getElem?_eq_some_iff.1 h2).1
  simp only [addContrib, Option.bind_some, h1, List.length_map, hp, if_true]
  congr 1
  apply List.ext_getElem?
  intro k
  rw [List.getElem?_modify, List.getElem?_map, List.getElem?_map]
  by_cases hk : p = k
  · subst hk; simp [h2]
  · simp only [hk, if_false]
    rcases hck : cols[k]? with _ | y
    · rfl
    · have hy : y ≠ x := by
        rintro rfl
        rw [← hck] at h2
        exact hk ((List.getElem?_inj hp hn).1 h2)
      simp [Function.update_of_ne hy]

theorem addContrib_fold {E : Type*} [AddCommMonoid E] (nhash : ℕ) (cols : List ℕ) (hn : cols.Nodup) (junk : ℕ → ℕ × ℕ)
    (l : List (ℕ × E)) (F : ℕ → E) (hl : ∀ e ∈ l, e.1 ∈ cols) :
    l.foldl (addContrib nhash cols (fillHash nhash cols junk)) (some (cols.map F)) =
      some (cols.map fun x => F x + ((l.filter (fun e => e.1 = x)).map Prod.snd).sum) := by
  induction l generalizing F with
  | nil => simp
  | cons e l ih =>
    rw [List.foldl_cons, addContrib_spec nhash cols hn junk F e.1 e.2 (hl e (by simp)),
      ih _ fun x hx => hl x (List.mem_cons_of_mem _ hx)]
    congr 2
    funext x
    by_cases hx : e.1 = x
    · subst hx; simp [add_assoc]
    · simp [hx, Function.update_of_ne (Ne.symm hx)]

theorem mul_list_sum {E : Type*} (M : Mt a b K) (l : List E) (f : E → Mt b c K) :
    M * (l.map f).sum = (l.map fun e => M * f e).sum := by
  induction l with
  | nil => simp
  | cons e l ih => simp [Matrix.mul_add, ih]

/-- the contributions to column `j` sum up to the dense matrix product -/
theorem contribs_sum (A : CSR (Mt a b K)) (B : CSR (Mt b c K)) (i j : ℕ) (hA : ∀ e ∈ A.row i, e.1 < A.width) :
    (((contribs A B i).filter (fun e => e.1 = j)).map Prod.snd).sum = ∑ k ∈ range A.width, A.entry i k * B.entry k j := by
  have h := entry_sum (fun k => (AddMonoidHom.mk' (fun M : Mt a b K => M * B.entry k j) fun M N => Matrix.add_mul M N _))
    A i hA
  simp only [AddMonoidHom.mk'_apply] at h
  rw [h]
  unfold contribs
  induction A.row i with
  | nil => simp
  | cons e l ih =>
    rw [List.flatMap_cons, List.filter_append, List.map_append, List.sum_append, ih, List.map_cons, List.sum_cons]
    congr 1
    simp only [CSR.entry, mul_list_sum]
    rw [List.filter_map, List.map_map]
    rfl

theorem numericRow_spec (nhash : ℕ) (junk : ℕ → ℕ × ℕ) (A : CSR (Mt a b K)) (B : CSR (Mt b c K)) (i : ℕ)
    (hA : ∀ e ∈ A.row i, e.1 < A.width) (cols : List ℕ) (hn : cols.Nodup)
    (hc : ∀ e ∈ A.row i, ∀ f ∈ B.row e.1, f.1 ∈ cols) :
    numericRow nhash junk A B i cols = some (cols.map fun j => ∑ k ∈ range A.width, A.entry i k * B.entry k j) := by
  unfold numericRow
  rw [show (cols.map fun _ => (0 : Mt a c K)) = cols.map (fun _ => 0) from rfl, addContrib_fold nhash cols hn junk]
  · congr 2
    funext j
    rw [contribs_sum A B i j hA, zero_add]
  · intro e he
    simp only [contribs, List.mem_flatMap, List.mem_map] at he
    obtain ⟨ea, hea, eb, heb, rfl⟩ := he
    exact hc ea hea eb heb

theorem zip_map_self {E : Type*} (l : List ℕ) (F : ℕ → E) : l.zip (l.map F) = l.map fun x => (x, F x) := by
  induction l with
  | nil => rfl
  | cons x l ih => simp [ih]

theorem collect_spec {E : Type*} (n : ℕ) (f : ℕ → Option (List E)) (g : ℕ → List E) (h : ∀ i < n, f i = some (g i))
    (hg : ∀ i, n ≤ i → g i = []) : collect n f = some g := by
  unfold collect
  rw [if_pos]
  · congr 1
    funext i
    by_cases hi : i < n
    · simp [hi, h i hi]
    · simp [hi, hg i (Nat.not_lt.1 hi)]
  · rw [List.all_eq_true]
    intro i hi
    simp [h i (List.mem_range.1 hi)]

/-- entries of a row that stores the value `F j` for each of its columns `j` -/
theorem entry_tabulated {E : Type*} [AddCommMonoid E] (A : CSR E) (i : ℕ) (cols : List ℕ) (F : ℕ → E)
    (hr : A.row i = cols.map fun x => (x, F x)) (hs : cols.Pairwise (· < ·)) (h0 : ∀ j, j ∉ cols → F j = 0) (j : ℕ) :
    A.entry i j = F j := by
  by_cases hj : j ∈ cols
  · apply entry_of_mem
    · rw [hr, List.map_map]; simpa [Function.comp_def] using hs
    · rw [hr]; exact List.mem_map.2 ⟨j, hj, rfl⟩
  · rw [h0 j hj]
    apply entry_of_not_mem
    intro v hv
    rw [hr, List.mem_map] at hv
    obtain ⟨x, hx, he⟩ := hv
    simp only [Prod.mk.injEq] at he
    exact hj (he.1 ▸ hx)

/-- dense product entry vanishes where no stored entries meet -/
theorem dense_zero (A : CSR (Mt a b K)) (B : CSR (Mt b c K)) (i j : ℕ) (hA : ∀ e ∈ A.row i, e.1 < A.width)
    (h : ∀ e ∈ A.row i, ∀ f ∈ B.row e.1, f.1 ≠ j) : ∑ k ∈ range A.width, A.entry i k * B.entry k j = 0 := by
  rw [← contribs_sum A B i j hA]
  have : (contribs A B i).filter (fun e => decide (e.1 = j)) = [] := by
    rw [List.filter_eq_nil_iff]
    intro e he
    simp only [contribs, List.mem_flatMap, List.mem_map] at he
    obtain ⟨ea, hea, eb, heb, rfl⟩ := he
    simpa using h ea hea eb heb
  simp [this]

/-- **C11.** The sparse product of conforming well-formed matrices with less than `2^30` columns succeeds for every content
of the scratch memory and every hash table size, is well-formed, and represents exactly the matrix product. An entry is
stored iff some stored entries of `A` and `B` meet. -/
theorem matMultAB_correct (nhash : ℕ → ℕ) (junk mjunk : ℕ → ℕ → ℕ × ℕ) (A : CSR (Mt a b K)) (B : CSR (Mt b c K))
    (hA : A.WF) (hB : B.WF) (hd : A.width = B.height) (hw : B.width ≤ 2 ^ 30) :
    ∃ C, matMultAB nhash junk mjunk A B = some C ∧ C.WF ∧ C.height = A.height ∧ C.width = B.width ∧
      (∀ i j, C.entry i j = ∑ k ∈ range A.width, A.entry i k * B.entry k j) ∧
      ∀ i j, (∃ v, (j, v) ∈ C.row i) ↔ ∃ k u w, (k, u) ∈ A.row i ∧ (j, w) ∈ B.row k := by
  have hcols : ∀ i, ∃ cols, prodCols (mjunk i) A B i = some cols ∧ cols.Pairwise (· < ·) ∧
      ∀ j, j ∈ cols ↔ ∃ e ∈ A.row i, ∃ f ∈ B.row e.1, f.1 = j := by
    intro i
    obtain ⟨cols, h1, h2, h3⟩ := MergeArrays.run_correct (mjunk i) ((A.row i).map fun e => (B.row e.1).map Prod.fst)
      (by
        intro r hr
        obtain ⟨e, _, rfl⟩ := List.mem_map.1 hr
        exact hB.sorted e.1)
      (by
        intro r hr x hx
        obtain ⟨e, _, rfl⟩ := List.mem_map.1 hr
        obtain ⟨f, hf, rfl⟩ := List.mem_map.1 hx
        have := hB.inRange _ f hf
        simp only [MergeArrays.intMax]
        norm_num at hw ⊢
        omega)
    refine ⟨cols, ?_, h2, ?_⟩
    · unfold prodCols
      rw [if_pos, h1]
      intro e he
      rw [← hd]; exact hA.inRange i e he
    · intro j
      rw [h3]
      simp
  choose cols hc1 hc2 hc3 using hcols
  have hrow : ∀ i, prodRow (nhash i) (junk i) (mjunk i) A B i =
      some ((cols i).map fun j => (j, ∑ k ∈ range A.width, A.entry i k * B.entry k j)) := by
    intro i
    unfold prodRow
    rw [hc1, Option.bind_some, numericRow_spec _ _ A B i (hA.inRange i) (cols i)
      ((hc2 i).imp fun h => Nat.ne_of_lt h) (fun e he f hf => (hc3 i f.1).2 ⟨e, he, f, hf, rfl⟩),
      Option.map_some, zip_map_self]
  have hnil : ∀ i, A.height ≤ i → cols i = [] := by
    intro i hi
    rw [List.eq_nil_iff_forall_not_mem]
    intro j hj
    obtain ⟨e, he, _⟩ := (hc3 i j).1 hj
    rw [hA.outside i hi] at he; simp at he
  refine ⟨_, by
    unfold matMultAB
    rw [collect_spec A.height _ _ (fun i _ => hrow i) (fun i hi => by simp [hnil i hi]), Option.map_some], ?_, rfl, rfl,
    ?_, ?_⟩
  · refine ⟨?_, ?_, ?_⟩
    · intro i; simp only [List.map_map]; simpa [Function.comp_def] using hc2 i
    · intro i e he
      simp only [List.mem_map] at he
      obtain ⟨j, hj, rfl⟩ := he
      obtain ⟨e, _, f, hf, rfl⟩ := (hc3 i j).1 hj
      exact hB.inRange _ f hf
    · intro i hi; simp [hnil i hi]
  · intro i j
    refine entry_tabulated _ i (cols i) (fun j => ∑ k ∈ range A.width, A.entry i k * B.entry k j) rfl (hc2 i) ?_ j
    intro j hj
    exact dense_zero A B i j (hA.inRange i) fun e he f hf h => hj ((hc3 i j).2 ⟨e, he, f, hf, h⟩)
  · intro i j
    constructor
    · rintro ⟨v, hv⟩
      simp only [List.mem_map] at hv
      obtain ⟨x, hx, he⟩ := hv
      simp only [Prod.mk.injEq] at he
      obtain ⟨e, he', f, hf, hfj⟩ := (hc3 i x).1 hx
      obtain ⟨k, u⟩ := e
      obtain ⟨j', w⟩ := f
      simp only at hfj hf
      exact ⟨k, u, w, he', by rw [← he.1, ← hfj]; exact hf⟩
    · rintro ⟨k, u, w, h1, h2⟩
      exact ⟨_, List.mem_map.2 ⟨j, (hc3 i j).2 ⟨(k, u), h1, (j, w), h2, rfl⟩, rfl⟩⟩

/-- **C11**, memory safety of the hash table: the bucket index is within the table -/
theorem bucket_in_range (x nhash : ℕ) (h : 0 < nhash) : x &&& (nhash - 1) < nhash :=
  Nat.lt_of_le_of_lt Nat.and_le_right (by omega)

/-- **C12.** Recomputing the values of a product whose graph contains the graph of `A * B`: the result has the same graph and
represents the product, independently of the old values and of the scratch memory. -/
theorem matMultABUpdate_correct (nhash : ℕ → ℕ) (junk : ℕ → ℕ → ℕ × ℕ) (A : CSR (Mt a b K)) (B : CSR (Mt b c K))
    (C : CSR (Mt a c K)) (hA : A.WF) (hC : C.WF) (hh : C.height = A.height)
    (hg : ∀ i k u j w, (k, u) ∈ A.row i → (j, w) ∈ B.row k → ∃ v, (j, v) ∈ C.row i) :
    ∃ D, matMultABUpdate nhash junk A B C = some D ∧ D.height = C.height ∧ D.width = C.width ∧
      (∀ i, (D.row i).map Prod.fst = (C.row i).map Prod.fst) ∧
      ∀ i j, D.entry i j = ∑ k ∈ range A.width, A.entry i k * B.entry k j := by
  have hcol : ∀ i, ∀ e ∈ A.row i, ∀ f ∈ B.row e.1, f.1 ∈ (C.row i).map Prod.fst := by
    intro i e he f hf
    obtain ⟨v, hv⟩ := hg i e.1 e.2 f.1 f.2 he hf
    exact List.mem_map.2 ⟨_, hv, rfl⟩
  have hrow : ∀ i, ((numericRow (nhash i) (junk i) A B i ((C.row i).map Prod.fst)).map fun vals =>
      ((C.row i).map Prod.fst).zip vals) =
      some (((C.row i).map Prod.fst).map fun j => (j, ∑ k ∈ range A.width, A.entry i k * B.entry k j)) := by
    intro i
    rw [numericRow_spec _ _ A B i (hA.inRange i) _ ((hC.sorted i).imp fun h => Nat.ne_of_lt h) (hcol i),
      Option.map_some, zip_map_self]
  refine ⟨{ height := C.height, width := C.width, row := fun i => ((C.row i).map Prod.fst).map fun j =>
    (j, ∑ k ∈ range A.width, A.entry i k * B.entry k j) }, by
    unfold matMultABUpdate
    rw [collect_spec A.height _ _ (fun i _ => hrow i) (fun i hi => by simp [hC.outside i (hh ▸ hi)]), Option.map_some],
    rfl, rfl, ?_, ?_⟩
  · intro i; simp only [List.map_map]; rfl
  · intro i j
    refine entry_tabulated _ i ((C.row i).map Prod.fst) (fun j => ∑ k ∈ range A.width, A.entry i k * B.entry k j) rfl
      (hC.sorted i) ?_ j
    intro j hj
    exact dense_zero A B i j (hA.inRange i) fun e he f hf h => hj (h ▸ hcol i e he f hf)


/-- **C12**, necessity of the condition on the graph: if a needed column is missing, the code does not notice. The hash table
still holds the entry of a previously processed row; the contribution is added to an unrelated entry of the row. Here `A` is
`2 x 1`, `B` is `1 x 4`; row 1 of the product has to be `(0, 0, 0, 7)`, the graph of row 1 of `C` has column 2 only, the
scratch memory holds what row 0 (with column 3) left there. -/
theorem matMultABUpdate_missing :
    let one : Mt 1 1 ℤ := !![1]
    let B : CSR (Mt 1 1 ℤ) := ⟨1, 4, fun k => if k = 0 then [(3, !![7])] else []⟩
    let A : CSR (Mt 1 1 ℤ) := ⟨2, 1, fun i => if i < 2 then [(0, one)] else []⟩
    let C : CSR (Mt 1 1 ℤ) := ⟨2, 4, fun i => if i = 0 then [(3, one)] else if i = 1 then [(2, one)] else []⟩
    let junk : ℕ → ℕ → ℕ × ℕ := fun i => if i = 1 then fillHash 2048 ((C.row 0).map Prod.fst) (fun _ => (0, 0)) else fun _ => (0, 0)
    ∃ D, matMultABUpdate (fun _ => 2048) junk A B C = some D ∧ D.entry 1 2 = !![7] ∧
      ∑ k ∈ range A.width, A.entry 1 k * B.entry k 2 = 0 := by
  intro one B A C junk
  have h : (matMultABUpdate (fun _ => 2048) junk A B C).map (fun D => D.entry 1 2) = some !![7] := by decide +kernel
  obtain ⟨D, hD, hD'⟩ := Option.map_eq_some_iff.1 h
  exact ⟨D, hD, hD', by decide +kernel⟩

/-! ### C13: Galerkin projection -/

/-- dense `x^T A y` of block vectors -/
def bilin (n : ℕ) (A : ℕ → ℕ → Mt a a K) (x y : ℕ → Fin a → K) : K :=
  ∑ i ∈ range n, ∑ j ∈ range n, x i ⬝ᵥ (A i j *ᵥ y j)

/-- dense `P y` -/
def mulP (m : ℕ) (P : ℕ → ℕ → Mt a b K) (y : ℕ → Fin b → K) : ℕ → Fin a → K :=
  fun i => ∑ j ∈ range m, P i j *ᵥ y j

theorem sum_mulVec' {ι : Type*} (s : Finset ι) (f : ι → Mt a b K) (v : Fin b → K) :
    (∑ i ∈ s, f i) *ᵥ v = ∑ i ∈ s, f i *ᵥ v := by
  classical
  induction s using Finset.induction_on with
  | empty => simp
  | insert i s hi ih => simp [sum_insert hi, Matrix.add_mulVec, ih]

theorem mulVec_sum' {ι : Type*} (s : Finset ι) (M : Mt a b K) (f : ι → Fin b → K) :
    M *ᵥ (∑ i ∈ s, f i) = ∑ i ∈ s, M *ᵥ f i := by
  classical
  induction s using Finset.induction_on with
  | empty => simp
  | insert i s hi ih => simp [sum_insert hi, Matrix.mulVec_add, ih]

/-- **C13.** The restricted matrix, computed as the code does (transpose `P`, two sparse products), exists, is well-formed
and represents `P^T A P`. -/
theorem restrictMatrix_correct (nhash : ℕ → ℕ) (junk mjunk : ℕ → ℕ → ℕ × ℕ) (A : CSR (Mt a a K)) (P : CSR (Mt a b K))
    (hA : A.WF) (hP : P.WF) (h1 : A.height = P.height) (h2 : A.width = P.height) (hw : A.width ≤ 2 ^ 30)
    (hw' : P.width ≤ 2 ^ 30) :
    ∃ C, ((transpose P).bind fun PT => restrictMatrix nhash junk mjunk PT A P) = some C ∧ C.WF ∧
      C.height = P.width ∧ C.width = P.width ∧
      ∀ i j, C.entry i j = ∑ l ∈ range P.height, ∑ k ∈ range P.height, (P.entry k i)ᵀ * A.entry k l * P.entry l j := by
  obtain ⟨T, hT, hTwf, hTh, hTw, hTe⟩ := transpose_correct P hP
  obtain ⟨Q, hQ, hQwf, hQh, hQw, hQe, _⟩ := matMultAB_correct nhash junk mjunk T A hTwf hA (by omega) hw
  obtain ⟨C, hC, hCwf, hCh, hCw, hCe, _⟩ := matMultAB_correct nhash junk mjunk Q P hQwf hP (by omega) hw'
  refine ⟨C, ?_, hCwf, by omega, by omega, ?_⟩
  · simp only [hT, Option.bind_some, restrictMatrix, hQ, hC]
  · intro i j
    rw [hCe, hQw, h2]
    refine sum_congr rfl fun l _ => ?_
    rw [hQe, hTw, Matrix.sum_mul]
    exact sum_congr rfl fun k _ => by rw [hTe]

/-- **C13.** In terms of bilinear forms: `x^T (P^T A P) y = (P x)^T A (P y)`. -/
theorem restrictMatrix_bilin (nhash : ℕ → ℕ) (junk mjunk : ℕ → ℕ → ℕ × ℕ) (A : CSR (Mt a a K)) (P : CSR (Mt a b K))
    (hA : A.WF) (hP : P.WF) (h1 : A.height = P.height) (h2 : A.width = P.height) (hw : A.width ≤ 2 ^ 30)
    (hw' : P.width ≤ 2 ^ 30) (C : CSR (Mt b b K))
    (hC : ((transpose P).bind fun PT => restrictMatrix nhash junk mjunk PT A P) = some C) (x y : ℕ → Fin b → K) :
    bilin C.width C.entry x y = bilin A.width A.entry (mulP P.width P.entry x) (mulP P.width P.entry y) := by
  obtain ⟨C', hC', _, _, hCw, hCe⟩ := restrictMatrix_correct nhash junk mjunk A P hA hP h1 h2 hw hw'
  rw [hC] at hC'
  obtain rfl := Option.some.inj hC'
  simp only [bilin, mulP, hCw, h2, hCe, sum_mulVec', dotProduct_sum, mulVec_sum', sum_dotProduct]
  have key : ∀ i j l k, x i ⬝ᵥ (((P.entry k i)ᵀ * A.entry k l * P.entry l j) *ᵥ y j) =
      (P.entry k i *ᵥ x i) ⬝ᵥ (A.entry k l *ᵥ (P.entry l j *ᵥ y j)) := by
    intro i j l k
    rw [← Matrix.mulVec_mulVec, ← Matrix.mulVec_mulVec, Matrix.mulVec_transpose, dotProduct_comm, ← Matrix.dotProduct_mulVec,
      dotProduct_comm]
  simp only [key]
  calc ∑ i ∈ range P.width, ∑ j ∈ range P.width, ∑ l ∈ range P.height, ∑ k ∈ range P.height,
        (P.entry k i *ᵥ x i) ⬝ᵥ (A.entry k l *ᵥ (P.entry l j *ᵥ y j))
      = ∑ i ∈ range P.width, ∑ j ∈ range P.width, ∑ k ∈ range P.height, ∑ l ∈ range P.height,
        (P.entry k i *ᵥ x i) ⬝ᵥ (A.entry k l *ᵥ (P.entry l j *ᵥ y j)) :=
        sum_congr rfl fun i _ => sum_congr rfl fun j _ => sum_comm
    _ = ∑ i ∈ range P.width, ∑ k ∈ range P.height, ∑ j ∈ range P.width, ∑ l ∈ range P.height,
        (P.entry k i *ᵥ x i) ⬝ᵥ (A.entry k l *ᵥ (P.entry l j *ᵥ y j)) :=
        sum_congr rfl fun i _ => sum_comm
    _ = ∑ k ∈ range P.height, ∑ i ∈ range P.width, ∑ j ∈ range P.width, ∑ l ∈ range P.height,
        (P.entry k i *ᵥ x i) ⬝ᵥ (A.entry k l *ᵥ (P.entry l j *ᵥ y j)) := sum_comm
    _ = ∑ k ∈ range P.height, ∑ l ∈ range P.height, ∑ j ∈ range P.width, ∑ i ∈ range P.width,
        (P.entry k i *ᵥ x i) ⬝ᵥ (A.entry k l *ᵥ (P.entry l j *ᵥ y j)) := by
        refine sum_congr rfl fun k _ => ?_
        rw [sum_comm' (s := range P.width) (t := fun _ => range P.width) (t' := range P.width)
          (s' := fun _ => range P.width) (by simp)]
        rw [show (∑ j ∈ range P.width, ∑ i ∈ range P.width, ∑ l ∈ range P.height,
            (P.entry k i *ᵥ x i) ⬝ᵥ (A.entry k l *ᵥ (P.entry l j *ᵥ y j))) = ∑ j ∈ range P.width, ∑ l ∈ range P.height,
            ∑ i ∈ range P.width, (P.entry k i *ᵥ x i) ⬝ᵥ (A.entry k l *ᵥ (P.entry l j *ᵥ y j)) from
          sum_congr rfl fun j _ => sum_comm]
        exact sum_comm

/-- **C13.** The Galerkin projection of a symmetric matrix is symmetric. -/
theorem restrictMatrix_symm (nhash : ℕ → ℕ) (junk mjunk : ℕ → ℕ → ℕ × ℕ) (A : CSR (Mt a a K)) (P : CSR (Mt a b K))
    (hA : A.WF) (hP : P.WF) (h1 : A.height = P.height) (h2 : A.width = P.height) (hw : A.width ≤ 2 ^ 30)
    (hw' : P.width ≤ 2 ^ 30) (C : CSR (Mt b b K))
    (hC : ((transpose P).bind fun PT => restrictMatrix nhash junk mjunk PT A P) = some C)
    (hs : ∀ i j, A.entry i j = (A.entry j i)ᵀ) (i j : ℕ) : C.entry i j = (C.entry j i)ᵀ := by
  obtain ⟨C', hC', _, _, _, hCe⟩ := restrictMatrix_correct nhash junk mjunk A P hA hP h1 h2 hw hw'
  rw [hC] at hC'
  obtain rfl := Option.some.inj hC'
  rw [hCe, hCe, Matrix.transpose_sum, sum_comm]
  refine sum_congr rfl fun k _ => ?_
  rw [Matrix.transpose_sum]
  refine sum_congr rfl fun l _ => ?_
  rw [Matrix.transpose_mul, Matrix.transpose_mul, Matrix.transpose_transpose, ← hs k l, Matrix.mul_assoc]

/-- **C13.** The Galerkin projection of a positive semi-definite matrix is positive semi-definite. -/
theorem restrictMatrix_psd (nhash : ℕ → ℕ) (junk mjunk : ℕ → ℕ → ℕ × ℕ) (A : CSR (Mt a a ℝ)) (P : CSR (Mt a b ℝ))
    (hA : A.WF) (hP : P.WF) (h1 : A.height = P.height) (h2 : A.width = P.height) (hw : A.width ≤ 2 ^ 30)
    (hw' : P.width ≤ 2 ^ 30) (C : CSR (Mt b b ℝ))
    (hC : ((transpose P).bind fun PT => restrictMatrix nhash junk mjunk PT A P) = some C)
    (hs : ∀ x, 0 ≤ bilin A.width A.entry x x) (x : ℕ → Fin b → ℝ) : 0 ≤ bilin C.width C.entry x x := by
  rw [restrictMatrix_bilin nhash junk mjunk A P hA hP h1 h2 hw hw' C hC]
  exact hs _

/-! ### the hypotheses are met -/

/-- a `3 x 2` matrix with `1 x 2` blocks -/
def exP : CSR (Mt 1 2 ℤ) :=
  ⟨3, 2, fun i => if i = 0 then [(0, !![1, 0]), (1, !![2, 3])] else if i = 1 then [] else if i = 2 then [(1, !![4, -5])] else []⟩

/-- a symmetric `3 x 3` matrix with a full row -/
def exA : CSR (Mt 1 1 ℤ) :=
  ⟨3, 3, fun i => if i = 0 then [(0, !![2]), (2, !![-1])] else if i = 1 then [(1, !![3])] else if i = 2 then
    [(0, !![-1]), (2, !![2])] else []⟩

theorem exP_wf : exP.WF := by
  refine ⟨fun i => ?_, fun i e he => ?_, fun i hi => ?_⟩
  · simp only [exP]; split_ifs <;> simp
  · simp only [exP] at he ⊢; split_ifs at he <;> simp at he <;> rcases he with h | h <;> simp_all
  · simp only [exP] at hi ⊢; split_ifs <;> first | omega | rfl

theorem exA_wf : exA.WF := by
  refine ⟨fun i => ?_, fun i e he => ?_, fun i hi => ?_⟩
  · simp only [exA]; split_ifs <;> simp
  · simp only [exA] at he ⊢; split_ifs at he <;> simp at he <;> rcases he with h | h <;> simp_all
  · simp only [exA] at hi ⊢; split_ifs <;> first | omega | rfl

example : ∃ T, transpose exP = some T ∧ T.WF ∧ T.entry 1 2 = !![4; -5] := by
  obtain ⟨T, h1, h2, _, _, h5⟩ := transpose_correct exP exP_wf
  exact ⟨T, h1, h2, by rw [h5]; decide +kernel⟩

example (junk mjunk : ℕ → ℕ → ℕ × ℕ) :
    ∃ C, ((transpose exP).bind fun PT => restrictMatrix (fun _ => 2048) junk mjunk PT exA exP) = some C ∧ C.WF ∧
      C.entry 0 1 = !![0, 11; 0, 0] := by
  obtain ⟨C, h1, h2, _, _, h5⟩ := restrictMatrix_correct (fun _ => 2048) junk mjunk exA exP exA_wf exP_wf rfl rfl
    (by decide) (by decide)
  exact ⟨C, h1, h2, by rw [h5]; decide +kernel⟩

/-- the previous values of `C` are arbitrary, its graph is a superset -/
example (junk : ℕ → ℕ → ℕ × ℕ) (v : ℕ → Mt 1 2 ℤ) :
    ∃ D, matMultABUpdate (fun _ => 2048) junk exA exP
        ⟨3, 2, fun i => if i < 3 then [(0, v 0), (1, v 1)] else []⟩ = some D ∧ D.entry 0 1 = !![0, 11] := by
  obtain ⟨D, h1, _, _, _, h5⟩ := matMultABUpdate_correct (fun _ => 2048) junk exA exP
    ⟨3, 2, fun i => if i < 3 then [(0, v 0), (1, v 1)] else []⟩ exA_wf
    ⟨fun i => by simp only; split_ifs <;> simp, fun i e he => by
      simp only at he ⊢; split_ifs at he <;> simp at he; rcases he with h | h <;> simp_all, fun i hi => by
      simp only at hi ⊢; simp; omega⟩ rfl (by
      intro i k u j w h1 h2
      have hi : i < 3 := by
        by_contra hi
        rw [exA_wf.outside i (by simpa [exA] using hi)] at h1; simp at h1
      have := exP_wf.inRange k _ h2
      simp only [exP] at this
      simp only [hi, if_true]
      interval_cases j
      · exact ⟨v 0, by simp⟩
      · exact ⟨v 1, by simp⟩)
  exact ⟨D, h1, by rw [h5]; decide +kernel⟩

end NgsAMG.SparseMM
