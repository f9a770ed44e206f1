import Verif.Props.DynBlock
import Verif.Props.Traversal
import Verif.Model.DynSmoother

/-! Row-blocks of a converted matrix, seen from outside: they are the classes of rows with the same columns, in the order of `lexiLess`. -/

namespace NgsAMG.DynBlock

/-- row-block `blk` of `D` holds rows of `A` with identical columns -/
structure BlockOK {E : Type*} (A : CSR E) (D : Dyn E) (blk : RowBlock E) : Prop where
  sorted : (D.rowB.scalNums blk.rows).Pairwise (· < ·)
  ne : D.rowB.scalNums blk.rows ≠ []
  lt : ∀ r ∈ D.rowB.scalNums blk.rows, r < A.height
  same : ∀ r ∈ D.rowB.scalNums blk.rows, cols A r = D.colB.scalNums blk.cols
  data : blk.data = (D.rowB.scalNums blk.rows).flatMap fun r => (A.row r).map Prod.snd
  mr : (D.rowB.scalNums blk.rows).length ≤ D.maxRows
  mc : (D.colB.scalNums blk.cols).length ≤ D.maxCols

theorem lexEq_total (a b : List ℕ) (hl : a.length = b.length) (h1 : lexEq a b = false) (h2 : lexEq b a = false) : a = b := by
  induction a generalizing b with
  | nil => cases b with
    | nil => rfl
    | cons y b => simp at hl
  | cons x a ih =>
    cases b with
    | nil => simp at hl
    | cons y b =>
      rw [lexEq] at h1 h2
      have hxy : ¬ x < y := by intro h; simp [h] at h1
      have hyx : ¬ y < x := by intro h; simp [h] at h2
      have : x = y := by omega
      subst this
      simp only [lt_irrefl, if_false] at h1 h2
      rw [ih b (by simpa using hl) h1 h2]

theorem lexiLess_total {a b : List ℕ} (h1 : lexiLess a b = false) (h2 : lexiLess b a = false) : a = b := by
  rw [lexiLess] at h1 h2
  by_cases hl : a.length = b.length
  · rw [if_pos hl] at h1
    rw [if_pos hl.symm] at h2
    exact lexEq_total a b hl h1 h2
  · rw [if_neg hl] at h1
    rw [if_neg (Ne.symm hl)] at h2
    simp at h1 h2
    omega

theorem lexiLess_irrefl (a : List ℕ) : lexiLess a a = false := by
  by_contra h
  have h : lexiLess a a = true := by simpa using h
  have := lexiLess_order.1 a a h
  rw [h] at this
  cases this

theorem chunkGo_pairwise (key : ℕ → List ℕ) (cur : List ℕ) (last : ℕ) (l : List ℕ) (hcur : ∀ b ∈ cur, key b = key last)
    (hs : (last :: l).Pairwise fun a b => lexiLess (key b) (key a) = false) :
    (chunkGo key cur last l).Pairwise fun r s => ∀ a ∈ r, ∀ b ∈ s, lexiLess (key a) (key b) = true := by
  induction l generalizing cur last with
  | nil => simp [chunkGo]
  | cons k ks ih =>
    have hs' := List.pairwise_cons.1 hs
    rw [chunkGo]
    split
    · rename_i hne
      rw [List.pairwise_cons]
      refine ⟨?_, ih [k] k (by simp) hs'.2⟩
      intro s hsm a ha b hb
      rw [hcur a ha]
      have hbm : b ∈ k :: ks := by
        have := chunkGo_flatten key [k] k ks
        rw [List.singleton_append] at this
        rw [← this]
        exact List.mem_flatten.2 ⟨s, hsm, hb⟩
      have hlk : lexiLess (key last) (key k) = true := by
        by_contra h
        exact hne (lexiLess_total (by simpa using h) (hs'.1 k List.mem_cons_self))
      have hbk : lexiLess (key b) (key k) = false := by
        rcases List.mem_cons.1 hbm with rfl | hb'
        · exact lexiLess_irrefl _
        · exact (List.pairwise_cons.1 hs'.2).1 b hb'
      by_contra h
      have h : lexiLess (key last) (key b) = false := by simpa using h
      have := lexiLess_order.2 (key k) (key b) (key last) hbk h
      rw [hlk] at this
      cases this
    · rename_i he
      have he : key last = key k := by simpa using he
      refine ih _ k ?_ hs'.2
      intro b hb
      rcases List.mem_append.1 hb with hb | hb
      · rw [hcur b hb, he]
      · rw [List.mem_singleton.1 hb]

theorem chunks_pairwise (key : ℕ → List ℕ) (l : List ℕ) (hs : l.Pairwise fun a b => lexiLess (key b) (key a) = false) :
    (chunks key l).Pairwise fun r s => ∀ a ∈ r, ∀ b ∈ s, lexiLess (key a) (key b) = true := by
  cases l with
  | nil => simp [chunks]
  | cons k ks => exact chunkGo_pairwise key [k] k ks (by simp) hs

/-- one row-block made by `Finalize` -/
theorem makeBlock_ok {E : Type*} (A : CSR E) (hA : A.WF) (rb cb : Blocking) (hc : Consistent A rb cb) (D : Dyn E) (hrb : D.rowB = rb)
    (hcb : D.colB = cb) (rs : List ℕ) (hrs : rs ≠ []) (hnd : rs.Nodup) (hlt : ∀ b ∈ rs, b < rb.size)
    (hkey : ∀ b ∈ rs, ∀ c ∈ rs, cols A (rb.off b) = cols A (rb.off c))
    (hmr : (rb.scalNums (rs.insertionSort (· ≤ ·))).length ≤ D.maxRows) (hmc : nScalCols A rb rs ≤ D.maxCols) :
    BlockOK A D (makeBlock A rb (scal2Block cb) rs) ∧ (∀ i, i ∈ rb.scalNums (makeBlock A rb (scal2Block cb) rs).rows ↔ i ∈ rb.scalNums rs) ∧
      ∀ b ∈ rs, cb.scalNums (makeBlock A rb (scal2Block cb) rs).cols = cols A (rb.off b) := by
  set sorted := rs.insertionSort (· ≤ ·) with hsorted
  have hmem : ∀ b, b ∈ sorted ↔ b ∈ rs := by intro b; simp [hsorted]
  have hne : sorted ≠ [] := by
    intro h0
    obtain ⟨b, hb⟩ := List.exists_mem_of_ne_nil rs hrs
    rw [← hmem, h0] at hb
    simp at hb
  obtain ⟨r0, rest, hr0⟩ := List.exists_cons_of_ne_nil hne
  have hr0m : r0 ∈ rs := by rw [← hmem, hr0]; simp
  have hhead : sorted.headD 0 = r0 := by rw [hr0]; rfl
  have hnds : sorted.Nodup := (List.perm_insertionSort (· ≤ ·) rs).nodup_iff.2 hnd
  have hsl : sorted.Pairwise (· < ·) := by
    have h1 : sorted.Pairwise (· ≤ ·) := List.pairwise_insertionSort (· ≤ ·) rs
    exact (h1.and hnds).imp fun h => lt_of_le_of_ne h.1 h.2
  have hrow : ∀ r ∈ rb.scalNums sorted, cols A r = cols A (rb.off r0) := by
    intro r hr
    obtain ⟨b, hb, hrb'⟩ := (rb.mem_scalNums _ _).1 hr
    have hbm := (hmem b).1 hb
    rw [hc.rows r (rb.off b) ⟨b, hlt b hbm, hrb', hc.rowsValid.off_mem (hlt b hbm)⟩]
    exact hkey b hbm r0 hr0m
  have hexp : cb.scalNums (blockCols (scal2Block cb) (cols A (rb.off r0))) = cols A (rb.off r0) := by
    apply expand_blockCols hc.colsValid _ (hA.sorted _)
    · intro j hj
      obtain ⟨e, he, rfl⟩ := List.mem_map.1 hj
      rw [hc.width]
      exact hA.inRange _ e he
    · exact fun j j' hs hj => hc.cols _ j j' hs hj
  have hmk : (makeBlock A rb (scal2Block cb) rs).cols = blockCols (scal2Block cb) (cols A (rb.off r0)) := by
    simp only [makeBlock, ← hsorted, hhead]
  refine ⟨⟨?_, ?_, ?_, ?_, ?_, ?_, ?_⟩, ?_, ?_⟩
  · rw [hrb]
    exact hc.rowsValid.scalNums_sorted _ hsl fun b hb => hlt b ((hmem b).1 hb)
  · rw [hrb]
    refine List.ne_nil_of_mem ((rb.mem_scalNums _ _).2 ⟨r0, (hmem r0).2 hr0m, hc.rowsValid.off_mem (hlt r0 hr0m)⟩)
  · rw [hrb]
    intro r hr
    obtain ⟨b, hb, hb'⟩ := (rb.mem_scalNums _ _).1 hr
    rw [← hc.height]
    exact hc.rowsValid.scals_lt (hlt b ((hmem b).1 hb)) hb'
  · rw [hrb, hcb, hmk, hexp]
    exact hrow
  · rw [hrb]
    rfl
  · rw [hrb]
    exact hmr
  · rw [hcb, hmk, hexp]
    simpa only [nScalCols, ← hsorted, hhead] using hmc
  · intro i
    show i ∈ rb.scalNums sorted ↔ _
    simp only [Blocking.mem_scalNums, hmem]
  · intro b hb
    rw [hmk, hexp]
    exact hkey r0 hr0m b hb

/-- the row-blocks of a converted matrix are the classes of rows with the same columns, in the order of `lexiLess` -/
theorem finalize_blocks {K : Type*} [CommRing K] (A : CSR K) (hA : A.WF) (rb cb : Blocking) (hc : Consistent A rb cb) (order : List ℕ) (ho : SortedBy A rb order) :
    ∃ D, finalize A rb cb order = some D ∧ (∀ blk ∈ D.blocks, BlockOK A D blk) ∧
      (D.blocks.Pairwise fun a b => lexiLess (D.colB.scalNums a.cols) (D.colB.scalNums b.cols) = true) ∧
      (∀ i < A.height, ∃ blk ∈ D.blocks, i ∈ D.rowB.scalNums blk.rows) ∧
      ∀ (out : K → K → K) (x y : ℕ → K), multiply D out x y = some fun i => if i < A.height then out (y i) (matVec A x i) else y i := by
  obtain ⟨D, hD, hmul⟩ := multiply_correct A hA rb cb hc order ho
  refine ⟨D, hD, ?_⟩
  rw [finalize] at hD
  split at hD
  · have hD := Option.some.inj hD
    set key := fun b => cols A (rb.off b) with hkey
    have hordlt : ∀ b ∈ order, b < rb.size := fun b hb => by simpa using ho.perm.subset hb
    have hordnd : order.Nodup := ho.perm.nodup_iff.2 List.nodup_range
    have hfl := chunks_flatten key order
    have huni := chunks_uniform key order
    have hnd : ∀ rs ∈ chunks key order, rs.Nodup := by
      intro rs hrs
      have : (chunks key order).flatten.Nodup := by rw [hfl]; exact hordnd
      exact (List.nodup_flatten.1 this).1 rs hrs
    have hsub : ∀ rs ∈ chunks key order, ∀ b ∈ rs, b ∈ order := by
      intro rs hrs b hb
      rw [← hfl]
      exact List.mem_flatten.2 ⟨rs, hrs, hb⟩
    have hrb : D.rowB = rb := by rw [← hD]
    have hcb : D.colB = cb := by rw [← hD]
    have hbl : D.blocks = (chunks key order).map (makeBlock A rb (scal2Block cb)) := by rw [← hD]
    have hok : ∀ rs ∈ chunks key order, BlockOK A D (makeBlock A rb (scal2Block cb) rs) ∧
        (∀ i, i ∈ rb.scalNums (makeBlock A rb (scal2Block cb) rs).rows ↔ i ∈ rb.scalNums rs) ∧
        ∀ b ∈ rs, cb.scalNums (makeBlock A rb (scal2Block cb) rs).cols = cols A (rb.off b) := by
      intro rs hrs
      apply makeBlock_ok A hA rb cb hc D hrb hcb rs (huni rs hrs).1 (hnd rs hrs) (fun b hb => hordlt b (hsub rs hrs b hb)) (huni rs hrs).2
      · rw [← hD]
        exact (foldl_max_ge _ _).2 _ (List.mem_map.2 ⟨rs, hrs, rfl⟩)
      · rw [← hD]
        exact (foldl_max_ge _ _).2 _ (List.mem_map.2 ⟨rs, hrs, rfl⟩)
    refine ⟨?_, ?_, ?_, hmul⟩
    · intro blk hblk
      rw [hbl] at hblk
      obtain ⟨rs, hrs, rfl⟩ := List.mem_map.1 hblk
      exact (hok rs hrs).1
    · rw [hbl, List.pairwise_map, hcb]
      refine (chunks_pairwise key order ho.sorted).imp_of_mem ?_
      intro r s hr hs h
      obtain ⟨a, ha⟩ := List.exists_mem_of_ne_nil r (huni r hr).1
      obtain ⟨b, hb⟩ := List.exists_mem_of_ne_nil s (huni s hs).1
      rw [(hok r hr).2.2 a ha, (hok s hs).2.2 b hb]
      exact h a ha b hb
    · intro i hi
      rw [← hc.height] at hi
      obtain ⟨b, hb, hib⟩ := hc.rowsValid.exists_block hi
      have : b ∈ (chunks key order).flatten := by rw [hfl]; exact ho.perm.symm.subset (by simpa using hb)
      obtain ⟨rs, hrs, hbr⟩ := List.mem_flatten.1 this
      refine ⟨makeBlock A rb (scal2Block cb) rs, ?_, ?_⟩
      · rw [hbl]
        exact List.mem_map_of_mem hrs
      · rw [hrb]
        exact ((hok rs hrs).2.1 i).2 ((rb.mem_scalNums _ _).2 ⟨b, hbr, hib⟩)
  · cases hD

end NgsAMG.DynBlock
