import Verif.Props.DynSmoother3
import Verif.Spec.RowClasses

/-! `DynBlockSmoother`: every sweep is textbook block Gauss-Seidel over the classes of rows with the same columns. -/

namespace NgsAMG.DynBlock
open Matrix NgsAMG.GS NgsAMG.Spec NgsAMG.BlkGS

/-- the unknowns a smoother may change -/
def freeB (fr : Option (ℕ → Bool)) (i : ℕ) : Bool := (fr.map fun f => f i).getD true

theorem lexEq_lt (a b : List ℕ) (h : lexEq a b = true) : a < b := by
  induction a generalizing b with
  | nil => simp [lexEq] at h
  | cons x a ih =>
    cases b with
    | nil => simp [lexEq] at h
    | cons y b =>
      rw [lexEq] at h
      rw [List.cons_lt_cons_iff]
      by_cases hxy : x < y
      · exact .inl hxy
      · rw [if_neg hxy] at h
        by_cases hyx : y < x
        · rw [if_pos hyx] at h; cases h
        · rw [if_neg hyx] at h
          exact .inr ⟨by omega, ih b h⟩

theorem lexiLess_rowLess {a b : List ℕ} (h : lexiLess a b = true) : rowLess a b := by
  rw [lexiLess] at h
  by_cases hl : a.length = b.length
  · rw [if_pos hl] at h
    exact .inr ⟨hl, lexEq_lt a b h⟩
  · rw [if_neg hl] at h
    exact .inl (by simpa using h)

theorem rowLess_asymm {a b : List ℕ} (h : rowLess a b) : ¬ rowLess b a := by
  rintro (h' | ⟨h1, h2⟩)
  · rcases h with h | ⟨h, -⟩ <;> omega
  · rcases h with h | ⟨-, h⟩
    · omega
    · exact absurd h (List.lt_asymm h2)

/-- the classes and their order are determined by the matrix: the result does not depend on how an unstable sort orders equal rows -/
theorem rowClasses_unique {E : Type*} {A : CSR E} {free : ℕ → Bool} {Fs Gs : List (List ℕ)} (hF : RowClasses A free Fs) (hG : RowClasses A free Gs) : Fs = Gs := by
  have mem : ∀ {Fs Gs : List (List ℕ)}, RowClasses A free Fs → RowClasses A free Gs → ∀ F ∈ Fs, F ∈ Gs := by
    intro Fs Gs hF hG F hm
    obtain ⟨i, hi⟩ := List.exists_mem_of_ne_nil F (hF.cls F hm).1
    obtain ⟨G, hGm, hiG⟩ := (hG.cover i).2 ((hF.cover i).1 ⟨F, hm, hi⟩)
    rw [(hF.cls F hm).2 i hi, ← (hG.cls G hGm).2 i hiG]
    exact hGm
  have asym : ∀ {Fs : List (List ℕ)}, RowClasses A free Fs → Fs.Nodup := by
    intro Fs hF
    refine hF.order.imp_of_mem ?_
    rintro F G hFm hGm h rfl
    obtain ⟨i, hi⟩ := List.exists_mem_of_ne_nil F (hF.cls F hFm).1
    exact rowLess_asymm (h i hi i hi) (h i hi i hi)
  have hp : Fs.Perm Gs := (List.perm_ext_iff_of_nodup (asym hF) (asym hG)).2 fun F => ⟨mem hF hG F, mem hG hF F⟩
  refine List.Perm.eq_of_pairwise ?_ hF.order hG.order hp
  intro F G hFm hGm h1 h2
  obtain ⟨i, hi⟩ := List.exists_mem_of_ne_nil F (hF.cls F hFm).1
  obtain ⟨j, hj⟩ := List.exists_mem_of_ne_nil G (hG.cls G hGm).1
  exact absurd (h2 j hj i hi) (rowLess_asymm (h1 i hi j hj))

section
variable {A : CSR ℝ} {D : Dyn ℝ}

/-- what is known about a converted matrix -/
structure DynOK (A : CSR ℝ) (D : Dyn ℝ) : Prop where
  blocks : ∀ blk ∈ D.blocks, BlockOK A D blk
  order : D.blocks.Pairwise fun a b => lexiLess (D.scols a) (D.scols b) = true
  cover : ∀ i < A.height, ∃ blk ∈ D.blocks, i ∈ D.srows blk
  mult : ∀ (out : ℝ → ℝ → ℝ) (x y : ℕ → ℝ), multiply D out x y = some fun i => if i < A.height then out (y i) (matVec A x i) else y i

theorem DynOK.mem_rows (h : DynOK A D) {blk : RowBlock ℝ} (hb : blk ∈ D.blocks) (j : ℕ) : j ∈ D.srows blk ↔ j < A.height ∧ cols A j = D.scols blk := by
  constructor
  · exact fun hj => ⟨(h.blocks blk hb).lt j hj, (h.blocks blk hb).same j hj⟩
  · rintro ⟨hj, hc⟩
    obtain ⟨blk', hb', hj'⟩ := h.cover j hj
    have hs := (h.blocks blk' hb').same j hj'
    have hnd : (D.blocks.map D.scols).Nodup := by
      refine List.pairwise_map.2 (h.order.imp ?_)
      intro a b hab he
      rw [he, lexiLess_irrefl] at hab
      cases hab
    have : blk' = blk := List.inj_on_of_nodup_map hnd hb' hb (by rw [← hc]; exact hs.symm)
    rw [← this]
    exact hj'

theorem DynOK.mem_free (h : DynOK A D) (fr : Option (ℕ → Bool)) {blk : RowBlock ℝ} (hb : blk ∈ D.blocks) (j : ℕ) :
    j ∈ freeOf D fr blk ↔ j < A.height ∧ cols A j = D.scols blk ∧ freeB fr j = true ∧ cols A j ≠ [] := by
  rw [freeOf]
  by_cases hc : D.scols blk = []
  · rw [if_pos hc]
    constructor
    · intro h; exact absurd h List.not_mem_nil
    · rintro ⟨-, h1, -, h2⟩
      exact absurd (h1.trans hc) h2
  · rw [if_neg hc, List.mem_filter, h.mem_rows hb]
    constructor
    · rintro ⟨⟨h1, h2⟩, h3⟩
      exact ⟨h1, h2, h3, by rw [h2]; exact hc⟩
    · rintro ⟨h1, h2, h3, -⟩
      exact ⟨⟨h1, h2⟩, h3⟩

theorem DynOK.class_eq (h : DynOK A D) (fr : Option (ℕ → Bool)) {blk : RowBlock ℝ} (hb : blk ∈ D.blocks) {i : ℕ} (hi : i ∈ freeOf D fr blk) :
    freeOf D fr blk = classOf A (freeB fr) i := by
  obtain ⟨h1, h2, h3, h4⟩ := (h.mem_free fr hb i).1 hi
  have s1 : (freeOf D fr blk).Pairwise (· < ·) := by
    rw [freeOf]
    split
    · exact List.Pairwise.nil
    · exact List.Pairwise.filter _ (h.blocks blk hb).sorted
  have s2 : (classOf A (freeB fr) i).Pairwise (· < ·) := List.Pairwise.filter _ List.pairwise_lt_range
  refine List.Perm.eq_of_pairwise (fun a b _ _ h1 h2 => absurd h1 (Nat.lt_asymm h2)) s1 s2 ?_
  refine (List.perm_ext_iff_of_nodup (s1.imp fun h => ne_of_lt h) (s2.imp fun h => ne_of_lt h)).2 fun j => ?_
  rw [h.mem_free fr hb j, classOf, List.mem_filter, List.mem_range]
  have e : (freeB fr j && decide (colsOf A j = colsOf A i)) = true ↔ freeB fr j = true ∧ cols A j = cols A i := by
    rw [Bool.and_eq_true, decide_eq_true_eq]
    rfl
  rw [e, h2]
  constructor
  · rintro ⟨a, b, c, d⟩; exact ⟨a, c, b⟩
  · rintro ⟨a, c, b⟩
    exact ⟨a, b, c, by rw [b, ← h2]; exact h4⟩

/-- the classes of the converted matrix -/
def classesOf (D : Dyn ℝ) (fr : Option (ℕ → Bool)) : List (List ℕ) := (D.blocks.map (freeOf D fr)).filter fun F => !F.isEmpty

theorem DynOK.classes (h : DynOK A D) (fr : Option (ℕ → Bool)) : RowClasses A (freeB fr) (classesOf D fr) where
  cls F hF := by
    obtain ⟨hm, hne⟩ := List.mem_filter.1 hF
    obtain ⟨blk, hb, rfl⟩ := List.mem_map.1 hm
    exact ⟨by simpa using hne, fun i hi => h.class_eq fr hb hi⟩
  cover i := by
    constructor
    · rintro ⟨F, hF, hi⟩
      obtain ⟨blk, hb, rfl⟩ := List.mem_map.1 (List.mem_filter.1 hF).1
      obtain ⟨h1, -, h3, h4⟩ := (h.mem_free fr hb i).1 hi
      exact ⟨h1, h3, h4⟩
    · rintro ⟨h1, h2, h3⟩
      obtain ⟨blk, hb, hi⟩ := h.cover i h1
      have hm := (h.mem_free fr hb i).2 ⟨h1, (h.blocks blk hb).same i hi, h2, h3⟩
      refine ⟨freeOf D fr blk, List.mem_filter.2 ⟨List.mem_map_of_mem hb, ?_⟩, hm⟩
      have := List.ne_nil_of_mem hm
      simpa using this
  order := by
    refine List.Pairwise.filter _ (List.pairwise_map.2 (h.order.imp_of_mem ?_))
    intro a b ha hb hab i hi j hj
    have h1 := ((h.mem_free fr ha i).1 hi).2.1
    have h2 := ((h.mem_free fr hb j).1 hj).2.1
    show rowLess (cols A i) (cols A j)
    rw [h1, h2]
    exact lexiLess_rowLess hab

theorem finalize_ok (A : CSR ℝ) (hA : A.WF) (rb cb : Blocking) (hc : Consistent A rb cb) (order : List ℕ) (ho : SortedBy A rb order) :
    ∃ D, finalize A rb cb order = some D ∧ DynOK A D := by
  obtain ⟨D, hD, h1, h2, h3, h4⟩ := finalize_blocks A hA rb cb hc order ho
  exact ⟨D, hD, h1, h2, h3, h4⟩

/-- the diagonal blocks of the classes of non-empty rows are invertible -/
def DetOK (A : CSR ℝ) (md : Option (ℕ → ℝ)) (fr : Option (ℕ → Bool)) : Prop :=
  ∀ i < A.height, freeB fr i = true → colsOf A i ≠ [] → IsUnit (diagBlock (denseMd A md) (classOf A (freeB fr) i)).det

theorem mkDSm_ok {inv : SInv} (hinv : Inverts inv) (hA : A.WF) (hd : HasDiag A) (h : DynOK A D) (md : Option (ℕ → ℝ)) (fr : Option (ℕ → Bool)) (hdet : DetOK A md fr)
    (omega : ℝ) (dp0 : ℕ → ℕ) : ∃ S, mkDSm inv D md fr omega dp0 = some S ∧ S.A = D ∧ ObjOK A md fr omega S := by
  have hdet' : ∀ blk ∈ D.blocks, IsUnit (diagBlock (denseMd A md) (freeOf D fr blk)).det := by
    intro blk hb
    by_cases h0 : freeOf D fr blk = []
    · rw [h0]
      have : IsEmpty (Fin ([] : List ℕ).length × Fin 1) := ⟨fun p => absurd p.1.2 (by simp)⟩
      rw [Matrix.det_isEmpty]
      exact isUnit_one
    · obtain ⟨i, hi⟩ := List.exists_mem_of_ne_nil _ h0
      rw [h.class_eq fr hb hi]
      have := (h.mem_free fr hb i).1 hi
      exact hdet i this.1 this.2.2.1 this.2.2.2
  obtain ⟨l, hl, hall⟩ := setBlocks_ok hinv hA hd md fr D.blocks h.blocks hdet' dp0
  refine ⟨⟨D, omega, fr.map fun _ => l.map Prod.fst, l.map Prod.snd⟩, ?_, rfl, rfl, h.blocks, ?_, ?_⟩
  · rw [mkDSm, hl]
    rfl
  · cases fr <;> simp
  · intro k blk hk
    have hlen := hall.length_eq
    obtain ⟨hkl, hke⟩ := List.getElem?_eq_some_iff.1 hk
    have hkl' : k < l.length := by rw [← hlen]; exact hkl
    have hst := (List.forall₂_iff_get.1 hall).2 k hkl hkl'
    refine ⟨l[k].1, l[k].2, ?_, ?_, ?_⟩
    · show (l.map Prod.snd)[k]? = _
      rw [List.getElem?_map, List.getElem?_eq_getElem hkl']
      rfl
    · have hst' : StoredOK A D md fr D.blocks[k] l[k] := hst
      rw [hke] at hst'
      exact hst'
    · intro fb hfb
      cases fr with
      | none => cases hfb
      | some f =>
        have : fb = l.map Prod.fst := (Option.some.inj hfb).symm
        rw [this, List.getD_eq_getElem?_getD, List.getElem?_map, List.getElem?_eq_getElem hkl']
        rfl

end

/-! ### sweeps -/

section
variable {A : CSR ℝ} {md : Option (ℕ → ℝ)} {fr : Option (ℕ → Bool)} {omega : ℝ} {S : DSm}

/-- the free rows of row-block number `k` -/
def freeNr (S : DSm) (fr : Option (ℕ → Bool)) (k : ℕ) : List ℕ := ((S.A.blocks[k]?).map (freeOf S.A fr)).getD []

theorem freeNr_nodup (hS : ObjOK A md fr omega S) (k : ℕ) : (freeNr S fr k).Nodup := by
  rw [freeNr]
  cases hk : S.A.blocks[k]? with
  | none => exact List.nodup_nil
  | some blk => exact freeOf_nodup (hS.blocks blk (List.mem_of_getElem? hk)) fr

theorem freeNr_lt (hS : ObjOK A md fr omega S) (k : ℕ) : ∀ d ∈ freeNr S fr k, d < A.height := by
  rw [freeNr]
  cases hk : S.A.blocks[k]? with
  | none => simp
  | some blk =>
    intro d hd
    have hd : d ∈ freeOf S.A fr blk := hd
    rw [freeOf] at hd
    split at hd
    · cases hd
    · exact (hS.blocks blk (List.mem_of_getElem? hk)).lt d (List.mem_filter.1 hd).1

/-- `up1` is injective -/
theorem up1_inj {x y : ℕ → ℝ} (h : up1 x = up1 y) : x = y := funext fun i => congrFun (congrFun h i) 0

theorem foldlM_rhs (hA : A.WF) (hS : ObjOK A md fr omega S) (b : ℕ → ℝ) (ks : List ℕ) (hks : ∀ k ∈ ks, k < S.A.blocks.length ∧ (fr = none ∨ freeNr S fr k ≠ [])) (x : ℕ → ℝ) :
    ∃ x', ks.foldlM (fun s k => updRHS S b k s) x = some x' ∧ up1 x' = (ks.map fun k => dynB A md omega (freeNr S fr k)).foldl (stepRHS (lift A) (up1 b)) (up1 x) := by
  induction ks generalizing x with
  | nil => exact ⟨x, rfl, rfl⟩
  | cons k ks ih =>
    obtain ⟨hk, hact⟩ := hks k List.mem_cons_self
    have hb : S.A.blocks[k]? = some S.A.blocks[k] := List.getElem?_eq_getElem hk
    have hF : freeNr S fr k = freeOf S.A fr S.A.blocks[k] := by rw [freeNr, hb]; rfl
    rw [hF] at hact
    have h1 := updRHS_num hA hS hb hact b x
    obtain ⟨x', h2, h3⟩ := ih (fun k hk => hks k (List.mem_cons_of_mem _ hk)) (fun j => x j + corrNum A md omega (freeOf S.A fr S.A.blocks[k]) (fun i => b i - matVec A x i) j)
    refine ⟨x', ?_, ?_⟩
    · rw [List.foldlM_cons, h1]
      exact h2
    · rw [h3, List.map_cons, List.foldl_cons, stepRHS_num hA md omega (freeNr_nodup hS k) b x, hF]

theorem foldlM_res (hA : A.WF) (hS : ObjOK A md fr omega S) (ks : List ℕ) (hks : ∀ k ∈ ks, k < S.A.blocks.length ∧ freeNr S fr k ≠ []) (x r : ℕ → ℝ) :
    ∃ x' r', ks.foldlM (fun s k => updRes S k s) (x, r) = some (x', r') ∧
      (up1 x', up1 r') = (ks.map fun k => dynB A md omega (freeNr S fr k)).foldl (stepRES (lift A)) (up1 x, up1 r) := by
  induction ks generalizing x r with
  | nil => exact ⟨x, r, rfl, rfl⟩
  | cons k ks ih =>
    obtain ⟨hk, hact⟩ := hks k List.mem_cons_self
    have hb : S.A.blocks[k]? = some S.A.blocks[k] := List.getElem?_eq_getElem hk
    have hF : freeNr S fr k = freeOf S.A fr S.A.blocks[k] := by rw [freeNr, hb]; rfl
    rw [hF] at hact
    have h1 := updRes_num hA hS hb hact x r
    obtain ⟨x', r', h2, h3⟩ := ih (fun k hk => hks k (List.mem_cons_of_mem _ hk)) _ _
    refine ⟨x', r', ?_, ?_⟩
    · rw [List.foldlM_cons, h1]
      exact h2
    · rw [h3, List.map_cons, List.foldl_cons, stepRES_num md omega (freeNr_nodup hS k) x r, hF]

theorem stepRHS_nil (B : CSR (Blk 1)) (b x : BVec 1) : stepRHS B b x (dynB A md omega []) = x := by
  rw [stepRHS]
  rfl

theorem stepRES_nil (B : CSR (Blk 1)) (s : BVec 1 × BVec 1) : stepRES B s (dynB A md omega []) = s := by
  rw [stepRES]
  rfl

theorem foldl_skip {σ ι : Type*} (f : σ → ι → σ) (p : ι → Bool) (hp : ∀ i s, p i = false → f s i = s) (l : List ι) (s : σ) : l.foldl f s = (l.filter p).foldl f s := by
  induction l generalizing s with
  | nil => rfl
  | cons a l ih =>
    by_cases ha : p a = true
    · rw [List.filter_cons_of_pos ha, List.foldl_cons, List.foldl_cons, ih]
    · rw [List.filter_cons_of_neg ha, List.foldl_cons, hp a s (by simpa using ha), ih]

/-- is row-block `k` visited? -/
def visited (S : DSm) (k : ℕ) : Bool := match S.free with | none => true | some fb => fb.getD k false

theorem visited_iff (hS : ObjOK A md fr omega S) {k : ℕ} (hk : k < S.A.blocks.length) : visited S k = true ↔ fr = none ∨ freeNr S fr k ≠ [] := by
  have hb : S.A.blocks[k]? = some S.A.blocks[k] := List.getElem?_eq_getElem hk
  have hF : freeNr S fr k = freeOf S.A fr S.A.blocks[k] := by rw [freeNr, hb]; rfl
  obtain ⟨bit, B, -, hst, hbit⟩ := hS.stored k _ hb
  rw [visited]
  cases hf : S.free with
  | none => simp [hS.free.1 hf]
  | some fb =>
    have hne : fr ≠ none := fun h => by rw [hS.free.2 h] at hf; cases hf
    dsimp only
    rw [hbit fb hf, hF, hst.bit hne]
    simp [hne]

/-- the classes among the row-blocks `ids` -/
def classesIn (S : DSm) (fr : Option (ℕ → Bool)) (ids : List ℕ) : List (List ℕ) := (ids.map (freeNr S fr)).filter fun F => !F.isEmpty

theorem classesIn_reverse (S : DSm) (fr : Option (ℕ → Bool)) (ids : List ℕ) : classesIn S fr ids.reverse = (classesIn S fr ids).reverse := by
  rw [classesIn, classesIn, List.map_reverse, List.filter_reverse]

theorem fold_classes (hS : ObjOK A md fr omega S) {σ : Type*} (f : σ → BBlock 1 → σ) (hf : ∀ s, f s (dynB A md omega []) = s) (ids : List ℕ)
    (hids : ∀ k ∈ ids, k < S.A.blocks.length) (s : σ) :
    ((ids.filter (visited S)).map fun k => dynB A md omega (freeNr S fr k)).foldl f s = ((classesIn S fr ids).map (dynB A md omega)).foldl f s := by
  rw [show ((ids.filter (visited S)).map fun k => dynB A md omega (freeNr S fr k)) = ((ids.filter (visited S)).map (freeNr S fr)).map (dynB A md omega) by
    rw [List.map_map]; rfl, List.foldl_map (f := dynB A md omega), List.foldl_map (f := dynB A md omega)]
  have hskip : ∀ (F : List ℕ) (s : σ), (!F.isEmpty) = false → f s (dynB A md omega F) = s := by
    intro F s hF
    have : F = [] := by simpa using hF
    rw [this]
    exact hf s
  rw [foldl_skip (fun s F => f s (dynB A md omega F)) (fun F => !F.isEmpty) hskip, classesIn]
  congr 1
  induction ids with
  | nil => rfl
  | cons k ids ih =>
    have ih := ih fun k hk => hids k (List.mem_cons_of_mem _ hk)
    have hv := visited_iff hS (hids k List.mem_cons_self)
    by_cases h : visited S k = true
    · rw [List.filter_cons_of_pos h, List.map_cons, List.map_cons, List.filter_cons, List.filter_cons, ih]
    · rw [List.filter_cons_of_neg h, List.map_cons, ih, List.filter_cons_of_neg]
      have : freeNr S fr k = [] := by
        by_contra h0
        exact h (hv.2 (.inr h0))
      simp [this]

theorem toSpec_dynB (F : List ℕ) : (dynB A md omega F).toSpec = dynBlock A md omega F := rfl

/-- a sweep over the row-blocks `ids` -/
theorem itRHS_spec (hA : A.WF) (hS : ObjOK A md fr omega S) (ids : List ℕ) (hids : ∀ k ∈ ids, k < S.A.blocks.length) (back : Bool) (x b : ℕ → ℝ) :
    ∃ x', itBlocks S ids back (updRHS S b) x = some x' ∧
      up1 x' = blockSweep A.width (dense A) (((if back then (classesIn S fr ids).reverse else classesIn S fr ids)).map (dynBlock A md omega)) (up1 x) (up1 b) := by
  have hids' : ∀ k ∈ (if back then ids.reverse else ids), k < S.A.blocks.length := by
    intro k hk
    cases back
    · exact hids k hk
    · exact hids k (List.mem_reverse.1 hk)
  obtain ⟨x', h1, h2⟩ := foldlM_rhs hA hS b ((if back then ids.reverse else ids).filter (visited S)) (fun k hk => by
    obtain ⟨hm, hv⟩ := List.mem_filter.1 hk
    exact ⟨hids' k hm, (visited_iff hS (hids' k hm)).1 hv⟩) x
  refine ⟨x', h1, ?_⟩
  rw [h2, fold_classes hS _ (fun s => stepRHS_nil _ _ _) _ hids', foldl_spec _ (lift_wf hA), lift_entry, List.map_map]
  have : (if back then (classesIn S fr ids).reverse else classesIn S fr ids) = classesIn S fr (if back then ids.reverse else ids) := by
    cases back
    · rfl
    · exact (classesIn_reverse S fr ids).symm
  rw [this]
  rfl

/-- a sweep over the row-blocks `ids` that keeps the residual up to date -/
theorem itRes_spec (hA : A.WF) (hs : SymmR A) (hS : ObjOK A md fr omega S) (ids : List ℕ) (hids : ∀ k ∈ ids, k < S.A.blocks.length)
    (hemp : fr = none → ∀ i < A.height, cols A i ≠ []) (back : Bool) (x b : ℕ → ℝ) :
    ∃ x', itBlocks S ids back (updRes S) (x, fun i => b i - matVec A x i) = some (x', fun i => b i - matVec A x' i) ∧
      up1 x' = blockSweep A.width (dense A) (((if back then (classesIn S fr ids).reverse else classesIn S fr ids)).map (dynBlock A md omega)) (up1 x) (up1 b) := by
  have hids' : ∀ k ∈ (if back then ids.reverse else ids), k < S.A.blocks.length := by
    intro k hk
    cases back
    · exact hids k hk
    · exact hids k (List.mem_reverse.1 hk)
  have hne : ∀ k ∈ (if back then ids.reverse else ids).filter (visited S), k < S.A.blocks.length ∧ freeNr S fr k ≠ [] := by
    intro k hk
    obtain ⟨hm, hv⟩ := List.mem_filter.1 hk
    have hlt := hids' k hm
    refine ⟨hlt, ?_⟩
    rcases (visited_iff hS hlt).1 hv with rfl | h
    · have hb : S.A.blocks[k]? = some S.A.blocks[k] := List.getElem?_eq_getElem hlt
      have hok := hS.blocks _ (List.mem_of_getElem? hb)
      obtain ⟨r, hr⟩ := List.exists_mem_of_ne_nil _ hok.ne
      have hcols : S.A.scols S.A.blocks[k] ≠ [] := by
        have := hemp rfl r (hok.lt r hr)
        rw [hok.same r hr] at this
        exact this
      have hF : freeNr S none k = freeOf S.A none S.A.blocks[k] := by rw [freeNr, hb]; rfl
      rw [hF, freeOf, if_neg hcols]
      rw [show (S.A.srows S.A.blocks[k]).filter (fun i => (Option.map (fun f : ℕ → Bool => f i) none).getD true) = S.A.srows S.A.blocks[k] from
        List.filter_eq_self.2 fun _ _ => rfl]
      exact hok.ne
    · exact h
  obtain ⟨x', r', h1, h2⟩ := foldlM_res hA hS _ hne x fun i => b i - matVec A x i
  rw [fold_classes hS _ (fun s => stepRES_nil _ s) _ hids'] at h2
  have hr : (up1 fun i => b i - matVec A x i) = up1 b - multRow (lift A) (up1 x) := by
    rw [multRow_up1 hA]
    rfl
  rw [hr, foldl_RES (lift A) (lift_wf hA) (lift_symm hs) _ ?_ (up1 b) (up1 x)] at h2
  · have hx := congrArg Prod.fst h2
    have hr' := congrArg Prod.snd h2
    dsimp only at hx hr'
    have hcl : (if back then (classesIn S fr ids).reverse else classesIn S fr ids) = classesIn S fr (if back then ids.reverse else ids) := by
      cases back
      · rfl
      · exact (classesIn_reverse S fr ids).symm
    have hrr : r' = fun i => b i - matVec A x' i := by
      rw [← hx, multRow_up1 hA] at hr'
      exact up1_inj hr'
    refine ⟨x', ?_, ?_⟩
    · rw [← hrr]
      exact h1
    · rw [hx, foldl_spec _ (lift_wf hA), lift_entry, List.map_map, hcl]
      rfl
  · intro B hB d hd
    obtain ⟨F, hF, rfl⟩ := List.mem_map.1 hB
    obtain ⟨k, hk, rfl⟩ := List.mem_map.1 (List.mem_filter.1 hF).1
    exact freeNr_lt hS k d hd

end

end NgsAMG.DynBlock
