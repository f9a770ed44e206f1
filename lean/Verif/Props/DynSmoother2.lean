import Verif.Props.DynSmoother
import Verif.Props.LocBlock4

/-! `SetUp` of `DynBlockSmoother`: the stored matrix of a block is the inverse of the diagonal block of the free rows, padded by zeros. -/

namespace NgsAMG.DynBlock
open Matrix NgsAMG.GS NgsAMG.Spec NgsAMG.BlkGS

/-- scalars as blocks of size one -/
def up1 (x : ℕ → ℝ) : BVec 1 := fun i _ => x i

/-- the dense matrix of a scalar sparse matrix, with blocks of size one -/
def dense (A : CSR ℝ) : ℕ → ℕ → Blk 1 := fun i j => sc (A.entry i j)

/-- the dense matrix with replaced diagonal -/
def denseMd (A : CSR ℝ) (md : Option (ℕ → ℝ)) : ℕ → ℕ → Blk 1 := fun i j =>
  match md with
  | some d => if i = j then sc (d i) else sc (A.entry i j)
  | none => sc (A.entry i j)

/-- entry of `denseMd` -/
def mdE (A : CSR ℝ) (md : Option (ℕ → ℝ)) (i j : ℕ) : ℝ :=
  match md with
  | some d => if i = j then d i else A.entry i j
  | none => A.entry i j

theorem denseMd_apply (A : CSR ℝ) (md : Option (ℕ → ℝ)) (i j : ℕ) (c d : Fin 1) : denseMd A md i j c d = mdE A md i j := by
  cases md with
  | none => rfl
  | some m => simp only [denseMd, mdE]; split <;> rfl

/-! ### lists -/

theorem sum_filter (rows : List ℕ) (fr : ℕ → Bool) (g : ℕ → ℝ) (hg : ∀ r ∈ rows, fr r = false → g r = 0) :
    ∑ s : Fin rows.length, g rows[s] = ∑ t : Fin (rows.filter fr).length, g (rows.filter fr)[t] := by
  rw [show (∑ s : Fin rows.length, g rows[s]) = (rows.map g).sum from Fin.sum_univ_fun_getElem rows g,
    show (∑ t : Fin (rows.filter fr).length, g (rows.filter fr)[t]) = ((rows.filter fr).map g).sum from Fin.sum_univ_fun_getElem _ g]
  induction rows with
  | nil => rfl
  | cons a l ih =>
    have ih := ih fun r hr => hg r (List.mem_cons_of_mem _ hr)
    by_cases ha : fr a = true
    · rw [List.filter_cons_of_pos ha, List.map_cons, List.map_cons, List.sum_cons, List.sum_cons, ih]
    · rw [List.filter_cons_of_neg ha, List.map_cons, List.sum_cons, ih, hg a List.mem_cons_self (by simpa using ha), zero_add]

theorem foldl_update_const (l : List (ℕ × ℕ)) (dp : ℕ → ℕ) (i c : ℕ) (h : ∀ e ∈ l, e.1 = i → e.2 = c) (hex : dp i = c ∨ (i, c) ∈ l) :
    (l.foldl (fun dp e => Function.update dp e.1 e.2) dp) i = c := by
  induction l generalizing dp with
  | nil => simpa using hex
  | cons e l ih =>
    rw [List.foldl_cons]
    apply ih _ fun e' he' => h e' (List.mem_cons_of_mem _ he')
    by_cases hi : e.1 = i
    · left
      rw [← hi, Function.update_self]
      exact h e List.mem_cons_self hi
    · rcases hex with hd | hm
      · left
        rw [Function.update_of_ne (Ne.symm hi)]
        exact hd
      · rcases List.mem_cons.1 hm with rfl | hm
        · exact absurd rfl hi
        · exact .inr hm

theorem diagPos_spec (dp : ℕ → ℕ) {rows cs : List ℕ} (hr : rows.Pairwise (· < ·)) (hc : cs.Pairwise (· < ·)) {l c r : ℕ} (h1 : rows[l]? = some r)
    (h2 : cs[c]? = some r) : diagPos dp rows cs l = c := by
  have hi := (Traversal.iterInter_correct rows cs hr hc).1
  refine foldl_update_const _ _ _ _ ?_ (.inr ((hi l c).2 ⟨r, h1, h2⟩))
  intro e he hel
  obtain ⟨v, hv1, hv2⟩ := (hi e.1 e.2).1 he
  rw [hel, h1] at hv1
  have hv : r = v := Option.some.inj hv1
  subst hv
  have hn : cs.Nodup := hc.imp fun h => ne_of_lt h
  obtain ⟨ha, ha'⟩ := List.getElem?_eq_some_iff.1 h2
  obtain ⟨hb, hb'⟩ := List.getElem?_eq_some_iff.1 hv2
  exact (List.Nodup.getElem_inj_iff hn).1 (hb'.trans ha'.symm)

theorem flatMap_getD (rows : List ℕ) (vals : ℕ → List ℝ) (n : ℕ) (hv : ∀ r ∈ rows, (vals r).length = n) (l r c : ℕ) (hl : rows[l]? = some r) (hc : c < n) :
    (rows.flatMap vals).getD (l * n + c) 0 = (vals r).getD c 0 := by
  induction rows generalizing l with
  | nil => simp at hl
  | cons a t ih =>
    have ha := hv a List.mem_cons_self
    rw [List.flatMap_cons]
    cases l with
    | zero =>
      have : a = r := by simpa using hl
      subst this
      rw [List.getD_eq_getElem?_getD, List.getD_eq_getElem?_getD, List.getElem?_append_left (by omega)]
      congr 2
      omega
    | succ l =>
      have h := ih (fun r hr => hv r (List.mem_cons_of_mem _ hr)) l (by simpa using hl)
      rw [← h, List.getD_eq_getElem?_getD, List.getD_eq_getElem?_getD, List.getElem?_append_right (by rw [Nat.succ_mul]; omega)]
      congr 2
      rw [Nat.succ_mul]
      omega

theorem entry_at (A : CSR ℝ) (hA : A.WF) (r c j : ℕ) (hc : (cols A r)[c]? = some j) : ((A.row r).map Prod.snd).getD c 0 = A.entry r j := by
  have hs := hA.sorted r
  rw [cols] at hc
  rw [CSR.entry]
  generalize A.row r = row at *
  induction row generalizing c with
  | nil => simp at hc
  | cons e t ih =>
    rw [List.map_cons, List.pairwise_cons] at hs
    cases c with
    | zero =>
      have hj : e.1 = j := by simpa using hc
      have : t.filter (fun e => decide (e.1 = j)) = [] := by
        rw [List.filter_eq_nil_iff]
        intro a ha
        have := hs.1 a.1 (List.mem_map_of_mem ha)
        simp; omega
      simp [hj, this]
    | succ c =>
      have hc' : (t.map Prod.fst)[c]? = some j := by simpa using hc
      have hne : e.1 ≠ j := ne_of_lt (hs.1 j (List.mem_of_getElem? hc'))
      have := ih c hc' hs.2
      simpa [hne] using this

theorem entry_notmem (A : CSR ℝ) {r j : ℕ} (h : j ∉ cols A r) : A.entry r j = 0 := by
  have : (A.row r).filter (fun e => decide (e.1 = j)) = [] := by
    rw [List.filter_eq_nil_iff]
    intro e he
    have : e.1 ≠ j := fun h' => h (h' ▸ List.mem_map_of_mem he)
    simpa using this
  rw [CSR.entry, this]
  rfl

/-- values of a row-block -/
theorem BlockOK.value {A : CSR ℝ} (hA : A.WF) {D : Dyn ℝ} {blk : RowBlock ℝ} (h : BlockOK A D blk) {l c r j : ℕ} (hl : (D.srows blk)[l]? = some r)
    (hc : (D.scols blk)[c]? = some j) : blk.data.getD (l * (D.scols blk).length + c) 0 = A.entry r j := by
  have hr : r ∈ D.srows blk := List.mem_of_getElem? hl
  have hlen : ∀ r ∈ D.srows blk, ((A.row r).map Prod.snd).length = (D.scols blk).length := by
    intro r hr
    rw [show D.scols blk = D.colB.scalNums blk.cols from rfl, ← h.same r hr, cols, List.length_map, List.length_map]
  rw [h.data]
  obtain ⟨hcl, -⟩ := List.getElem?_eq_some_iff.1 hc
  refine (flatMap_getD _ _ _ hlen l r c hl hcl).trans ?_
  refine entry_at A hA r c j ?_
  rw [h.same r hr]
  exact hc

/-! ### the diagonal block -/

/-- every row that is not empty has its diagonal entry -/
def HasDiag {E : Type*} (A : CSR E) : Prop := ∀ i, cols A i ≠ [] → i ∈ cols A i

theorem BlockOK.diagAt {A : CSR ℝ} (hA : A.WF) (hd : HasDiag A) {D : Dyn ℝ} {blk : RowBlock ℝ} (h : BlockOK A D blk) (hne : D.scols blk ≠ [])
    {l r : ℕ} (hl : (D.srows blk)[l]? = some r) (dp : ℕ → ℕ) :
    diagPos dp (D.srows blk) (D.scols blk) l < (D.scols blk).length ∧ (D.scols blk)[diagPos dp (D.srows blk) (D.scols blk) l]? = some r := by
  have hr : r ∈ D.srows blk := List.mem_of_getElem? hl
  have hs := h.same r hr
  have hm : r ∈ D.scols blk := by
    have := hd r (by rw [hs]; exact hne)
    rw [hs] at this
    exact this
  obtain ⟨c, hc⟩ := List.getElem?_of_mem hm
  have hcs : (D.scols blk).Pairwise (· < ·) := by
    have := hA.sorted r
    rw [show (A.row r).map Prod.fst = cols A r from rfl, hs] at this
    exact this
  rw [show diagPos dp (D.srows blk) (D.scols blk) l = c from diagPos_spec dp h.sorted hcs hl hc]
  exact ⟨(List.getElem?_eq_some_iff.1 hc).1, hc⟩

theorem fillDiag_eq {A : CSR ℝ} (hA : A.WF) (hd : HasDiag A) {D : Dyn ℝ} {blk : RowBlock ℝ} (h : BlockOK A D blk) (hne : D.scols blk ≠ []) (dp : ℕ → ℕ)
    (md : Option (ℕ → ℝ)) : fillDiag (D.srows blk) (D.scols blk).length blk.data (diagPos dp (D.srows blk) (D.scols blk)) md =
      fun l j => mdE A md (D.srows blk)[l] (D.srows blk)[j] := by
  have hn : (D.srows blk).Nodup := h.sorted.imp fun h => ne_of_lt h
  have hv : ∀ l j : Fin (D.srows blk).length, blk.data.getD ((l : ℕ) * (D.scols blk).length + diagPos dp (D.srows blk) (D.scols blk) j) 0 =
      A.entry (D.srows blk)[l] (D.srows blk)[j] := by
    intro l j
    exact h.value hA (List.getElem?_eq_getElem l.2) (h.diagAt hA hd hne (List.getElem?_eq_getElem j.2) dp).2
  funext l j
  cases md with
  | none => exact hv l j
  | some d =>
    simp only [fillDiag, mdE]
    have : (D.srows blk)[(l : ℕ)] = (D.srows blk)[(j : ℕ)] ↔ l = j := by
      rw [List.Nodup.getElem_inj_iff hn, Fin.ext_iff]
    by_cases hlj : l = j
    · rw [if_pos hlj]
      exact (if_pos (this.2 hlj)).symm
    · rw [if_neg hlj]
      refine (hv l j).trans ?_
      exact (if_neg fun h => hlj (this.1 h)).symm

theorem dropRows_eq (rows : List ℕ) (fr : ℕ → Bool) (M : Matrix (Fin rows.length) (Fin rows.length) ℝ) :
    dropRows rows fr M = fun i j => if fr rows[i] = true ∧ fr rows[j] = true then M i j else if i = j then 1 else 0 := by
  have key : ∀ ls : List (Fin rows.length), ∀ M : Matrix (Fin rows.length) (Fin rows.length) ℝ,
      ls.foldl (fun M l => if fr rows[l] then M else unitRow M l) M =
        fun i j => if (i ∈ ls ∧ fr rows[i] = false) ∨ (j ∈ ls ∧ fr rows[j] = false) then (if i = j then 1 else 0) else M i j := by
    intro ls
    induction ls with
    | nil => intro M; simp
    | cons l ls ih =>
      intro M
      rw [List.foldl_cons, ih]
      funext i j
      by_cases hl : fr rows[l] = true
      · rw [if_pos hl]
        have e : ∀ i : Fin rows.length, (i ∈ l :: ls ∧ fr rows[i] = false) ↔ (i ∈ ls ∧ fr rows[i] = false) := by
          intro i
          constructor
          · rintro ⟨hm, hf⟩
            rcases List.mem_cons.1 hm with rfl | hm
            · rw [hl] at hf; cases hf
            · exact ⟨hm, hf⟩
          · exact fun h => ⟨List.mem_cons_of_mem _ h.1, h.2⟩
        simp only [e]
      · rw [if_neg hl]
        have hl' : fr rows[l] = false := by simpa using hl
        by_cases h1 : (i ∈ ls ∧ fr rows[i] = false) ∨ (j ∈ ls ∧ fr rows[j] = false)
        · have hR : (i ∈ l :: ls ∧ fr rows[i] = false) ∨ (j ∈ l :: ls ∧ fr rows[j] = false) :=
            h1.imp (fun h => ⟨List.mem_cons_of_mem _ h.1, h.2⟩) fun h => ⟨List.mem_cons_of_mem _ h.1, h.2⟩
          rw [if_pos h1]
          exact (if_pos hR).symm
        · rw [if_neg h1, unitRow]
          by_cases hil : i = l
          · subst hil
            have hR : (i ∈ i :: ls ∧ fr rows[i] = false) ∨ (j ∈ i :: ls ∧ fr rows[j] = false) := Or.inl ⟨List.mem_cons_self, hl'⟩
            refine Eq.trans ?_ (if_pos hR).symm
            by_cases hj : j = i
            · simp [hj]
            · simp [hj, Ne.symm hj]
          · by_cases hjl : j = l
            · subst hjl
              have hR : (i ∈ j :: ls ∧ fr rows[i] = false) ∨ (j ∈ j :: ls ∧ fr rows[j] = false) := Or.inr ⟨List.mem_cons_self, hl'⟩
              refine Eq.trans ?_ (if_pos hR).symm
              simp [hil]
            · rw [if_neg (by tauto), if_neg (by tauto), if_neg]
              rintro (⟨h, hf⟩ | ⟨h, hf⟩)
              · exact h1 (.inl ⟨(List.mem_cons.1 h).resolve_left hil, hf⟩)
              · exact h1 (.inr ⟨(List.mem_cons.1 h).resolve_left hjl, hf⟩)
  rw [dropRows, key]
  funext i j
  by_cases h : fr rows[i] = true ∧ fr rows[j] = true
  · rw [if_pos h, if_neg]
    rintro (⟨-, hf⟩ | ⟨-, hf⟩)
    · rw [h.1] at hf; cases hf
    · rw [h.2] at hf; cases hf
  · rw [if_neg h, if_pos]
    by_contra hc
    push Not at hc
    exact h ⟨by simpa using hc.1 (List.mem_finRange i), by simpa using hc.2 (List.mem_finRange j)⟩

theorem zeroDiag_eq (rows : List ℕ) (fr : ℕ → Bool) (M : Matrix (Fin rows.length) (Fin rows.length) ℝ) :
    zeroDiag rows fr M = fun i j => if i = j ∧ fr rows[i] = false then 0 else M i j := by
  have key : ∀ ls : List (Fin rows.length), ∀ M : Matrix (Fin rows.length) (Fin rows.length) ℝ,
      ls.foldl (fun M l => if fr rows[l] then M else zeroAt M l) M =
        fun i j => if i = j ∧ i ∈ ls ∧ fr rows[i] = false then 0 else M i j := by
    intro ls
    induction ls with
    | nil => intro M; simp
    | cons l ls ih =>
      intro M
      rw [List.foldl_cons, ih]
      funext i j
      by_cases hij : i = j ∧ i ∈ ls ∧ fr rows[i] = false
      · rw [if_pos hij, if_pos ⟨hij.1, List.mem_cons_of_mem _ hij.2.1, hij.2.2⟩]
      · rw [if_neg hij]
        by_cases hl : fr rows[l] = true
        · rw [if_pos hl, if_neg]
          rintro ⟨h1, h2, h3⟩
          rcases List.mem_cons.1 h2 with rfl | h2
          · rw [hl] at h3; cases h3
          · exact hij ⟨h1, h2, h3⟩
        · rw [if_neg hl, zeroAt]
          have hl' : fr rows[l] = false := by simpa using hl
          by_cases h : i = l ∧ j = l
          · rw [if_pos h, if_pos]
            refine ⟨h.1.trans h.2.symm, ?_, ?_⟩
            · rw [h.1]; exact List.mem_cons_self
            · rw [h.1]; exact hl'
          · rw [if_neg h, if_neg]
            rintro ⟨h1, h2, h3⟩
            rcases List.mem_cons.1 h2 with h2 | h2
            · exact h ⟨h2, h1 ▸ h2⟩
            · exact hij ⟨h1, h2, h3⟩
  rw [zeroDiag, key]
  funext i j
  simp

/-- the inverse of the diagonal block of the unknowns `F`, as a function of the numbers of the unknowns -/
noncomputable def invNum (A : CSR ℝ) (md : Option (ℕ → ℝ)) (F : List ℕ) (r s : ℕ) : ℝ :=
  if h : r ∈ F ∧ s ∈ F then ((diagBlock (denseMd A md) F)⁻¹ : Matrix _ _ ℝ) (⟨F.idxOf r, List.idxOf_lt_length_of_mem h.1⟩, 0) (⟨F.idxOf s, List.idxOf_lt_length_of_mem h.2⟩, 0) else 0

theorem invNum_get (A : CSR ℝ) (md : Option (ℕ → ℝ)) {F : List ℕ} (hn : F.Nodup) (p q : Fin F.length) (c d : Fin 1) :
    invNum A md F F[p] F[q] = ((diagBlock (denseMd A md) F)⁻¹ : Matrix _ _ ℝ) (p, c) (q, d) := by
  rw [invNum, dif_pos ⟨List.getElem_mem _, List.getElem_mem _⟩]
  have h : ∀ p : Fin F.length, F.idxOf F[p] = p := fun p => hn.idxOf_getElem p p.2
  have e : ∀ p : Fin F.length, ∀ h' : F.idxOf F[p] < F.length, (⟨F.idxOf F[p], h'⟩ : Fin F.length) = p := fun p h' => Fin.ext (h p)
  rw [e p, e q, Subsingleton.elim c 0, Subsingleton.elim d 0]

theorem invNum_mul (A : CSR ℝ) (md : Option (ℕ → ℝ)) {F : List ℕ} (hn : F.Nodup) (hdet : IsUnit (diagBlock (denseMd A md) F).det) {r s : ℕ} (hr : r ∈ F) (hs : s ∈ F) :
    ∑ t : Fin F.length, mdE A md r F[t] * invNum A md F F[t] s = if r = s then 1 else 0 := by
  obtain ⟨p, hp, rfl⟩ := List.getElem_of_mem hr
  obtain ⟨q, hq, rfl⟩ := List.getElem_of_mem hs
  have h := congrFun (congrFun (Matrix.mul_nonsing_inv (diagBlock (denseMd A md) F) hdet) (⟨p, hp⟩, 0)) (⟨q, hq⟩, 0)
  rw [Matrix.mul_apply, Fintype.sum_prod_type] at h
  have e : ∀ t : Fin F.length, mdE A md F[p] F[t] * invNum A md F F[t] F[q] =
      ∑ y : Fin 1, diagBlock (denseMd A md) F (⟨p, hp⟩, 0) (t, y) * ((diagBlock (denseMd A md) F)⁻¹ : Matrix _ _ ℝ) (t, y) (⟨q, hq⟩, 0) := by
    intro t
    rw [Fin.sum_univ_one]
    rw [← invNum_get A md hn t ⟨q, hq⟩ 0 0]
    congr 1
    exact (denseMd_apply A md _ _ 0 0).symm
  rw [Finset.sum_congr rfl fun t _ => e t, h, Matrix.one_apply]
  have : ((⟨p, hp⟩, 0) : Fin F.length × Fin 1) = (⟨q, hq⟩, 0) ↔ F[p] = F[q] := by
    rw [List.Nodup.getElem_inj_iff hn]
    simp
  simp only [this]

/-- the inverse of the block whose non-free rows were replaced by rows of the unit matrix -/
theorem inv_dropRows (A : CSR ℝ) (md : Option (ℕ → ℝ)) (rows : List ℕ) (hn : rows.Nodup) (fr : ℕ → Bool)
    (hdet : IsUnit (diagBlock (denseMd A md) (rows.filter fr)).det) :
    let M : Matrix (Fin rows.length) (Fin rows.length) ℝ := dropRows rows fr fun l j => mdE A md rows[l] rows[j]
    IsUnit M.det ∧ M⁻¹ = fun l q => if fr rows[l] = true ∧ fr rows[q] = true then invNum A md (rows.filter fr) rows[l] rows[q] else if l = q then 1 else 0 := by
  intro M
  set Q : Matrix (Fin rows.length) (Fin rows.length) ℝ :=
    fun l q => if fr rows[l] = true ∧ fr rows[q] = true then invNum A md (rows.filter fr) rows[l] rows[q] else if l = q then 1 else 0 with hQ
  have hM : M = fun i j => if fr rows[i] = true ∧ fr rows[j] = true then mdE A md rows[i] rows[j] else if i = j then 1 else 0 := dropRows_eq _ _ _
  have hnF : (rows.filter fr).Nodup := hn.filter _
  have hMe : ∀ i j, M i j = if fr rows[i] = true ∧ fr rows[j] = true then mdE A md rows[i] rows[j] else if i = j then 1 else 0 := fun i j => by rw [hM]
  have hQe : ∀ i j, Q i j = if fr rows[i] = true ∧ fr rows[j] = true then invNum A md (rows.filter fr) rows[i] rows[j] else if i = j then 1 else 0 := fun i j => by rw [hQ]
  have hmul : M * Q = 1 := by
    ext l q
    rw [Matrix.mul_apply, Matrix.one_apply]
    by_cases hl : fr rows[l] = true
    · by_cases hq : fr rows[q] = true
      · have hterm : ∀ s : Fin rows.length, M l s * Q s q = (fun r => if fr r = true then mdE A md rows[l] r * invNum A md (rows.filter fr) r rows[q] else 0) rows[s] := by
          intro s
          beta_reduce
          rw [hMe, hQe]
          by_cases hs : fr rows[s] = true
          · rw [if_pos ⟨hl, hs⟩, if_pos ⟨hs, hq⟩, if_pos hs]
          · have hls : l ≠ s := by rintro rfl; exact hs hl
            rw [if_neg (fun h => hs h.2), if_neg hls, zero_mul, if_neg hs]
        rw [Finset.sum_congr rfl fun s _ => hterm s,
          sum_filter rows fr (fun r => if fr r = true then mdE A md rows[l] r * invNum A md (rows.filter fr) r rows[q] else 0) (fun r _ hr => by simp [hr])]
        have hterm2 : ∀ t : Fin (rows.filter fr).length,
            (fun r => if fr r = true then mdE A md rows[l] r * invNum A md (rows.filter fr) r rows[q] else 0) (rows.filter fr)[t] =
              mdE A md rows[l] (rows.filter fr)[t] * invNum A md (rows.filter fr) (rows.filter fr)[t] rows[q] := by
          intro t
          have : fr (rows.filter fr)[t] = true := (List.mem_filter.1 (List.getElem_mem t.2)).2
          beta_reduce
          rw [if_pos this]
        rw [Finset.sum_congr rfl fun t _ => hterm2 t, invNum_mul A md hnF hdet (r := rows[l]) (s := rows[q]) (List.mem_filter.2 ⟨List.getElem_mem _, hl⟩) (List.mem_filter.2 ⟨List.getElem_mem _, hq⟩)]
        have : rows[(l : ℕ)] = rows[(q : ℕ)] ↔ l = q := by rw [List.Nodup.getElem_inj_iff hn, Fin.ext_iff]
        simp only [Fin.getElem_fin, this]
      · have hlq : l ≠ q := by rintro rfl; exact hq hl
        rw [if_neg hlq]
        refine Finset.sum_eq_zero fun s _ => ?_
        rw [hMe, hQe]
        by_cases hs : fr rows[s] = true
        · have hsq : s ≠ q := by rintro rfl; exact hq hs
          rw [if_neg (c := fr rows[s] = true ∧ fr rows[q] = true) (fun h => hq h.2), if_neg hsq, mul_zero]
        · have hls : l ≠ s := by rintro rfl; exact hs hl
          rw [if_neg (c := fr rows[l] = true ∧ fr rows[s] = true) (fun h => hs h.2), if_neg hls, zero_mul]
    · have hterm : ∀ s : Fin rows.length, M l s * Q s q = if l = s then Q s q else 0 := by
        intro s
        rw [hMe, if_neg (fun h => hl h.1), ite_mul, one_mul, zero_mul]
      rw [Finset.sum_congr rfl fun s _ => hterm s, Finset.sum_ite_eq, if_pos (Finset.mem_univ _), hQe, if_neg (fun h => hl h.1)]
  refine ⟨Matrix.isUnit_det_of_right_inverse hmul, ?_⟩
  exact Matrix.inv_eq_right_inv hmul

/-- `CalcInverse` inverts -/
def Inverts (inv : SInv) : Prop := ∀ n M, IsUnit (Matrix.det M) → inv n M = M⁻¹

/-- the free rows of a row-block; none if it has no columns -/
def freeOf (D : Dyn ℝ) (fr : Option (ℕ → Bool)) (blk : RowBlock ℝ) : List ℕ :=
  if D.scols blk = [] then [] else (D.srows blk).filter fun i => (fr.map fun f => f i).getD true

theorem freeOf_nodup {A : CSR ℝ} {D : Dyn ℝ} {blk : RowBlock ℝ} (h : BlockOK A D blk) (fr : Option (ℕ → Bool)) : (freeOf D fr blk).Nodup := by
  rw [freeOf]
  split
  · exact List.nodup_nil
  · exact (h.sorted.imp fun h => ne_of_lt h : (D.srows blk).Nodup).filter _

/-- what `SetUp` stores for one row-block -/
structure StoredOK (A : CSR ℝ) (D : Dyn ℝ) (md : Option (ℕ → ℝ)) (fr : Option (ℕ → Bool)) (blk : RowBlock ℝ) (r : Bool × DBlk) : Prop where
  bit : fr ≠ none → (r.1 = true ↔ freeOf D fr blk ≠ [])
  size : D.scols blk ≠ [] → r.2.size = (D.srows blk).length
  size0 : D.scols blk = [] → r.2.size = 0
  mat : freeOf D fr blk ≠ [] → ∀ l q : Fin r.2.size, ∀ a b, (D.srows blk)[(l : ℕ)]? = some a → (D.srows blk)[(q : ℕ)]? = some b →
    r.2.mat l q = invNum A md (freeOf D fr blk) a b

theorem invNum_out (A : CSR ℝ) (md : Option (ℕ → ℝ)) (F : List ℕ) {r s : ℕ} (h : r ∉ F ∨ s ∉ F) : invNum A md F r s = 0 := by
  rw [invNum, dif_neg]
  tauto

theorem stored_entry {inv : SInv} (hinv : Inverts inv) (A : CSR ℝ) (md : Option (ℕ → ℝ)) (rows : List ℕ) (hn : rows.Nodup) (f : ℕ → Bool)
    (hdet : IsUnit (diagBlock (denseMd A md) (rows.filter f)).det) (l q : Fin rows.length) :
    (if rows.all f = true then inv _ (dropRows rows f fun l j => mdE A md rows[l] rows[j]) else zeroDiag rows f (inv _ (dropRows rows f fun l j => mdE A md rows[l] rows[j]))) l q =
      invNum A md (rows.filter f) rows[l] rows[q] := by
  obtain ⟨h1, h2⟩ := inv_dropRows A md rows hn f hdet
  rw [hinv _ _ h1]
  have h2e : ∀ l q : Fin rows.length, (dropRows rows f fun l j => mdE A md rows[l] rows[j])⁻¹ l q =
      if f rows[l] = true ∧ f rows[q] = true then invNum A md (rows.filter f) rows[l] rows[q] else if l = q then 1 else 0 := fun l q => by rw [h2]
  have hmem : ∀ i : Fin rows.length, ¬ f rows[i] = true → rows[i] ∉ rows.filter f := fun i hi hm => hi (List.mem_filter.1 hm).2
  by_cases hall : rows.all f = true
  · rw [if_pos hall, h2e, if_pos ⟨List.all_eq_true.1 hall _ (List.getElem_mem _), List.all_eq_true.1 hall _ (List.getElem_mem _)⟩]
  · rw [if_neg hall, zeroDiag_eq]
    beta_reduce
    rw [h2e]
    by_cases hl : f rows[l] = true
    · rw [if_neg (by rw [hl]; simp)]
      by_cases hq : f rows[q] = true
      · rw [if_pos ⟨hl, hq⟩]
      · have hlq : l ≠ q := by rintro rfl; exact hq hl
        rw [if_neg (fun h => hq h.2), if_neg hlq, invNum_out _ _ _ (.inr (hmem q hq))]
    · rw [invNum_out _ _ _ (.inl (hmem l hl))]
      by_cases hlq : l = q
      · rw [if_pos ⟨hlq, by simpa using hl⟩]
      · rw [if_neg (fun h => hlq h.1), if_neg (fun h => hl h.1), if_neg hlq]

theorem setBlock_ok {inv : SInv} (hinv : Inverts inv) {A : CSR ℝ} (hA : A.WF) (hd : HasDiag A) {D : Dyn ℝ} {blk : RowBlock ℝ} (h : BlockOK A D blk) (md : Option (ℕ → ℝ))
    (fr : Option (ℕ → Bool)) (hdet : IsUnit (diagBlock (denseMd A md) (freeOf D fr blk)).det) (dp : ℕ → ℕ) :
    ∃ r, setBlock inv D md fr dp blk = some r ∧ StoredOK A D md fr blk r.2 := by
  have hn : (D.srows blk).Nodup := h.sorted.imp fun h => ne_of_lt h
  have hne : (D.srows blk).length ≠ 0 := fun h0 => h.ne (List.eq_nil_of_length_eq_zero h0)
  by_cases hcols : D.scols blk = []
  · refine ⟨(dp, false, ⟨0, 0⟩), ?_, ?_, ?_, fun _ => rfl, ?_⟩
    · simp only [setBlock]
      rw [if_pos (by rw [hcols]; rfl)]
    · intro _
      simp [freeOf, hcols]
    · exact fun h => absurd hcols h
    · intro h0
      rw [freeOf, if_pos hcols] at h0
      exact absurd rfl h0
  · have hcl : (D.scols blk).length ≠ 0 := fun h0 => hcols (List.eq_nil_of_length_eq_zero h0)
    simp only [setBlock]
    rw [if_neg hcl, if_neg (fun h0 => hne (by simpa using h0))]
    rw [if_neg (by have h1 := h.mr; have h2 := h.mc; unfold Dyn.srows Dyn.scols; omega)]
    rw [if_neg ?hdp]
    case hdp =>
      simp only [List.any_eq_true, List.mem_range, decide_eq_true_eq, not_exists, not_and, not_le]
      intro j hj
      exact (h.diagAt hA hd hcols (List.getElem?_eq_getElem hj) dp).1
    rw [fillDiag_eq hA hd h hcols dp md]
    have hF : freeOf D fr blk = (D.srows blk).filter fun i => (fr.map fun f => f i).getD true := by rw [freeOf, if_neg hcols]
    rw [hF] at hdet
    cases fr with
    | none =>
      have hall : (D.srows blk).filter (fun i => (Option.map (fun f : ℕ → Bool => f i) none).getD true) = D.srows blk := List.filter_eq_self.2 fun _ _ => rfl
      obtain ⟨h1, h2⟩ := inv_dropRows A md (D.srows blk) hn (fun i => (Option.map (fun f : ℕ → Bool => f i) none).getD true) hdet
      have hM : dropRows (D.srows blk) (fun i => (Option.map (fun f : ℕ → Bool => f i) none).getD true) (fun l j => mdE A md (D.srows blk)[l] (D.srows blk)[j]) =
          fun l j => mdE A md (D.srows blk)[l] (D.srows blk)[j] := by
        refine (dropRows_eq _ _ _).trans ?_
        funext i j
        exact if_pos ⟨rfl, rfl⟩
      rw [hM] at h1 h2
      refine ⟨_, rfl, ?_, ?_, fun h => absurd h hcols, ?_⟩
      · exact fun h => absurd rfl h
      · exact fun _ => rfl
      · intro _ l q a b hla hqb
        have ha : (D.srows blk)[(l : ℕ)]'l.2 = a := Option.some.inj ((List.getElem?_eq_getElem l.2).symm.trans hla)
        have hb : (D.srows blk)[(q : ℕ)]'q.2 = b := Option.some.inj ((List.getElem?_eq_getElem q.2).symm.trans hqb)
        show inv _ _ l q = _
        rw [hinv _ _ h1, h2, hF, ← ha, ← hb]
        simp
    | some f =>
      have hfe : (fun i => (Option.map (fun f : ℕ → Bool => f i) (some f)).getD true) = f := rfl
      rw [hfe] at hdet hF
      obtain ⟨h1, h2⟩ := inv_dropRows A md (D.srows blk) hn f hdet
      have hany : (D.srows blk).any f = true ↔ freeOf D (some f) blk ≠ [] := by
        rw [hF]
        simp [List.filter_eq_nil_iff]
      dsimp only
      by_cases ha : (D.srows blk).any f = true
      · rw [if_pos ha]
        refine ⟨_, rfl, ?_, ?_, fun h => absurd h hcols, ?_⟩
        · exact fun _ => ⟨fun _ => hany.1 ha, fun _ => rfl⟩
        · exact fun _ => rfl
        · intro _ l q a b hla hqb
          have hl : (D.srows blk)[(l : ℕ)]'l.2 = a := Option.some.inj ((List.getElem?_eq_getElem l.2).symm.trans hla)
          have hq : (D.srows blk)[(q : ℕ)]'q.2 = b := Option.some.inj ((List.getElem?_eq_getElem q.2).symm.trans hqb)
          rw [hF, ← hl, ← hq]
          exact stored_entry hinv A md (D.srows blk) hn f hdet l q
      · rw [if_neg ha]
        refine ⟨_, rfl, ?_, ?_, fun h => absurd h hcols, ?_⟩
        · intro _
          constructor
          · intro h; cases h
          · exact fun h => absurd (hany.2 h) ha
        · exact fun _ => rfl
        · exact fun h => absurd (hany.2 h) ha

theorem setBlocks_ok {inv : SInv} (hinv : Inverts inv) {A : CSR ℝ} (hA : A.WF) (hd : HasDiag A) {D : Dyn ℝ} (md : Option (ℕ → ℝ))
    (fr : Option (ℕ → Bool)) (bs : List (RowBlock ℝ)) (h : ∀ blk ∈ bs, BlockOK A D blk) (hdet : ∀ blk ∈ bs, IsUnit (diagBlock (denseMd A md) (freeOf D fr blk)).det) (dp : ℕ → ℕ) :
    ∃ l, setBlocks inv D md fr dp bs = some l ∧ List.Forall₂ (StoredOK A D md fr) bs l := by
  induction bs generalizing dp with
  | nil => exact ⟨[], rfl, .nil⟩
  | cons b bs ih =>
    obtain ⟨r, hr, hok⟩ := setBlock_ok hinv hA hd (h b List.mem_cons_self) md fr (hdet b List.mem_cons_self) dp
    obtain ⟨l, hl, hall⟩ := ih (fun blk hb => h blk (List.mem_cons_of_mem _ hb)) (fun blk hb => hdet blk (List.mem_cons_of_mem _ hb)) r.1
    refine ⟨(r.2.1, r.2.2) :: l, ?_, .cons hok hall⟩
    rw [setBlocks, hr, Option.bind_some, hl]
    rfl

end NgsAMG.DynBlock
