import Verif.Model.BSThree
import Mathlib.Tactic.FinCases
import Mathlib.Tactic.Ring
import Mathlib.Algebra.BigOperators.Fin

/-!
C111: the conversion of the coarsest matrix from blocks of size 6 to blocks of size 3.
-/

namespace NgsAMG.BS3

open Matrix

/-! ### Rows -/

/-- what the row `2k + a` should be -/
def newRow (a : Fin 2) (es : List (ℕ × Blk 6)) : List (ℕ × Blk 3) :=
  es.flatMap fun e => [(2 * e.1, subBlk e.2 a 0), (2 * e.1 + 1, subBlk e.2 a 1)]

theorem newRow_length (a : Fin 2) (es : List (ℕ × Blk 6)) : (newRow a es).length = 2 * es.length := by
  induction es with
  | nil => rfl
  | cons e es ih =>
    have : newRow a (e :: es) = (2 * e.1, subBlk e.2 a 0) :: (2 * e.1 + 1, subBlk e.2 a 1) :: newRow a es := rfl
    rw [this, List.length_cons, List.length_cons, ih, List.length_cons]; omega

/-- consecutive writes, from place `n` on -/
def enumFrom {α : Type} : ℕ → List α → List (ℕ × α)
  | _, [] => []
  | n, x :: l => (n, x) :: enumFrom (n + 1) l

theorem rowWrites_eq (a : Fin 2) (es : List (ℕ × Blk 6)) : ∀ j, rowWrites a j es = enumFrom (2 * j) (newRow a es) := by
  induction es with
  | nil => intro j; rfl
  | cons e es ih =>
    intro j
    have : newRow a (e :: es) = (2 * e.1, subBlk e.2 a 0) :: (2 * e.1 + 1, subBlk e.2 a 1) :: newRow a es := rfl
    rw [this, rowWrites, ih]
    rfl

theorem fold_enum {α : Type} (l : List α) : ∀ (pre : List (Option α)),
    (enumFrom pre.length l).foldlM write (pre ++ List.replicate l.length none) = some (pre ++ l.map some) := by
  induction l with
  | nil => intro pre; rfl
  | cons x l ih =>
    intro pre
    have hw : write (pre ++ List.replicate (x :: l).length none) (pre.length, x) = some ((pre ++ [some x]) ++ List.replicate l.length none) := by
      rw [write, if_pos (by simp)]
      rw [List.length_cons, List.replicate_succ, List.set_append_right _ _ (le_refl _), Nat.sub_self, List.set_cons_zero]
      simp
    have := ih (pre ++ [some x])
    rw [List.length_append, List.length_singleton] at this
    show (write _ (pre.length, x)).bind _ = _
    rw [hw, Option.bind_some, this]
    simp

theorem mapM_id_some {α : Type} (l : List α) : (l.map some).mapM id = some l := by
  induction l with
  | nil => rfl
  | cons x l ih => rw [List.map_cons, List.mapM_cons]; simp [ih]

/-- **C111.** Every entry of the row is written, and no write is out of range; the row `2k + a` has the blocks `(a, 0)` and
`(a, 1)` of every old entry in the columns `2c` and `2c + 1`. -/
theorem convRow_correct (es : List (ℕ × Blk 6)) (a : Fin 2) : convRow es a = some (newRow a es) := by
  rw [convRow, fillRow, rowWrites_eq, ← newRow_length a]
  have := fold_enum (newRow a es) []
  rw [List.length_nil, List.nil_append, List.nil_append] at this
  rw [Nat.mul_zero, this, Option.bind_some, mapM_id_some]

theorem convert_row (A : CSR (Blk 6)) (k : ℕ) (a : Fin 2) : (convert A).row (2 * k + a.val) = newRow a (A.row k) := by
  have h1 : (2 * k + a.val) / 2 = k := by omega
  have h2 : (⟨(2 * k + a.val) % 2, Nat.mod_lt _ (by omega)⟩ : Fin 2) = a := by apply Fin.ext; simp only; omega
  show (convRow (A.row ((2 * k + a.val) / 2)) _).getD [] = _
  rw [h1, h2, convRow_correct]; rfl

theorem mem_newRow {a : Fin 2} {es : List (ℕ × Blk 6)} {d : ℕ × Blk 3} (h : d ∈ newRow a es) :
    ∃ e ∈ es, d.1 = 2 * e.1 ∨ d.1 = 2 * e.1 + 1 := by
  rw [newRow, List.mem_flatMap] at h
  obtain ⟨e, he, hd⟩ := h
  simp only [List.mem_cons, List.not_mem_nil, or_false] at hd
  rcases hd with rfl | rfl
  · exact ⟨e, he, Or.inl rfl⟩
  · exact ⟨e, he, Or.inr rfl⟩

theorem newRow_sorted (a : Fin 2) (es : List (ℕ × Blk 6)) (h : (es.map Prod.fst).Pairwise (· < ·)) :
    ((newRow a es).map Prod.fst).Pairwise (· < ·) := by
  induction es with
  | nil => exact List.Pairwise.nil
  | cons e es ih =>
    have hc : newRow a (e :: es) = (2 * e.1, subBlk e.2 a 0) :: (2 * e.1 + 1, subBlk e.2 a 1) :: newRow a es := rfl
    rw [List.map_cons, List.pairwise_cons] at h
    have hlt : ∀ x ∈ (newRow a es).map Prod.fst, 2 * e.1 + 1 < x := by
      intro x hx
      rw [List.mem_map] at hx
      obtain ⟨d, hd, rfl⟩ := hx
      obtain ⟨e', he', hd'⟩ := mem_newRow hd
      have := h.1 e'.1 (List.mem_map.2 ⟨e', he', rfl⟩)
      omega
    rw [hc, List.map_cons, List.map_cons, List.pairwise_cons, List.pairwise_cons]
    refine ⟨?_, hlt, ih h.2⟩
    intro x hx
    rcases List.mem_cons.1 hx with rfl | hx
    · exact Nat.lt_succ_self _
    · exact lt_trans (Nat.lt_succ_self _) (hlt x hx)

/-- **C111.** The new matrix is a valid matrix with twice the rows and columns. -/
theorem convert_wf (A : CSR (Blk 6)) (hA : A.WF) (hs : A.width = A.height) :
    (convert A).WF ∧ (convert A).height = 2 * A.height ∧ (convert A).width = 2 * A.width := by
  have hrow : ∀ r, (convert A).row r = newRow ⟨r % 2, Nat.mod_lt _ (by omega)⟩ (A.row (r / 2)) := by
    intro r
    show (convRow _ _).getD [] = _
    rw [convRow_correct]; rfl
  refine ⟨⟨fun i => ?_, fun i e he => ?_, fun i hi => ?_⟩, rfl, by rw [hs]; rfl⟩
  · rw [hrow]; exact newRow_sorted _ _ (hA.sorted _)
  · rw [hrow] at he
    obtain ⟨d, hd, h⟩ := mem_newRow he
    have := hA.inRange _ d hd
    show e.1 < 2 * A.height
    omega
  · rw [hrow, hA.outside (i / 2) (by have : 2 * A.height ≤ i := hi; omega)]; rfl

/-! ### The same matrix -/

/-- entry of a matrix with blocks of size `n` in the numbering of the scalar unknowns, `n * k + i` is component `i` of unknown `k` -/
def scalarEntry {n : ℕ} (hn : 0 < n) (A : CSR (Blk n)) (p q : ℕ) : ℝ :=
  A.entry (p / n) (q / n) ⟨p % n, Nat.mod_lt _ hn⟩ ⟨q % n, Nat.mod_lt _ hn⟩

/-- a vector of scalars seen as a vector with blocks of size `n`; this is the same memory -/
def view (n : ℕ) (f : ℕ → ℝ) : BVec n := fun k i => f (n * k + i.val)

theorem entry_newRow (a b : Fin 2) (es : List (ℕ × Blk 6)) (l : ℕ) :
    (((newRow a es).filter fun e => e.1 = 2 * l + b.val).map Prod.snd).sum =
      subBlk (((es.filter fun e => e.1 = l).map Prod.snd).sum) a b := by
  induction es with
  | nil => funext i j; rfl
  | cons e es ih =>
    have hc : newRow a (e :: es) = [(2 * e.1, subBlk e.2 a 0), (2 * e.1 + 1, subBlk e.2 a 1)] ++ newRow a es := rfl
    rw [hc, List.filter_append, List.map_append, List.sum_append, ih]
    by_cases h : e.1 = l
    · subst h
      have : (e :: es).filter (fun e' => e'.1 = e.1) = e :: es.filter (fun e' => e'.1 = e.1) := by simp
      rw [this, List.map_cons, List.sum_cons]
      fin_cases b
      · simp; rfl
      · simp; rfl
    · have : (e :: es).filter (fun e' => e'.1 = l) = es.filter (fun e' => e'.1 = l) := by simp [h]
      rw [this]
      have hf : ([(2 * e.1, subBlk e.2 a 0), (2 * e.1 + 1, subBlk e.2 a 1)] : List (ℕ × Blk 3)).filter
          (fun e => e.1 = 2 * l + b.val) = [] := by
        rw [List.filter_eq_nil_iff]
        intro d hd
        have hb := b.isLt
        simp only [List.mem_cons, List.not_mem_nil, or_false] at hd
        rcases hd with rfl | rfl <;> simp <;> omega
      rw [hf]; simp

/-- **C111.** In the numbering of the scalar unknowns the two matrices are the same matrix. -/
theorem convert_entries (A : CSR (Blk 6)) : scalarEntry (by omega : 0 < 3) (convert A) = scalarEntry (by omega : 0 < 6) A := by
  funext p q
  have hp : p / 3 = 2 * (p / 6) + (⟨p / 3 % 2, Nat.mod_lt _ (by omega)⟩ : Fin 2).val := by simp only; omega
  have hq : q / 3 = 2 * (q / 6) + (⟨q / 3 % 2, Nat.mod_lt _ (by omega)⟩ : Fin 2).val := by simp only; omega
  unfold scalarEntry CSR.entry
  rw [hp, hq, convert_row, entry_newRow]
  show (_ : Blk 6) (idx6 _ _) (idx6 _ _) = _
  have h1 : ∀ r : ℕ, idx6 ⟨r / 3 % 2, Nat.mod_lt _ (by omega)⟩ ⟨r % 3, Nat.mod_lt _ (by omega)⟩ = ⟨r % 6, Nat.mod_lt _ (by omega)⟩ := by
    intro r; apply Fin.ext; simp only [idx6]; omega
  rw [h1, h1]

theorem sum_six (g : Fin 6 → ℝ) : ∑ x, g x = ∑ i, g (idx6 0 i) + ∑ i, g (idx6 1 i) := by
  rw [Fin.sum_univ_six, Fin.sum_univ_three, Fin.sum_univ_three, ← add_assoc, ← add_assoc]
  rfl

theorem foldl_newRow (a : Fin 2) (f : ℕ → ℝ) (ii : Fin 3) (es : List (ℕ × Blk 6)) : ∀ (s : Fin 3 → ℝ) (t : Fin 6 → ℝ),
    s ii = t (idx6 a ii) →
    ((newRow a es).foldl (fun s e => s + e.2 *ᵥ view 3 f e.1) s) ii = (es.foldl (fun s e => s + e.2 *ᵥ view 6 f e.1) t) (idx6 a ii) := by
  induction es with
  | nil => intro s t h; exact h
  | cons e es ih =>
    intro s t h
    have hc : newRow a (e :: es) = (2 * e.1, subBlk e.2 a 0) :: (2 * e.1 + 1, subBlk e.2 a 1) :: newRow a es := rfl
    rw [hc, List.foldl_cons, List.foldl_cons, List.foldl_cons]
    apply ih
    simp only [Pi.add_apply, h, Matrix.mulVec, dotProduct, view, subBlk]
    rw [sum_six, add_assoc]
    congr 1
    have hf : ∀ n m : ℕ, n = m → f n = f m := fun n m h => by rw [h]
    congr 1
    · refine Finset.sum_congr rfl fun i _ => ?_
      rw [hf (3 * (2 * e.1) + i.val) (6 * e.1 + (idx6 0 i).val) (by simp only [idx6, Fin.val_zero]; omega)]
    · refine Finset.sum_congr rfl fun i _ => ?_
      rw [hf (3 * (2 * e.1 + 1) + i.val) (6 * e.1 + (idx6 1 i).val) (by simp only [idx6, Fin.val_one]; omega)]

/-- **C111.** The two matrices multiply the same memory the same way. -/
theorem convert_mult (A : CSR (Blk 6)) (f : ℕ → ℝ) (k : ℕ) (a : Fin 2) (ii : Fin 3) :
    rowTimesVector (convert A) (2 * k + a.val) (view 3 f) ii = rowTimesVector A k (view 6 f) (idx6 a ii) := by
  rw [rowTimesVector, convert_row, rowTimesVector]
  exact foldl_newRow a f ii _ _ _ rfl

/-! ### Free unknowns, distant processes, and the inverse -/

/-- **C111.** Both halves of an unknown are free if and only if it is free. -/
theorem convFree_correct (h : ℕ) (origF : List Bool) (hl : origF.length = h) :
    ∃ f, convFree h origF = some f ∧ f.length = 2 * h ∧ ∀ k, ∀ a : Fin 2, f[2 * k + a.val]? = origF[k]? := by
  suffices H : ∀ n ≤ h, ∃ f, (List.range n).foldlM (fun f k =>
      match origF[k]? with
      | none => none
      | some true => if 2 * k + 1 < f.length then some ((f.set (2 * k) true).set (2 * k + 1) true) else none
      | some false => some f) (List.replicate (2 * h) false) = some f ∧ f.length = 2 * h ∧
      ∀ r < 2 * h, f[r]? = if r < 2 * n then origF[r / 2]? else some false by
    obtain ⟨f, h1, h2, h3⟩ := H h (le_refl _)
    refine ⟨f, h1, h2, fun k a => ?_⟩
    have ha := a.isLt
    by_cases hk : k < h
    · rw [h3 _ (by omega), if_pos (by omega)]
      congr 1; omega
    · rw [List.getElem?_eq_none (by omega), List.getElem?_eq_none (by omega)]
  intro n
  induction n with
  | zero =>
    intro _
    refine ⟨_, rfl, by simp, fun r hr => ?_⟩
    rw [if_neg (by omega), List.getElem?_replicate, if_pos hr]
  | succ n ih =>
    intro hn
    obtain ⟨f, h1, h2, h3⟩ := ih (by omega)
    have hg : origF[n]? = some origF[n] := List.getElem?_eq_getElem (by omega)
    rw [List.range_succ, List.foldlM_append, h1]
    cases hb : origF[n] with
    | true =>
      refine ⟨(f.set (2 * n) true).set (2 * n + 1) true, ?_, by simp [h2], fun r hr => ?_⟩
      · simp [hg, hb, h2]; omega
      · rw [List.getElem?_set, List.getElem?_set]
        by_cases e1 : 2 * n + 1 = r
        · have e0 : r / 2 = n := by omega
          rw [if_pos e1, if_pos (by simp [h2]; omega), if_pos (by omega), e0, hg, hb]
        · rw [if_neg e1]
          by_cases e2 : 2 * n = r
          · have e0 : r / 2 = n := by omega
            rw [if_pos e2, if_pos (by omega), if_pos (by omega), e0, hg, hb]
          · rw [if_neg e2, h3 r hr]
            by_cases e3 : r < 2 * n
            · rw [if_pos e3, if_pos (by omega)]
            · rw [if_neg e3, if_neg (by omega)]
    | false =>
      refine ⟨f, ?_, h2, fun r hr => ?_⟩
      · simp [hg, hb]
      · rw [h3 r hr]
        by_cases e3 : r < 2 * n
        · rw [if_pos e3, if_pos (by omega)]
        · rw [if_neg e3]
          by_cases e4 : r < 2 * (n + 1)
          · have e0 : r / 2 = n := by omega
            rw [if_pos e4, e0, hg, hb]
          · rw [if_neg e4]

/-- **C111.** Both halves of an unknown are known to the distant processes of the unknown. -/
theorem convDps_correct (h : ℕ) (dps : ℕ → List ℕ) :
    (convDps h dps).length = 2 * h ∧ ∀ k < h, ∀ a : Fin 2, (convDps h dps)[2 * k + a.val]? = some (dps k) := by
  refine ⟨by simp [convDps], fun k hk a => ?_⟩
  have ha := a.isLt
  rw [convDps, List.getElem?_map, List.getElem?_range (by omega), Option.map_some]
  congr 1
  have hcase : ∀ j, ((if 2 * j = 2 * k + a.val then dps j else []) ++ (if 2 * j + 1 = 2 * k + a.val then dps j else [])) =
      if j = k then dps k else [] := by
    intro j
    by_cases e : j = k
    · subst e
      rw [if_pos rfl]
      by_cases ha0 : a.val = 0
      · rw [if_pos (by omega), if_neg (by omega), List.append_nil]
      · rw [if_neg (by omega), if_pos (by omega), List.nil_append]
    · rw [if_neg (by omega), if_neg (by omega), if_neg e]; rfl
  simp only [hcase]
  clear hcase
  induction h with
  | zero => omega
  | succ h ih =>
    rw [List.range_succ, List.flatMap_append, List.flatMap_singleton]
    by_cases e : h = k
    · subst e
      rw [if_pos rfl]
      have : ((List.range h).flatMap fun j => if j = h then dps h else []) = [] := by
        rw [List.flatMap_eq_nil_iff]
        intro j hj
        rw [if_neg (by have := List.mem_range.1 hj; omega)]
      rw [this, List.nil_append]
    · rw [if_neg e, List.append_nil]
      exact ih (by omega)

/-- **Specification**: `b` is the inverse of the `n` by `n` matrix `a` on the free unknowns, and zero elsewhere -/
def IsInv (n : ℕ) (a : ℕ → ℕ → ℝ) (free : ℕ → Bool) (b : ℕ → ℕ → ℝ) : Prop :=
  (∀ p q, free p = false ∨ free q = false → b p q = 0) ∧
  ∀ p < n, ∀ q < n, free p = true → free q = true → (∑ r ∈ Finset.range n, a p r * b r q) = if p = q then 1 else 0

/-- **C111.** An inverse of the new matrix on the new free unknowns is an inverse of the old one on the old free unknowns, and the
other way round: in the numbering of the scalar unknowns the two inverses are the same. -/
theorem convert_inverse (A : CSR (Blk 6)) (origF f : List Bool) (hl : origF.length = A.height) (hf : convFree A.height origF = some f)
    (b : ℕ → ℕ → ℝ) :
    IsInv (3 * (convert A).height) (scalarEntry (by omega : 0 < 3) (convert A)) (fun p => f.getD (p / 3) false) b ↔
      IsInv (6 * A.height) (scalarEntry (by omega : 0 < 6) A) (fun p => origF.getD (p / 6) false) b := by
  have e1 : 3 * (convert A).height = 6 * A.height := by
    show 3 * (2 * A.height) = _; omega
  have e2 : (fun p => f.getD (p / 3) false) = fun p => origF.getD (p / 6) false := by
    funext p
    obtain ⟨g, hg, -, h3⟩ := convFree_correct A.height origF hl
    rw [hf] at hg
    have := h3 (p / 6) ⟨p / 3 % 2, Nat.mod_lt _ (by omega)⟩
    rw [← Option.some.inj hg] at this
    have hp : 2 * (p / 6) + p / 3 % 2 = p / 3 := by omega
    simp only [hp] at this
    rw [List.getD_eq_getElem?_getD, List.getD_eq_getElem?_getD, this]
  rw [e1, e2, convert_entries]

/-- the hypotheses are met: a matrix with two unknowns, the second is not free -/
example : convFree 2 [true, false] = some [true, true, false, false] ∧
    (⟨2, 2, fun i => if i = 0 then [(0, 1), (1, 1)] else if i = 1 then [(1, 1)] else []⟩ : CSR (Blk 6)).WF := by
  refine ⟨by decide, ⟨fun i => ?_, fun i e he => ?_, fun i hi => ?_⟩⟩
  · dsimp only; split_ifs <;> simp
  · dsimp only at he ⊢
    split_ifs at he
    · simp only [List.mem_cons, List.not_mem_nil, or_false] at he
      rcases he with rfl | rfl <;> decide
    · simp only [List.mem_cons, List.not_mem_nil, or_false] at he
      rw [he]; decide
    · simp at he
  · have : 2 ≤ i := hi
    dsimp only; rw [if_neg (by omega), if_neg (by omega)]

end NgsAMG.BS3
