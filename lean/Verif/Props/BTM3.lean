import Verif.Model.BTM
import Verif.Props.MergeTable
import Mathlib.Data.Prod.Lex
import Mathlib.Data.List.Sort

/-! C72: the order of the shared edges and the merge with this order. -/

namespace NgsAMG.BTM

section
variable {α β : Type} [DecidableEq α] [LinearOrder β] (lt : α → α → Bool) (f : α → β) (S : α → Prop)
  (hlt : ∀ a b, S a → S b → (lt a b = true ↔ f a < f b)) (hf : ∀ a b, S a → S b → f a = f b → a = b)

include hlt hf in
theorem scanMinBy_map (m : α) (has : List ℕ) (k : ℕ) (rows : List (List α)) (hm : S m) (hr : ∀ r ∈ rows, ∀ x ∈ r, S x) :
    S (scanMinBy lt m has k rows).1 ∧
    Traversal.scanMin (f m) has k (rows.map (List.map f)) = (f (scanMinBy lt m has k rows).1, (scanMinBy lt m has k rows).2) := by
  fun_induction scanMinBy lt m has k rows with
  | case1 m has k => exact ⟨hm, rfl⟩
  | case2 m has k rs ih =>
    simpa [Traversal.scanMin] using ih hm (fun r h => hr r (by simp [h]))
  | case3 has k x tl rs ih =>
    have := ih hm (fun r h => hr r (by simp [h]))
    simpa [Traversal.scanMin] using this
  | case4 m has k x tl rs hne hl ih =>
    have hx : S x := hr _ (List.mem_cons_self) x (by simp)
    have := ih hx (fun r h => hr r (by simp [h]))
    have h1 : f x ≠ f m := fun h => hne (hf _ _ hx hm h)
    have h2 : f x < f m := (hlt _ _ hx hm).mp hl
    simpa [Traversal.scanMin, h1, h2] using this
  | case5 m has k x tl rs hne hl ih =>
    have hx : S x := hr _ (List.mem_cons_self) x (by simp)
    have := ih hm (fun r h => hr r (by simp [h]))
    have h1 : f x ≠ f m := fun h => hne (hf _ _ hx hm h)
    have h2 : ¬ f x < f m := fun h => hl ((hlt _ _ hx hm).mpr h)
    simpa [Traversal.scanMin, h1, h2] using this

omit [DecidableEq α] [LinearOrder β] in
theorem advanceBy_map [LinearOrder β] (has : List ℕ) (k : ℕ) (rows : List (List α)) :
    Traversal.advance has k (rows.map (List.map f)) = ((advanceBy has k rows).1.map (List.map f), (advanceBy has k rows).2) ∧
    (∀ r' ∈ (advanceBy has k rows).1, ∀ x ∈ r', ∃ r ∈ rows, x ∈ r) ∧ (advanceBy has k rows).1.length = rows.length := by
  induction rows generalizing k with
  | nil => simp [Traversal.advance, advanceBy]
  | cons r rs ih =>
    obtain ⟨h1, h2, h3⟩ := ih (k + 1)
    simp only [Traversal.advance, advanceBy, List.map_cons, h1]
    by_cases hk : k ∈ has
    · simp only [hk, if_true]
      refine ⟨?_, ?_, ?_⟩
      · cases r with
        | nil => simp
        | cons a l => cases l <;> simp
      · intro r' hr' x hx
        rcases List.mem_cons.mp hr' with rfl | hr'
        · exact ⟨r, by simp, List.mem_of_mem_tail hx⟩
        · obtain ⟨r0, h0, h0'⟩ := h2 r' hr' x hx
          exact ⟨r0, by simp [h0], h0'⟩
      · simp [h3]
    · simp only [hk, if_false]
      refine ⟨by simp, ?_, by simp [h3]⟩
      intro r' hr' x hx
      rcases List.mem_cons.mp hr' with rfl | hr'
      · exact ⟨r', by simp, hx⟩
      · obtain ⟨r0, h0, h0'⟩ := h2 r' hr' x hx
        exact ⟨r0, by simp [h0], h0'⟩

omit [DecidableEq α] [LinearOrder β] in
theorem firstHeadBy_map [LinearOrder β] (rows : List (List α)) :
    Traversal.firstHead (rows.map (List.map f)) = (firstHeadBy rows).map f ∧ ∀ x, firstHeadBy rows = some x → ∃ r ∈ rows, x ∈ r := by
  fun_induction firstHeadBy rows with
  | case1 => simp [Traversal.firstHead]
  | case2 rs ih =>
    refine ⟨by simpa [Traversal.firstHead] using ih.1, ?_⟩
    intro x hx
    obtain ⟨r, h1, h2⟩ := ih.2 x hx
    exact ⟨r, by simp [h1], h2⟩
  | case3 x tl rs =>
    refine ⟨by simp [Traversal.firstHead], ?_⟩
    intro y hy
    cases hy
    exact ⟨_, List.mem_cons_self, by simp⟩

include hlt hf in
theorem mergeLoopBy_map (fuel : ℕ) (rows : List (List α)) (nd : ℕ) (m : α) (hm : S m) (hr : ∀ r ∈ rows, ∀ x ∈ r, S x) :
    Traversal.mergeLoop fuel (rows.map (List.map f)) nd (f m) = (mergeLoopBy lt fuel rows nd m).map (List.map f) ∧
    ∀ out, mergeLoopBy lt fuel rows nd m = some out → ∀ x ∈ out, S x := by
  induction fuel generalizing rows nd m with
  | zero =>
    unfold Traversal.mergeLoop mergeLoopBy
    rw [List.length_map]
    split <;> simp
  | succ fuel ih =>
    unfold Traversal.mergeLoop mergeLoopBy
    rw [List.length_map]
    split
    · obtain ⟨s1, s2⟩ := scanMinBy_map lt f S hlt hf m [] 0 rows hm hr
      obtain ⟨a1, a2, -⟩ := advanceBy_map f (scanMinBy lt m [] 0 rows).2 0 rows
      have hr' : ∀ r ∈ (advanceBy (scanMinBy lt m [] 0 rows).2 0 rows).1, ∀ x ∈ r, S x := by
        intro r h x hx
        obtain ⟨r0, h0, h0'⟩ := a2 r h x hx
        exact hr r0 h0 x h0'
      obtain ⟨f1, f2⟩ := firstHeadBy_map f (advanceBy (scanMinBy lt m [] 0 rows).2 0 rows).1
      have hm' : S ((firstHeadBy (advanceBy (scanMinBy lt m [] 0 rows).2 0 rows).1).getD (scanMinBy lt m [] 0 rows).1) := by
        rcases hh : firstHeadBy (advanceBy (scanMinBy lt m [] 0 rows).2 0 rows).1 with _ | x
        · exact s1
        · obtain ⟨r0, h0, h0'⟩ := f2 x hh
          exact hr' r0 h0 x h0'
      have hmm : (Option.map f (firstHeadBy (advanceBy (scanMinBy lt m [] 0 rows).2 0 rows).1)).getD (f (scanMinBy lt m [] 0 rows).1) =
          f ((firstHeadBy (advanceBy (scanMinBy lt m [] 0 rows).2 0 rows).1).getD (scanMinBy lt m [] 0 rows).1) := by
        cases firstHeadBy (advanceBy (scanMinBy lt m [] 0 rows).2 0 rows).1 <;> rfl
      obtain ⟨i1, i2⟩ := ih _ (nd + (advanceBy (scanMinBy lt m [] 0 rows).2 0 rows).2) _ hm' hr'
      simp only [s2, a1, f1, hmm, i1]
      constructor
      · rw [Option.map_map, Option.map_map]; rfl
      · intro out ho x hx
        rw [Option.map_eq_some_iff] at ho
        obtain ⟨o, ho1, rfl⟩ := ho
        rcases List.mem_cons.mp hx with rfl | hx
        · exact s1
        · exact i2 o ho1 x hx
    · simp

include hlt hf in
/-- the merge of sorted rows with a comparison -/
theorem mergeBy_correct (rows : List (List α)) (hr : ∀ r ∈ rows, ∀ x ∈ r, S x) (hs : ∀ r ∈ rows, r.Pairwise fun a b => lt a b = true) :
    ∃ out, mergeBy lt rows = some out ∧ (out.Pairwise fun a b => lt a b = true) ∧ ∀ x, x ∈ out ↔ ∃ r ∈ rows, x ∈ r := by
  have hs' : ∀ r ∈ rows.map (List.map f), r.Pairwise (· < ·) := by
    intro r h
    obtain ⟨r0, h0, rfl⟩ := List.mem_map.mp h
    rw [List.pairwise_map]
    refine (hs r0 h0).imp_of_mem ?_
    intro a b ha hb hab
    exact (hlt _ _ (hr r0 h0 a ha) (hr r0 h0 b hb)).mp hab
  have hfuel : ((rows.map (List.map f)).map List.length).sum = (rows.map List.length).sum := by
    rw [List.map_map]; congr 1; apply List.map_congr_left; intro r _; simp
  obtain ⟨out, o1, o2, o3⟩ := Traversal.mergeTable_correct (rows.map (List.map f)) hs' (rows.map List.length).sum hfuel.le
  have hcnt : (rows.map (List.map f)).countP List.isEmpty = rows.countP List.isEmpty := by
    rw [List.countP_map]; apply List.countP_congr; intro r _; simp
  obtain ⟨f1, f2⟩ := firstHeadBy_map f rows
  have hmain : ∃ o, mergeBy lt rows = some o ∧ out = o.map f ∧ ∀ x ∈ o, S x := by
    unfold mergeBy
    unfold Traversal.mergeTable at o1
    rw [f1] at o1
    rcases hh : firstHeadBy rows with _ | x
    · rw [hh] at o1
      simp only [Option.map_none, Option.some.injEq] at o1
      exact ⟨[], rfl, by rw [← o1]; rfl, by simp⟩
    · rw [hh] at o1
      obtain ⟨r0, h0, h0'⟩ := f2 x hh
      obtain ⟨i1, i2⟩ := mergeLoopBy_map lt f S hlt hf (rows.map List.length).sum rows (rows.countP List.isEmpty) x (hr r0 h0 x h0') hr
      simp only [Option.map_some, hcnt, i1] at o1
      rw [Option.map_eq_some_iff] at o1
      obtain ⟨o, ho, rfl⟩ := o1
      exact ⟨o, ho, rfl, i2 o ho⟩
  obtain ⟨o, h1, rfl, h3⟩ := hmain
  refine ⟨o, h1, ?_, ?_⟩
  · rw [List.pairwise_map] at o2
    refine o2.imp_of_mem ?_
    intro a b ha hb hab
    exact (hlt _ _ (h3 a ha) (h3 b hb)).mpr hab
  · intro x
    constructor
    · intro hx
      obtain ⟨r, hr', hxr⟩ := (o3 (f x)).mp (List.mem_map_of_mem hx)
      obtain ⟨r0, h0, rfl⟩ := List.mem_map.mp hr'
      obtain ⟨y, hy, hyx⟩ := List.mem_map.mp hxr
      have := hf _ _ (hr r0 h0 y hy) (h3 x hx) hyx
      exact ⟨r0, h0, this ▸ hy⟩
    · rintro ⟨r, hr', hxr⟩
      obtain ⟨y, hy, hyx⟩ := List.mem_map.mp ((o3 (f x)).mpr ⟨r.map f, List.mem_map_of_mem hr', List.mem_map_of_mem hxr⟩)
      have := hf _ _ (h3 y hy) (hr r hr' x hxr) hyx
      exact this ▸ hy

end

/-- the order of the shared edges -/
def ckey (c : CNode) : ℕ ×ₗ ℕ ×ₗ ℕ ×ₗ ℕ ×ₗ ℕ :=
  if c.e0 = c.e1 then toLex (0, toLex (0, toLex (0, toLex (c.v0, c.v1))))
  else toLex (1, toLex (c.e0, toLex (c.e1, toLex (c.v0, c.v1))))

theorem smaller_iff (a b : CNode) : smaller a b = true ↔ ckey a < ckey b := by
  obtain ⟨a0, a1, av, aw⟩ := a
  obtain ⟨b0, b1, bv, bw⟩ := b
  unfold smaller ckey pairLt
  by_cases ha : a0 = a1 <;> by_cases hb : b0 = b1 <;>
    simp only [ha, hb, Prod.Lex.toLex_lt_toLex, beq_self_eq_true, Bool.not_true, Bool.and_false, Bool.and_true, if_true, if_false,
      Bool.false_eq_true, Bool.or_eq_true, decide_eq_true_eq, Bool.and_eq_true, beq_iff_eq, Bool.not_eq_true', beq_eq_false_iff_ne,
      ne_eq, not_false_eq_true, Bool.true_and, lt_self_iff_false, true_and, false_or, and_true, not_true_eq_false, false_and, and_false] <;>
    (try omega)
  all_goals first | omega | (simp; done) | (split_ifs <;> simp <;> omega)

/-- the edges of one row of the table: those within a class belong to the same class -/
def InRow (id : ℕ) (c : CNode) : Prop := c.e0 = c.e1 → c.e0 = id

theorem ckey_inj {id : ℕ} {a b : CNode} (ha : InRow id a) (hb : InRow id b) (h : ckey a = ckey b) : a = b := by
  obtain ⟨a0, a1, av, aw⟩ := a
  obtain ⟨b0, b1, bv, bw⟩ := b
  unfold InRow at *
  unfold ckey at h
  simp only at *
  by_cases h1 : a0 = a1 <;> by_cases h2 : b0 = b1 <;> simp [h1, h2, toLex_inj, Prod.ext_iff] at h ha hb ⊢ <;> omega

/-- sorted rows without duplicates are strictly sorted -/
theorem sort_strict {id : ℕ} (l : List CNode) (hl : ∀ c ∈ l, InRow id c) (hn : l.Nodup) :
    (l.insertionSort fun a b => smaller b a = false).Pairwise fun a b => smaller a b = true := by
  have : Std.Total fun a b : CNode => smaller b a = false := ⟨by
    intro a b
    by_contra h
    push Not at h
    have h1 := (smaller_iff b a).mp (by simpa using h.1)
    have h2 := (smaller_iff a b).mp (by simpa using h.2)
    exact absurd h1 h2.asymm⟩
  have : IsTrans CNode fun a b : CNode => smaller b a = false := ⟨by
    intro a b c h1 h2
    have e1 : ¬ ckey b < ckey a := fun h => by rw [(smaller_iff b a).mpr h] at h1; cases h1
    have e2 : ¬ ckey c < ckey b := fun h => by rw [(smaller_iff c b).mpr h] at h2; cases h2
    rw [← Bool.not_eq_true, smaller_iff, not_lt]
    exact (not_lt.mp e1).trans (not_lt.mp e2)⟩
  have hp := List.perm_insertionSort (fun a b : CNode => smaller b a = false) l
  have h1 := List.pairwise_insertionSort (fun a b : CNode => smaller b a = false) l
  have h2 := (hp.nodup_iff.mpr hn)
  refine (h1.and h2).imp_of_mem ?_
  intro a b ha hb hab
  rw [smaller_iff]
  have e1 : ¬ ckey b < ckey a := fun h => by rw [(smaller_iff b a).mpr h] at hab; simp at hab
  refine lt_of_le_of_ne (not_lt.mp e1) ?_
  intro h
  exact hab.2 (ckey_inj (hl a (hp.mem_iff.mp ha)) (hl b (hp.mem_iff.mp hb)) h)

/-- two strictly sorted rows with the same entries are equal -/
theorem row_ext {a b : List CNode} (ha : a.Pairwise fun x y => smaller x y = true) (hb : b.Pairwise fun x y => smaller x y = true)
    (h : ∀ c, c ∈ a ↔ c ∈ b) : a = b := by
  have hirr : ∀ {x y : CNode}, smaller x y = true → x ≠ y := by
    rintro x y h rfl
    exact absurd ((smaller_iff x x).mp h) (lt_irrefl _)
  have hp : a.Perm b := (List.perm_ext_iff_of_nodup (ha.imp hirr) (hb.imp hirr)).mpr h
  refine hp.eq_of_pairwise (fun x y _ _ h1 h2 => ?_) ha hb
  exact absurd ((smaller_iff x y).mp h1) ((smaller_iff y x).mp h2).asymm

end NgsAMG.BTM
