import Verif.Model.GSBlocks
import Verif.Props.SortedArray
import Mathlib.Data.List.Basic
import Mathlib.Tactic.Common

/-!
C110, part 1: the tables, and the blocks of the loops (`StokesMesh::LoopBlocks`).
-/

namespace NgsAMG.GSB

/-- `x` is in the row `i` of the table -/
def InBlock (T : List (List ℕ)) (i x : ℕ) : Prop := ∃ r, T[i]? = some r ∧ x ∈ r

/-! ### Tables -/

theorem foldl_max_ge (l : List (ℕ × ℕ)) (m : ℕ) : m ≤ l.foldl (fun m e => max m (e.1 + 1)) m := by
  induction l generalizing m with
  | nil => exact le_refl _
  | cons e l ih => exact le_trans (le_max_left _ _) (ih _)

theorem foldl_max_lt (l : List (ℕ × ℕ)) (m : ℕ) {e : ℕ × ℕ} (he : e ∈ l) :
    e.1 < l.foldl (fun m e => max m (e.1 + 1)) m := by
  induction l generalizing m with
  | nil => simp at he
  | cons d l ih =>
    rcases List.mem_cons.1 he with rfl | h
    · exact lt_of_lt_of_le (Nat.lt_succ_self _) (le_trans (le_max_right _ _) (foldl_max_ge l _))
    · exact ih _ h

theorem foldl_max_le (l : List (ℕ × ℕ)) (m n : ℕ) (hm : m ≤ n) (h : ∀ e ∈ l, e.1 < n) :
    l.foldl (fun m e => max m (e.1 + 1)) m ≤ n := by
  induction l generalizing m with
  | nil => exact hm
  | cons d l ih =>
    exact ih _ (max_le hm (h d (by simp))) fun e he => h e (by simp [he])

/-- the table has `n` rows, if all rows below `n` are used and no other is -/
theorem mkTable_length {l : List (ℕ × ℕ)} {n : ℕ} (h : ∀ e ∈ l, e.1 < n) (hc : ∀ i < n, ∃ x, (i, x) ∈ l) :
    (mkTable l).length = n := by
  rw [mkTable, List.length_map, List.length_range]
  apply le_antisymm (foldl_max_le l 0 n (Nat.zero_le _) h)
  rcases Nat.eq_zero_or_pos n with rfl | hn
  · exact Nat.zero_le _
  · obtain ⟨x, hx⟩ := hc (n - 1) (by omega)
    have := foldl_max_lt l 0 hx
    simp only at this; omega

theorem mkTable_row {l : List (ℕ × ℕ)} {i : ℕ} {r : List ℕ} (h : (mkTable l)[i]? = some r) :
    r = (l.filter fun e => e.1 = i).map Prod.snd := by
  rw [mkTable, List.getElem?_map, Option.map_eq_some_iff] at h
  obtain ⟨j, hj, rfl⟩ := h
  have hlt := (List.getElem?_eq_some_iff.1 hj).1
  rw [List.getElem?_range (by simpa using hlt)] at hj
  obtain rfl := Option.some.inj hj
  rfl

theorem mem_row {l : List (ℕ × ℕ)} {i x : ℕ} : x ∈ (l.filter fun e => e.1 = i).map Prod.snd ↔ (i, x) ∈ l := by
  rw [List.mem_map]
  constructor
  · rintro ⟨e, he, rfl⟩
    rw [List.mem_filter] at he
    have : e.1 = i := by simpa using he.2
    rw [← this]; exact he.1
  · intro h
    exact ⟨(i, x), List.mem_filter.2 ⟨h, by simp⟩, rfl⟩

theorem inBlock_mkTable {l : List (ℕ × ℕ)} {i x : ℕ} : InBlock (mkTable l) i x ↔ (i, x) ∈ l := by
  constructor
  · rintro ⟨r, hr, hx⟩
    rw [mkTable_row hr] at hx
    exact mem_row.1 hx
  · intro h
    have hlt := foldl_max_lt l 0 h
    refine ⟨(l.filter fun e => e.1 = i).map Prod.snd, ?_, mem_row.2 h⟩
    rw [mkTable, List.getElem?_map, List.getElem?_range hlt]; rfl

theorem row_pairwise {l : List (ℕ × ℕ)} (h : l.Pairwise fun p q => p.1 = q.1 → p.2 < q.2) (i : ℕ) :
    ((l.filter fun e => e.1 = i).map Prod.snd).Pairwise (· < ·) := by
  rw [List.pairwise_map]
  have h' := (h.sublist (List.filter_sublist (p := fun e : ℕ × ℕ => decide (e.1 = i)) (l := l)))
  refine List.Pairwise.imp_of_mem (fun {p q} hp hq hpq => ?_) h'
  rw [List.mem_filter] at hp hq
  have e1 : p.1 = i := by simpa using hp.2
  have e2 : q.1 = i := by simpa using hq.2
  exact hpq (e1.trans e2.symm)

/-! ### The coarse edges of a loop -/

/-- **Specification**: the coarse edge `c` is a coarse edge of the loop, one of its fine edges is mapped to `c` -/
def CoarseOf (emap : List (Option ℕ)) (floop : List ℤ) (c : ℕ) : Prop := ∃ s ∈ floop, emap[s.natAbs - 1]? = some (some c)

theorem collectStep_correct (emap : List (Option ℕ)) (u : List ℕ) (s : ℤ) (hu : u.Pairwise (· < ·)) (h0 : s ≠ 0)
    (hs : s.natAbs - 1 < emap.length) :
    ∃ v, collectStep emap u s = some v ∧ v.Pairwise (· < ·) ∧
      ∀ c, c ∈ v ↔ c ∈ u ∨ emap[s.natAbs - 1]? = some (some c) := by
  have hg : emap[s.natAbs - 1]? = some emap[s.natAbs - 1] := List.getElem?_eq_getElem hs
  rw [collectStep, if_neg h0, hg]
  cases hc : emap[s.natAbs - 1] with
  | none => exact ⟨u, rfl, hu, fun c => by simp⟩
  | some c =>
    obtain ⟨n, p, b, h, hb, hm, -, -⟩ := SortedArray.insertUnique_correct c u hu
    refine ⟨b, ?_, hb, fun d => ?_⟩
    · simp only
      unfold SortedArray.insertUnique at h
      cases hp : SortedArray.mergePos c u with
      | none => simp [hp] at h
      | some r =>
        cases r with
        | sentinel => simp [hp] at h
        | pos q =>
          rw [hp] at h
          simp only at h ⊢
          by_cases hq : 0 < q
          · rw [if_pos hq] at h ⊢
            cases hv : u[q - 1]? with
            | none => rw [hv] at h; simp at h
            | some v =>
              rw [hv] at h
              simp only at h ⊢
              by_cases hvc : v = c
              · rw [if_pos hvc] at h ⊢
                simp only [Option.some.injEq, Prod.mk.injEq] at h
                rw [h.2.2]
              · rw [if_neg hvc] at h ⊢
                rw [Option.map_eq_some_iff] at h
                obtain ⟨w, hw, e⟩ := h
                simp only [Prod.mk.injEq] at e
                rw [hw, e.2.2]
          · rw [if_neg hq] at h ⊢
            rw [Option.map_eq_some_iff] at h
            obtain ⟨w, hw, e⟩ := h
            simp only [Prod.mk.injEq] at e
            rw [hw, e.2.2]
    · rw [hm]
      simp only [Option.some.injEq]
      constructor
      · rintro (rfl | h)
        · exact Or.inr rfl
        · exact Or.inl h
      · rintro (h | rfl)
        · exact Or.inr h
        · exact Or.inl rfl

theorem collect_correct (emap : List (Option ℕ)) (floop : List ℤ)
    (h : ∀ s ∈ floop, s ≠ 0 ∧ s.natAbs - 1 < emap.length) :
    ∃ u, collect emap floop = some u ∧ u.Pairwise (· < ·) ∧ ∀ c, c ∈ u ↔ CoarseOf emap floop c := by
  suffices H : ∀ (u : List ℕ), u.Pairwise (· < ·) → ∃ v, floop.foldlM (collectStep emap) u = some v ∧
      v.Pairwise (· < ·) ∧ ∀ c, c ∈ v ↔ c ∈ u ∨ CoarseOf emap floop c by
    obtain ⟨v, h1, h2, h3⟩ := H [] List.Pairwise.nil
    exact ⟨v, h1, h2, fun c => by rw [h3]; simp⟩
  induction floop with
  | nil => intro u hu; exact ⟨u, rfl, hu, fun c => by simp [CoarseOf]⟩
  | cons s l ih =>
    intro u hu
    obtain ⟨v, h1, h2, h3⟩ := collectStep_correct emap u s hu (h s (by simp)).1 (h s (by simp)).2
    obtain ⟨w, h4, h5, h6⟩ := ih (fun t ht => h t (by simp [ht])) v h2
    refine ⟨w, ?_, h5, fun c => ?_⟩
    · rw [List.foldlM_cons, h1]; exact h4
    · rw [h6, h3]
      simp only [CoarseOf, List.mem_cons, exists_eq_or_imp]
      exact or_assoc

/-! ### The invariant -/

/-- `P c f`: loop `f` was added for the coarse edge `c`; `A f`: loop `f` was added alone -/
structure Inv (P : ℕ → ℕ → Prop) (A : ℕ → Prop) (S : St) : Prop where
  lt : ∀ {c b}, S.ce2b c = some b → b < S.cnt
  inj : ∀ {c d b}, S.ce2b c = some b → S.ce2b d = some b → c = d
  used : ∀ {c b}, S.ce2b c = some b → ∃ f, P c f
  addLt : ∀ e ∈ S.adds, e.1 < S.cnt
  why : ∀ e ∈ S.adds, (∃ c, P c e.2 ∧ S.ce2b c = some e.1) ∨
    (A e.2 ∧ (∀ c, S.ce2b c ≠ some e.1) ∧ ∀ g, (e.1, g) ∈ S.adds → g = e.2)
  edge : ∀ {c f}, P c f → ∃ b, S.ce2b c = some b ∧ (b, f) ∈ S.adds
  single : ∀ {f}, A f → ∃ i, (i, f) ∈ S.adds ∧ (∀ c, S.ce2b c ≠ some i) ∧ ∀ j, (j, f) ∈ S.adds → j = i
  sorted : S.adds.Pairwise fun p q => p.1 = q.1 → p.2 < q.2
  full : ∀ i < S.cnt, ∃ f, (i, f) ∈ S.adds
  disj : ∀ {c f}, P c f → ¬ A f

theorem Inv.congr {P Q : ℕ → ℕ → Prop} {A B : ℕ → Prop} {S : St} (h : Inv P A S) (h1 : ∀ c f, P c f ↔ Q c f)
    (h2 : ∀ f, A f ↔ B f) : Inv Q B S := by
  have e1 : P = Q := by funext c f; exact propext (h1 c f)
  have e2 : A = B := by funext f; exact propext (h2 f)
  rw [← e1, ← e2]; exact h

theorem Inv.alone {P : ℕ → ℕ → Prop} {A : ℕ → Prop} {S : St} (h : Inv P A S) {f : ℕ} (hf : ∀ e ∈ S.adds, e.2 < f)
    (hP : ∀ c g, P c g → g < f) (hA : ∀ g, A g → g < f) : Inv P (fun g => A g ∨ g = f) (alone f S) := by
  have hnew : ∀ c, S.ce2b c ≠ some S.cnt := fun c hc => absurd (h.lt hc) (lt_irrefl _)
  refine ⟨fun hc => Nat.lt_succ_of_lt (h.lt hc), h.inj, h.used, ?_, ?_, ?_, ?_, ?_, ?_, ?_⟩
  · intro e he
    rcases List.mem_append.1 he with he | he
    · exact Nat.lt_succ_of_lt (h.addLt e he)
    · rw [List.mem_singleton.1 he]; exact Nat.lt_succ_self _
  · intro e he
    rcases List.mem_append.1 he with he | he
    · rcases h.why e he with hw | ⟨ha, hn, hu⟩
      · exact Or.inl hw
      · refine Or.inr ⟨Or.inl ha, hn, fun g hg => ?_⟩
        rcases List.mem_append.1 hg with hg | hg
        · exact hu g hg
        · have := congrArg Prod.fst (List.mem_singleton.1 hg)
          simp only at this
          exact absurd (h.addLt e he) (by omega)
    · obtain rfl := List.mem_singleton.1 he
      refine Or.inr ⟨Or.inr rfl, hnew, fun g hg => ?_⟩
      rcases List.mem_append.1 hg with hg | hg
      · exact absurd (h.addLt _ hg) (lt_irrefl _)
      · exact congrArg Prod.snd (List.mem_singleton.1 hg)
  · intro c g hg
    obtain ⟨b, hb, hm⟩ := h.edge hg
    exact ⟨b, hb, List.mem_append_left _ hm⟩
  · rintro g (hg | rfl)
    · obtain ⟨i, hi, hn, hu⟩ := h.single hg
      refine ⟨i, List.mem_append_left _ hi, hn, fun j hj => ?_⟩
      rcases List.mem_append.1 hj with hj | hj
      · exact hu j hj
      · have := congrArg Prod.snd (List.mem_singleton.1 hj)
        simp only at this
        have := hA g hg
        omega
    · refine ⟨S.cnt, List.mem_append_right _ (by simp), hnew, fun j hj => ?_⟩
      rcases List.mem_append.1 hj with hj | hj
      · exact absurd (hf _ hj) (lt_irrefl _)
      · exact congrArg Prod.fst (List.mem_singleton.1 hj)
  · refine List.pairwise_append.2 ⟨h.sorted, List.pairwise_singleton _ _, fun p hp q hq hpq => ?_⟩
    obtain rfl := List.mem_singleton.1 hq
    exact hf p hp
  · intro i hi
    rcases Nat.lt_succ_iff_lt_or_eq.1 hi with hi | rfl
    · obtain ⟨g, hg⟩ := h.full i hi
      exact ⟨g, List.mem_append_left _ hg⟩
    · exact ⟨f, List.mem_append_right _ (by simp)⟩
  · rintro c g hg (ha | rfl)
    · exact h.disj hg ha
    · exact absurd (hP c g hg) (lt_irrefl _)

theorem Inv.assign {P : ℕ → ℕ → Prop} {A : ℕ → Prop} {S : St} (h : Inv P A S) {f c : ℕ} (hf : ∀ e ∈ S.adds, e.2 ≤ f)
    (hA : ∀ g, A g → g < f) (hc : ¬ P c f) : Inv (fun d g => P d g ∨ (d = c ∧ g = f)) A (assign f S c) := by
  have hAf : ¬ A f := fun ha => absurd (hA f ha) (lt_irrefl _)
  unfold GSB.assign
  cases hcb : S.ce2b c with
  | none =>
    have hne : ∀ {d b}, S.ce2b d = some b → d ≠ c := by
      rintro d b hd rfl; rw [hcb] at hd; simp at hd
    have hup : ∀ {d b}, Function.update S.ce2b c (some S.cnt) d = some b → (d = c ∧ b = S.cnt) ∨ (d ≠ c ∧ S.ce2b d = some b) := by
      intro d b hd
      by_cases hdc : d = c
      · subst hdc; rw [Function.update_self] at hd
        exact Or.inl ⟨rfl, (Option.some.inj hd).symm⟩
      · rw [Function.update_of_ne hdc] at hd; exact Or.inr ⟨hdc, hd⟩
    have hkeep : ∀ {d b}, S.ce2b d = some b → Function.update S.ce2b c (some S.cnt) d = some b := by
      intro d b hd; rw [Function.update_of_ne (hne hd)]; exact hd
    refine ⟨?_, ?_, ?_, ?_, ?_, ?_, ?_, ?_, ?_, ?_⟩
    · intro d b hd
      rcases hup hd with ⟨-, rfl⟩ | ⟨-, hd⟩
      · exact Nat.lt_succ_self _
      · exact Nat.lt_succ_of_lt (h.lt hd)
    · intro d e b hd he
      rcases hup hd with ⟨h1, h2⟩ | ⟨-, h1⟩ <;> rcases hup he with ⟨h3, h4⟩ | ⟨-, h3⟩
      · exact h1.trans h3.symm
      · rw [h2] at h3; exact absurd (h.lt h3) (lt_irrefl _)
      · rw [h4] at h1; exact absurd (h.lt h1) (lt_irrefl _)
      · exact h.inj h1 h3
    · intro d b hd
      rcases hup hd with ⟨rfl, rfl⟩ | ⟨-, hd⟩
      · exact ⟨f, Or.inr ⟨rfl, rfl⟩⟩
      · obtain ⟨g, hg⟩ := h.used hd; exact ⟨g, Or.inl hg⟩
    · intro e he
      rcases List.mem_append.1 he with he | he
      · exact Nat.lt_succ_of_lt (h.addLt e he)
      · rw [List.mem_singleton.1 he]; exact Nat.lt_succ_self _
    · intro e he
      rcases List.mem_append.1 he with he | he
      · have hlt := h.addLt e he
        rcases h.why e he with ⟨d, hd, hb⟩ | ⟨ha, hn, hu⟩
        · exact Or.inl ⟨d, Or.inl hd, hkeep hb⟩
        · refine Or.inr ⟨ha, fun d hd => ?_, fun g hg => ?_⟩
          · rcases hup hd with ⟨-, hb⟩ | ⟨-, hd⟩
            · omega
            · exact hn d hd
          · rcases List.mem_append.1 hg with hg | hg
            · exact hu g hg
            · have := congrArg Prod.fst (List.mem_singleton.1 hg)
              simp only at this; omega
      · obtain rfl := List.mem_singleton.1 he
        exact Or.inl ⟨c, Or.inr ⟨rfl, rfl⟩, Function.update_self ..⟩
    · rintro d g (hd | ⟨rfl, rfl⟩)
      · obtain ⟨b, hb, hm⟩ := h.edge hd
        exact ⟨b, hkeep hb, List.mem_append_left _ hm⟩
      · exact ⟨S.cnt, Function.update_self .., List.mem_append_right _ (by simp)⟩
    · intro g hg
      obtain ⟨i, hi, hn, hu⟩ := h.single hg
      refine ⟨i, List.mem_append_left _ hi, fun d hd => ?_, fun j hj => ?_⟩
      · rcases hup hd with ⟨-, rfl⟩ | ⟨-, hd⟩
        · exact absurd (h.addLt _ hi) (lt_irrefl _)
        · exact hn d hd
      · rcases List.mem_append.1 hj with hj | hj
        · exact hu j hj
        · have := congrArg Prod.snd (List.mem_singleton.1 hj)
          simp only at this
          have := hA g hg
          omega
    · refine List.pairwise_append.2 ⟨h.sorted, List.pairwise_singleton _ _, fun p hp q hq hpq => ?_⟩
      obtain rfl := List.mem_singleton.1 hq
      have := h.addLt p hp
      simp only at hpq; omega
    · intro i hi
      rcases Nat.lt_succ_iff_lt_or_eq.1 hi with hi | rfl
      · obtain ⟨g, hg⟩ := h.full i hi
        exact ⟨g, List.mem_append_left _ hg⟩
      · exact ⟨f, List.mem_append_right _ (by simp)⟩
    · rintro d g (hd | ⟨rfl, rfl⟩)
      · exact h.disj hd
      · exact hAf
  | some b =>
    have hbf : ∀ e ∈ S.adds, e.1 = b → e.2 ≠ f := by
      rintro e he rfl rfl
      rcases h.why e he with ⟨d, hd, hb⟩ | ⟨-, hn, -⟩
      · rw [h.inj hb hcb] at hd; exact hc hd
      · exact hn c hcb
    refine ⟨h.lt, h.inj, ?_, ?_, ?_, ?_, ?_, ?_, ?_, ?_⟩
    · intro d b hd; obtain ⟨g, hg⟩ := h.used hd; exact ⟨g, Or.inl hg⟩
    · intro e he
      rcases List.mem_append.1 he with he | he
      · exact h.addLt e he
      · rw [List.mem_singleton.1 he]; exact h.lt hcb
    · intro e he
      rcases List.mem_append.1 he with he | he
      · rcases h.why e he with ⟨d, hd, hb⟩ | ⟨ha, hn, hu⟩
        · exact Or.inl ⟨d, Or.inl hd, hb⟩
        · refine Or.inr ⟨ha, hn, fun g hg => ?_⟩
          rcases List.mem_append.1 hg with hg | hg
          · exact hu g hg
          · have := congrArg Prod.fst (List.mem_singleton.1 hg)
            simp only at this
            rw [this] at hn
            exact absurd hcb (hn c)
      · obtain rfl := List.mem_singleton.1 he
        exact Or.inl ⟨c, Or.inr ⟨rfl, rfl⟩, hcb⟩
    · rintro d g (hd | ⟨rfl, rfl⟩)
      · obtain ⟨b, hb, hm⟩ := h.edge hd
        exact ⟨b, hb, List.mem_append_left _ hm⟩
      · exact ⟨b, hcb, List.mem_append_right _ (by simp)⟩
    · intro g hg
      obtain ⟨i, hi, hn, hu⟩ := h.single hg
      refine ⟨i, List.mem_append_left _ hi, hn, fun j hj => ?_⟩
      rcases List.mem_append.1 hj with hj | hj
      · exact hu j hj
      · have := congrArg Prod.snd (List.mem_singleton.1 hj)
        simp only at this
        have := hA g hg
        omega
    · refine List.pairwise_append.2 ⟨h.sorted, List.pairwise_singleton _ _, fun p hp q hq hpq => ?_⟩
      obtain rfl := List.mem_singleton.1 hq
      exact lt_of_le_of_ne (hf p hp) (hbf p hp hpq)
    · intro i hi
      obtain ⟨g, hg⟩ := h.full i hi
      exact ⟨g, List.mem_append_left _ hg⟩
    · rintro d g (hd | ⟨rfl, rfl⟩)
      · exact h.disj hd
      · exact hAf

theorem assign_adds_le {S : St} {f c : ℕ} (hf : ∀ e ∈ S.adds, e.2 ≤ f) : ∀ e ∈ (assign f S c).adds, e.2 ≤ f := by
  intro e he
  unfold assign at he
  cases hcb : S.ce2b c with
  | none =>
    rw [hcb] at he
    rcases List.mem_append.1 he with he | he
    · exact hf e he
    · rw [List.mem_singleton.1 he]
  | some b =>
    rw [hcb] at he
    rcases List.mem_append.1 he with he | he
    · exact hf e he
    · rw [List.mem_singleton.1 he]

theorem Inv.foldl {A : ℕ → Prop} {f : ℕ} (hA : ∀ g, A g → g < f) (u : List ℕ) :
    ∀ {P : ℕ → ℕ → Prop} {S : St}, Inv P A S → (∀ e ∈ S.adds, e.2 ≤ f) → u.Nodup → (∀ c ∈ u, ¬ P c f) →
      Inv (fun d g => P d g ∨ (d ∈ u ∧ g = f)) A (u.foldl (GSB.assign f) S) ∧
        ∀ e ∈ (u.foldl (GSB.assign f) S).adds, e.2 ≤ f := by
  induction u with
  | nil => intro P S h hf _ _; exact ⟨h.congr (fun d g => by simp) fun _ => Iff.rfl, hf⟩
  | cons c u ih =>
    intro P S h hf hu hP
    have h1 := h.assign hf hA (hP c (by simp))
    rw [List.nodup_cons] at hu
    obtain ⟨h2, h3⟩ := ih h1 (assign_adds_le hf) hu.2 (by
      rintro d hd (hp | ⟨rfl, -⟩)
      · exact hP d (by simp [hd]) hp
      · exact hu.1 hd)
    refine ⟨h2.congr (fun d g => ?_) fun _ => Iff.rfl, h3⟩
    simp only [List.mem_cons]
    tauto

end NgsAMG.GSB
