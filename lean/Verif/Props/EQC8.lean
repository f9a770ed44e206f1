import Verif.Props.EQC7
import Mathlib.Tactic.IntervalCases

/-!
# Properties of the equivalence-class hierarchy, part 8: the constructor from members of the classes (C60)
-/

namespace NgsAMG.EQC

open NgsAMG.Exch NgsAMG.DCC

theorem addRep_mem (R : List (List ℕ)) (d c : List ℕ) : c ∈ addRep R d ↔ c ∈ R ∨ (c = d ∧ d ≠ []) := by
  unfold addRep
  by_cases h : d = []
  · simp [h]
  · rw [if_neg h]
    by_cases hc : R.contains d = true
    · rw [if_pos hc]
      have : d ∈ R := by simpa using hc
      constructor
      · exact Or.inl
      · rintro (h' | ⟨rfl, -⟩)
        · exact h'
        · exact this
    · rw [if_neg hc, List.mem_append, List.mem_singleton]
      simp [h]

theorem addRep_nodup (R : List (List ℕ)) (d : List ℕ) (h : R.Nodup) : (addRep R d).Nodup := by
  unfold addRep
  split_ifs with h1 h2
  · exact h
  · exact h
  · rw [List.nodup_append]
    refine ⟨h, by simp, ?_⟩
    intro a ha b hb
    rw [List.mem_singleton] at hb
    subst hb
    rintro rfl
    exact h2 (by simpa using ha)

theorem foldl_addRep (ds R : List (List ℕ)) (h : R.Nodup) :
    (ds.foldl addRep R).Nodup ∧ ∀ c, c ∈ ds.foldl addRep R ↔ c ∈ R ∨ (c ∈ ds ∧ c ≠ []) := by
  induction ds generalizing R with
  | nil => exact ⟨h, by simp⟩
  | cons d ds ih =>
    obtain ⟨h1, h2⟩ := ih (addRep R d) (addRep_nodup R d h)
    refine ⟨h1, fun c => ?_⟩
    rw [List.foldl_cons, h2, addRep_mem, List.mem_cons]
    constructor
    · rintro ((h | ⟨rfl, h⟩) | ⟨h, h'⟩)
      · exact Or.inl h
      · exact Or.inr ⟨Or.inl rfl, h⟩
      · exact Or.inr ⟨Or.inr h, h'⟩
    · rintro (h | ⟨rfl | h, h'⟩)
      · exact Or.inl (Or.inl h)
      · exact Or.inl (Or.inr ⟨rfl, h'⟩)
      · exact Or.inr ⟨h, h'⟩

theorem splitMsg_flat (ds : List (List ℕ)) (f : ℕ) (hf : (ds.flatMap fun d => d.length :: d).length ≤ f) :
    splitMsg f (ds.flatMap fun d => d.length :: d) = some ds := by
  induction ds generalizing f with
  | nil => cases f <;> rfl
  | cons d ds ih =>
    rw [List.flatMap_cons] at hf ⊢
    simp only [List.cons_append, List.length_cons, List.length_append] at hf
    cases f with
    | zero => omega
    | succ f =>
      simp only [List.cons_append, splitMsg]
      rw [if_pos (by simp), List.drop_left, List.take_left, ih f (by omega)]
      rfl

theorem insertSorted_spec (x : ℕ) (l : List ℕ) (hl : SL l) (hx : x ∉ l) :
    SL (insertSorted x l) ∧ (∀ y, y ∈ insertSorted x l ↔ y = x ∨ y ∈ l) ∧ (insertSorted x l).length = l.length + 1 := by
  induction l with
  | nil => exact ⟨by simp [insertSorted, SL], by simp [insertSorted], rfl⟩
  | cons a l ih =>
    have hs := List.pairwise_cons.mp hl
    simp only [List.mem_cons, not_or] at hx
    rw [insertSorted]
    by_cases h : x < a
    · rw [if_pos h]
      refine ⟨List.pairwise_cons.mpr ⟨?_, hl⟩, fun y => by simp, rfl⟩
      intro y hy
      rcases List.mem_cons.mp hy with rfl | hy
      · exact h
      · have := hs.1 y hy; omega
    · rw [if_neg h, if_neg hx.1]
      obtain ⟨h1, h2, h3⟩ := ih hs.2 hx.2
      refine ⟨List.pairwise_cons.mpr ⟨?_, h1⟩, fun y => ?_, by simp [h3]⟩
      · intro y hy
        rcases (h2 y).mp hy with rfl | hy
        · omega
        · exact hs.1 y hy
      · rw [List.mem_cons, h2, List.mem_cons]; tauto

/-- the class as seen from the receiver -/
def asSeen (p q : ℕ) (row : List ℕ) : List ℕ := (insertSorted p row).filter (· ≠ q)

theorem asSeen_spec {np p q : ℕ} {row : List ℕ} (hp : p < np) (hv : Valid np p row) (hq : q ∈ row) :
    Valid np q (asSeen p q row) ∧ members q (asSeen p q row) = members p row ∧ (asSeen p q row).length = row.length ∧
    p ∈ asSeen p q row := by
  obtain ⟨h1, h2, h3⟩ := insertSorted_spec p row hv.sorted hv.notSelf
  have hpq : p ≠ q := fun h => hv.notSelf (h ▸ hq)
  have hval : Valid np q (asSeen p q row) := by
    refine ⟨h1.filter _, ?_, ?_⟩
    · intro x hx
      have := (h2 x).mp (List.mem_filter.mp hx).1
      rcases this with rfl | h
      · exact hp
      · exact hv.range x h
    · intro h
      have := (List.mem_filter.mp h).2
      simp at this
  have hmem : members q (asSeen p q row) = members p row := by
    ext x
    rw [mem_members, mem_members]
    unfold asSeen
    rw [List.mem_filter, h2]
    simp only [ne_eq, decide_not, Bool.not_eq_true', decide_eq_false_iff_not]
    constructor
    · rintro (rfl | ⟨h, -⟩)
      · exact Or.inr hq
      · exact h
    · intro h
      by_cases hx : x = q
      · exact Or.inl hx
      · exact Or.inr ⟨h, hx⟩
  refine ⟨hval, hmem, ?_, ?_⟩
  · have := congrArg Finset.card hmem
    rw [members_card hval, members_card hv] at this
    omega
  · unfold asSeen
    rw [List.mem_filter, h2]
    simp [hpq]

theorem memMsg_eq {np p q : ℕ} {A : List (List ℕ)} (hp : p < np) (hA : ∀ row ∈ A, Valid np p row) :
    memMsg p q A = (((A.filter fun row => row.contains q).map (asSeen p q)).flatMap fun d => d.length :: d) := by
  induction A with
  | nil => rfl
  | cons row A ih =>
    have hrest := ih fun r hr => hA r (by simp [hr])
    unfold memMsg at hrest ⊢
    rw [List.flatMap_cons, hrest]
    have hv := hA row (by simp)
    by_cases hq : q ∈ row
    · have hf : row.filter (· = q) = [q] := by
        have hn : row.Nodup := hv.sorted.imp fun h => Nat.ne_of_lt h
        have hperm : (row.filter (· = q)).Perm [q] := by
          refine (List.perm_ext_iff_of_nodup (hn.filter _) (by simp)).mpr fun x => ?_
          simp only [List.mem_filter, decide_eq_true_eq, List.mem_singleton]
          exact ⟨fun h => h.2, fun h => ⟨h ▸ hq, h⟩⟩
        exact List.perm_singleton.mp hperm
      rw [hf, List.filter_cons_of_pos (by simpa using hq), List.map_cons, List.flatMap_cons]
      simp only [List.flatMap_cons, List.flatMap_nil, List.append_nil]
      rw [(asSeen_spec hp hv hq).2.2.1]
      rfl
    · have hf : row.filter (· = q) = [] := by
        rw [List.filter_eq_nil_iff]
        intro x hx h
        simp only [decide_eq_true_eq] at h
        exact hq (h ▸ hx)
      rw [hf, List.filter_cons_of_neg (by simpa using hq)]
      rfl

/-- the input of the constructor: sorted lists of other processes; all processes of a class are among the processes the class is
sent to, and whoever is a possible neighbour of `p` has `p` as possible neighbour -/
structure MemOK (np : ℕ) (D : ℕ → List ℕ) (A : ℕ → List (List ℕ)) : Prop where
  rows : ∀ p < np, ∀ row ∈ A p, Valid np p row
  sub : ∀ p < np, ∀ row ∈ A p, ∀ q ∈ row, q ∈ D p
  range : ∀ p < np, ∀ q ∈ D p, q < np
  symm : ∀ p < np, ∀ q ∈ D p, p ∈ D q

section
variable {np : ℕ} {D : ℕ → List ℕ} {A : ℕ → List (List ℕ)} (h : MemOK np D A)
include h

theorem fold_split {p : ℕ} (hp : p < np) (l : List ℕ) (hl : ∀ q ∈ l, q ∈ D p) (R : List (List ℕ)) (hR : R.Nodup) :
    ∃ R', l.foldlM (fun R q => (splitMsg (if (D p).contains q then memMsg q p (A q) else default).length
        (if (D p).contains q then memMsg q p (A q) else default)).map fun ds => ds.foldl addRep R) R = some R' ∧ R'.Nodup ∧
      ∀ c, c ∈ R' ↔ c ∈ R ∨ (c ≠ [] ∧ ∃ q ∈ l, ∃ row ∈ A q, p ∈ row ∧ c = asSeen q p row) := by
  induction l generalizing R with
  | nil => exact ⟨R, rfl, hR, by simp⟩
  | cons q l ih =>
    have hqD := hl q (by simp)
    have hqn := h.range p hp q hqD
    have hmsg : (if (D p).contains q = true then memMsg q p (A q) else default) =
        (((A q).filter fun row => row.contains p).map (asSeen q p)).flatMap fun d => d.length :: d := by
      rw [if_pos (by simpa using hqD), memMsg_eq hqn (h.rows q hqn)]
    obtain ⟨n1, n2⟩ := foldl_addRep (((A q).filter fun row => row.contains p).map (asSeen q p)) R hR
    obtain ⟨R', h1, h2, h3⟩ := ih (fun q hq => hl q (by simp [hq])) _ n1
    refine ⟨R', ?_, h2, fun c => ?_⟩
    · rw [List.foldlM_cons, hmsg, splitMsg_flat _ _ le_rfl]
      exact h1
    · rw [h3, n2]
      constructor
      · rintro ((hc | ⟨hc, hne⟩) | ⟨hne, q', hq', row, hrow, hpr, rfl⟩)
        · exact Or.inl hc
        · obtain ⟨row, hrow, rfl⟩ := List.mem_map.mp hc
          rw [List.mem_filter] at hrow
          exact Or.inr ⟨hne, q, by simp, row, hrow.1, by simpa using hrow.2, rfl⟩
        · exact Or.inr ⟨hne, q', by simp [hq'], row, hrow, hpr, rfl⟩
      · rintro (hc | ⟨hne, q', hq', row, hrow, hpr, rfl⟩)
        · exact Or.inl (Or.inl hc)
        · rcases List.mem_cons.mp hq' with rfl | hq'
          · exact Or.inl (Or.inr ⟨List.mem_map.mpr ⟨row, List.mem_filter.mpr ⟨hrow, by simpa using hpr⟩, rfl⟩, hne⟩)
          · exact Or.inr ⟨hne, q', hq', row, hrow, hpr, rfl⟩

/-- the table that every process starts with: the own class, its own rows, and the rows it got from the others -/
theorem memTable_spec {p : ℕ} (hp : p < np) : ∃ F, memTable D A p = some F ∧ FamOK np p F ∧
    ∀ S, Has p F S ↔ S = {p} ∨ (p ∈ S ∧ ∃ q < np, ∃ row ∈ A q, row ≠ [] ∧ members q row = S) := by
  unfold memTable memFamily
  have hown : ((A p).map fun row => row.filter (· ≠ p)) = A p := by
    conv_rhs => rw [← List.map_id (A p)]
    apply List.map_congr_left
    intro row hrow
    rw [id, List.filter_eq_self]
    intro x hx
    have := (h.rows p hp row hrow).notSelf
    simp only [ne_eq, decide_not, Bool.not_eq_true', decide_eq_false_iff_not]
    rintro rfl; exact this hx
  obtain ⟨n1, n2⟩ := foldl_addRep (A p) [] List.nodup_nil
  obtain ⟨R', h1, h2, h3⟩ := fold_split h hp (D p) (fun _ hq => hq) _ n1
  have hne : ∀ c ∈ R', c ≠ [] := by
    intro c hc
    rcases (h3 c).mp hc with h | h
    · rcases (n2 c).mp h with h | h
      · cases h
      · exact h.2
    · exact h.1
  have hval : ∀ c ∈ R', Valid np p c := by
    intro c hc
    rcases (h3 c).mp hc with h' | ⟨-, q, hq, row, hrow, hpr, rfl⟩
    · rcases (n2 c).mp h' with h' | h'
      · cases h'
      · exact h.rows p hp c h'.1
    · have hqn := h.range p hp q hq
      exact (asSeen_spec hqn (h.rows q hqn row hrow) hpr).1
  refine ⟨[] :: R'.insertionSort fun a b => lexSmaller b a = false, ?_, ⟨?_, ?_⟩, ?_⟩
  · dsimp only
    rw [hown, h1]; rfl
  · rw [List.nodup_cons]
    refine ⟨?_, (List.perm_insertionSort _ R').nodup_iff.mpr h2⟩
    rw [List.mem_insertionSort]
    exact fun h => hne [] h rfl
  · intro d hd
    rcases List.mem_cons.mp hd with rfl | hd
    · exact ⟨List.Pairwise.nil, by simp, by simp⟩
    · rw [List.mem_insertionSort] at hd
      exact hval d hd
  · intro S
    unfold Has
    simp only [List.mem_cons, List.mem_insertionSort]
    constructor
    · rintro ⟨d, rfl | hd, rfl⟩
      · exact Or.inl (by simp [members])
      · right
        refine ⟨mem_members.mpr (Or.inl rfl), ?_⟩
        rcases (h3 d).mp hd with h' | ⟨-, q, hq, row, hrow, hpr, rfl⟩
        · rcases (n2 d).mp h' with h' | h'
          · cases h'
          · exact ⟨p, hp, d, h'.1, h'.2, rfl⟩
        · have hqn := h.range p hp q hq
          exact ⟨q, hqn, row, hrow, List.ne_nil_of_mem hpr, (asSeen_spec hqn (h.rows q hqn row hrow) hpr).2.1.symm⟩
    · rintro (rfl | ⟨hpS, q, hqn, row, hrow, hrne, rfl⟩)
      · exact ⟨[], Or.inl rfl, by simp [members]⟩
      · by_cases hpq : p = q
        · subst hpq
          exact ⟨row, Or.inr ((h3 row).mpr (Or.inl ((n2 row).mpr (Or.inr ⟨hrow, hrne⟩)))), rfl⟩
        · have hpr : p ∈ row := by
            rcases mem_members.mp hpS with h | h
            · exact absurd h hpq
            · exact h
          have hsp := asSeen_spec hqn (h.rows q hqn row hrow) hpr
          refine ⟨asSeen q p row, Or.inr ((h3 _).mpr (Or.inr ⟨List.ne_nil_of_mem hsp.2.2.2, q, ?_, row, hrow, hpr, rfl⟩)), hsp.2.1⟩
          exact h.symm q hqn p (h.sub q hqn row hrow p hpr)

theorem memTable_consistent : Consistent np fun p => (memTable D A p).getD [] := by
  intro p hp d hd q hq
  obtain ⟨F, hF, hok, hS⟩ := memTable_spec h hp
  replace hd : d ∈ (memTable D A p).getD [] := hd
  rw [hF, Option.getD_some] at hd
  have hv := hok.2 d hd
  have hqn := hv.range q hq
  obtain ⟨G, hG, -, hSq⟩ := memTable_spec h hqn
  have hmem := (hS (members p d)).mp ⟨d, hd, rfl⟩
  show ∃ e ∈ (memTable D A q).getD [], _
  rw [hG, Option.getD_some]
  rcases hmem with hm | ⟨-, r, hr, row, hrow, hne, hm⟩
  · have : q ∈ members p d := mem_members.mpr (Or.inr hq)
    rw [hm, Finset.mem_singleton] at this
    exact absurd (this ▸ hq) hv.notSelf
  · exact (hSq _).mpr (Or.inr ⟨mem_members.mpr (Or.inr hq), r, hr, row, hrow, hne, hm⟩)

/-- **The constructor from members of the classes** (used for the meshes of facet-based spaces): for every interleaving of the
processes the set-up does not get stuck, takes a bounded number of steps, and at the end the processes have consistent families
that are closed under intersections and contain every class that *any* of its members was given, with globally unique identifiers;
no process has an empty family (so that the flag "rank 0 is idle", which is set if rank 0 has no class, is never set). -/
theorem setup_members {fuel : ℕ} (hf : 2 ^ np + 1 ≤ fuel) (v : ℕ → LSt) {n : ℕ} {s : St LSt (List ℕ)}
    (hr : Reach np (memProg np fuel D A) v n s) :
    n ≤ 8 * np ∧ (¬ Final np (memProg np fuel D A) s → ∃ t, Step np (memProg np fuel D A) s t) ∧
    (Final np (memProg np fuel D A) s → ∃ T, GoodIds np T s ∧ Consistent np T ∧ ∀ p < np, FamOK np p (T p) ∧ [] ∈ T p ∧
      (∀ d ∈ T p, ∀ e ∈ T p, ∃ c ∈ T p, members p c = members p d ∩ members p e) ∧
      ∀ q < np, ∀ row ∈ A q, p ∈ members q row → Has p (T p) (members q row)) := by
  have hV : ∀ p < np, FamOK np p ((memTable D A p).getD []) := by
    intro p hp
    obtain ⟨F, hF, hok, -⟩ := memTable_spec h hp
    rw [hF]; exact hok
  have hC := memTable_consistent h
  obtain ⟨T, hT1, hT2⟩ := closedTable_spec hV hC hf
  have hTab := setup_tables hV hC hf
  have hm : Matched np (memProg np fuel D A) := by
    intro ph hph p hp
    rcases List.mem_cons.mp hph with rfl | hph
    · refine ⟨fun q hq => ?_, fun q hq => h.range p hp q (by simpa [memPhase] using hq),
        fun q hq => h.range p hp q (by simpa [memPhase] using hq)⟩
      show (D p).contains q = (D q).contains p
      rw [Bool.eq_iff_iff, List.contains_iff_mem, List.contains_iff_mem]
      exact ⟨h.symm p hp q, h.symm q hq p⟩
    · exact setup_matched hV hC hf ph hph p hp
  refine ⟨by simpa [memProg, setupProg] using terminates hm hr, no_deadlock hm hr, fun hfin =>
    ⟨fun p => (closedTable fuel (fun p => (memTable D A p).getD []) p).getD [], ?_, hTab.cons, fun p hp => ?_⟩⟩
  · refine goodIds hTab s fun p hp => ?_
    rw [(final_state hm hr hfin).1 p hp]
    have hrun : run (memProg np fuel D A) v p = run (setupProg np fuel fun p => (memTable D A p).getD [])
        (runPhase (memPhase fuel D A) v) p := rfl
    rw [hrun]
    refine setup_run hV hC hf _ ?_ hp
    intro q hq
    obtain ⟨F, hF, -, -⟩ := memTable_spec h hq
    show (memTable D A q).bind (unionLoop fuel) = unionLoop fuel ((memTable D A q).getD [])
    rw [hF]; rfl
  · obtain ⟨F, hF, -, hS⟩ := memTable_spec h hp
    have hcl := (hT1 p hp).2
    have heq : (closedTable fuel (fun p => (memTable D A p).getD []) p).getD [] = T p := by rw [(hT1 p hp).1]; rfl
    beta_reduce
    rw [heq]
    have hgiven : ∀ S, Has p F S → Has p (T p) S := by
      rintro S ⟨d, hd, rfl⟩
      exact ⟨d, hcl.given d (by rw [hF]; exact hd), rfl⟩
    refine ⟨hcl.ok, ?_, hcl.inter, ?_⟩
    · obtain ⟨d, hd, he⟩ := hgiven {p} ((hS _).mpr (Or.inl rfl))
      have : d = [] := by
        cases d with
        | nil => rfl
        | cons a l =>
          have hv := hcl.ok.2 _ hd
          have : a ∈ members p (a :: l) := mem_members.mpr (Or.inr (by simp))
          rw [he, Finset.mem_singleton] at this
          exact absurd (by simp [this]) hv.notSelf
      exact this ▸ hd
    · intro q hq row hrow hpm
      by_cases hne : row = []
      · subst hne
        have : p = q := by simpa [members] using hpm
        subst this
        exact hgiven _ ((hS _).mpr (Or.inl (by simp [members])))
      · exact hgiven _ ((hS _).mpr (Or.inr ⟨hpm, q, hq, row, hrow, hne, rfl⟩))

end

end NgsAMG.EQC
