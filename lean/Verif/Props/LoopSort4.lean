import Verif.Props.LoopSort3
import Mathlib.Algebra.BigOperators.Group.List.Lemmas
import Mathlib.Algebra.Ring.Parity

/-!
# Sorting of loops 4: **C105**, the sorting itself
-/

namespace NgsAMG.LSort

variable {T V : Type} [DecidableEq V] {src tgt : T → V}

theorem boundary_append (l m : List T) (v : V) : boundary src tgt (l ++ m) v = boundary src tgt l v + boundary src tgt m v := by
  simp [boundary]

theorem degree_append (l m : List T) (v : V) : degree src tgt (l ++ m) v = degree src tgt l v + degree src tgt m v := by
  simp [degree]

theorem boundary_perm {l m : List T} (h : l.Perm m) (v : V) : boundary src tgt l v = boundary src tgt m v :=
  (h.map _).sum_eq

theorem degree_perm {l m : List T} (h : l.Perm m) (v : V) : degree src tgt l v = degree src tgt m v :=
  (h.map _).sum_eq

theorem degree_cons (t : T) (l : List T) (v : V) :
    degree src tgt (t :: l) v = (if src t = v then 1 else 0) + (if tgt t = v then 1 else 0) + degree src tgt l v := by
  simp [degree]

theorem boundary_cons (t : T) (l : List T) (v : V) :
    boundary src tgt (t :: l) v = (if tgt t = v then 1 else 0) - (if src t = v then 1 else 0) + boundary src tgt l v := by
  simp [boundary]

theorem degree_zero {l : List T} {v : V} (h : degree src tgt l v = 0) {t : T} (ht : t ∈ l) : src t ≠ v ∧ tgt t ≠ v := by
  induction l with
  | nil => cases ht
  | cons x l ih =>
    rw [degree_cons] at h
    rcases List.mem_cons.1 ht with rfl | ht
    · constructor
      · intro hh; rw [if_pos hh] at h; omega
      · intro hh; rw [if_pos hh] at h; omega
    · exact ih (by omega) ht

theorem degree_zero' {l : List T} {v : V} (h : ∀ t ∈ l, src t ≠ v ∧ tgt t ≠ v) : degree src tgt l v = 0 := by
  induction l with
  | nil => rfl
  | cons x l ih =>
    have := h x (by simp)
    rw [degree_cons, if_neg this.1, if_neg this.2, ih fun t ht => h t (by simp [ht])]

/-- a walk has the boundary `b - a` -/
theorem Walk.boundary_eq {a b : V} {l : List T} (h : Walk src tgt a l b) (v : V) :
    boundary src tgt l v = (if b = v then 1 else 0) - (if a = v then 1 else 0) := by
  induction l generalizing a with
  | nil => cases h; simp [boundary]
  | cons t l ih => rw [boundary_cons, ih h.2, h.1]; omega

theorem Walk.degree_even {a b : V} {l : List T} (h : Walk src tgt a l b) (v : V) :
    Even (degree src tgt l v + (if a = v then 1 else 0) + (if b = v then 1 else 0)) := by
  induction l generalizing a with
  | nil => cases h; simp [degree]
  | cons t l ih =>
    have := ih h.2
    rw [degree_cons, h.1]
    rw [Nat.even_iff] at this ⊢
    omega

theorem degree_turned {flip : T → T} {orient : T → Bool → T → ℤ} {loop : List T} (hE : ByEnds src tgt flip orient loop)
    {out : List T} (h : Turned flip loop out) (v : V) : degree src tgt out v = degree src tgt loop v := by
  obtain ⟨l', h1, h2⟩ := h
  rw [degree_perm h2]
  have : ∀ l : List T, (∀ x ∈ l, x ∈ loop) → ∀ l', List.Forall₂ (fun x y => y = x ∨ y = flip x) l l' → degree src tgt l' v = degree src tgt l v := by
    intro l hl l' h
    induction h with
    | nil => rfl
    | @cons x y l l' hxy _ ih =>
      rw [degree_cons, degree_cons, ih fun z hz => hl z (by simp [hz])]
      rcases hxy with rfl | rfl
      · rfl
      · rw [hE.fs x (hl x (by simp)), hE.ft x (hl x (by simp))]; omega
  exact this loop (fun _ h => h) l' h1

theorem connected_turned {flip : T → T} {orient : T → Bool → T → ℤ} {loop : List T} (hE : ByEnds src tgt flip orient loop)
    {out : List T} (h : Turned flip loop out) (hc : Connected src tgt loop) : Connected src tgt out := by
  obtain ⟨l', h1, h2⟩ := h
  have : ∀ (A : V → Prop) (l : List T), (∀ x ∈ l, x ∈ loop) → ∀ l', List.Forall₂ (fun x y => y = x ∨ y = flip x) l l' →
      ((∀ t ∈ l', A (src t) ↔ A (tgt t)) → (∀ t ∈ l, A (src t) ↔ A (tgt t))) ∧
      ((∀ t ∈ l', A (src t) ↔ A (tgt t)) → ((∀ t ∈ l, A (src t)) → ∀ t ∈ l', A (src t)) ∧ ((∀ t ∈ l, ¬ A (src t)) → ∀ t ∈ l', ¬ A (src t))) := by
    intro A l hl l' h
    induction h with
    | nil => simp
    | @cons x y l l' hxy _ ih =>
      have ih := ih fun z hz => hl z (by simp [hz])
      simp only [List.mem_cons, forall_eq_or_imp]
      have hs := hE.fs x (hl x (by simp))
      have ht := hE.ft x (hl x (by simp))
      rcases hxy with rfl | rfl
      · refine ⟨fun h => ⟨h.1, ih.1 h.2⟩, fun h => ⟨fun k => ⟨k.1, (ih.2 h.2).1 k.2⟩, fun k => ⟨k.1, (ih.2 h.2).2 k.2⟩⟩⟩
      · rw [hs, ht]
        refine ⟨fun h => ⟨h.1.symm, ih.1 h.2⟩, fun h => ⟨fun k => ⟨h.1.2 k.1, (ih.2 h.2).1 k.2⟩, fun k => ⟨fun q => k.1 (h.1.1 q), (ih.2 h.2).2 k.2⟩⟩⟩
  intro A hA
  have hA' : ∀ t ∈ l', A (src t) ↔ A (tgt t) := fun t ht => hA t (h2.symm.subset ht)
  have := this A loop (fun _ h => h) l' h1
  rcases hc A (this.1 hA') with hh | hh
  · exact Or.inl fun t ht => (this.2 hA').1 hh t (h2.subset ht)
  · exact Or.inr fun t ht => (this.2 hA').2 hh t (h2.subset ht)

theorem chunked_first {x : T} {back front : List T} {cs : List (T × List T × List T)} (h : Chunked src tgt ((x, back, front) :: cs))
    (hd : ∀ v, degree src tgt (flat ((x, back, front) :: cs)) v ≤ 2) (hc : Connected src tgt (flat ((x, back, front) :: cs))) : cs = [] := by
  obtain ⟨⟨a, b, h1, h2, h3⟩, -⟩ := h
  have hfl : flat ((x, back, front) :: cs) = x :: (back ++ front) ++ flat cs := rfl
  have hperm : (x :: (back ++ front)).Perm (front.reverse ++ x :: back) := by
    refine List.Perm.trans ?_ (List.perm_append_comm)
    exact List.Perm.append_left (x :: back) (List.reverse_perm front).symm
  have key : ∀ v, degree src tgt (x :: (back ++ front)) v ≠ 0 → ∀ y ∈ flat cs, src y ≠ v ∧ tgt y ≠ v := by
    intro v hv y hy
    by_cases hva : v = a
    · subst hva; exact h3 y hy
    by_cases hvb : v = b
    · subst hvb; exact h2 y (by simp [hy])
    have he := h1.degree_even v
    rw [← degree_perm hperm, if_neg (Ne.symm hva), if_neg (Ne.symm hvb), Nat.even_iff] at he
    have := hd v
    rw [hfl, degree_append] at this
    exact degree_zero (by omega) hy
  cases cs with
  | nil => rfl
  | cons c cs =>
    exfalso
    have hc1 : c.1 ∈ flat (c :: cs) := by simp [flat]
    have hin : ∀ t ∈ x :: (back ++ front), degree src tgt (x :: (back ++ front)) (src t) ≠ 0 ∧ degree src tgt (x :: (back ++ front)) (tgt t) ≠ 0 :=
      fun t ht => ⟨fun h => (degree_zero h ht).1 rfl, fun h => (degree_zero h ht).2 rfl⟩
    rcases hc (fun v => degree src tgt (x :: (back ++ front)) v ≠ 0) (by
      intro t ht
      rw [hfl, List.mem_append] at ht
      rcases ht with ht | ht
      · exact ⟨fun _ => (hin t ht).2, fun _ => (hin t ht).1⟩
      · exact ⟨fun h => absurd rfl (key _ h t ht).1, fun h => absurd rfl (key _ h t ht).2⟩) with hh | hh
    · exact (key _ (hh c.1 (by rw [hfl]; simp [hc1])) c.1 hc1).1 rfl
    · exact hh x (by rw [hfl]; simp) (hin x (by simp)).1

variable {flip : T → T} {orient : T → Bool → T → ℤ} {loop : List T}

/-- **C105 (total).** `SortAndOrientLoop` ends for every array, its output has the same edges, in another order and some of them turned. -/
theorem sort_total (hE : ByEnds src tgt flip orient loop) :
    ∃ out nch, sortLoop flip orient loop = some (out, nch) ∧ Turned flip loop out := by
  obtain ⟨out, nch, cs, h1, -, -, -, h5⟩ := sort_chunked hE
  exact ⟨out, nch, h1, h5⟩

/-- **C105 (one chunk).** If it reports one chunk, the boundary of the output is that of a walk from some vertex to some vertex. -/
theorem one_boundary (hE : ByEnds src tgt flip orient loop) {out : List T} (h : sortLoop flip orient loop = some (out, 1)) :
    ∃ a b, ∀ v, boundary src tgt out v = (if b = v then 1 else 0) - (if a = v then 1 else 0) := by
  obtain ⟨out', nch, cs, h1, h2, h3, h4, h5⟩ := sort_chunked hE
  rw [h] at h1
  simp only [Option.some.injEq, Prod.mk.injEq] at h1
  obtain ⟨rfl, rfl⟩ := h1
  obtain ⟨⟨x, back, front⟩, rfl⟩ := List.length_eq_one_iff.1 h2.symm
  obtain ⟨⟨a, b, k1, -, -⟩, -⟩ := h4
  refine ⟨a, b, fun v => ?_⟩
  rw [h3, ← k1.boundary_eq v]
  refine boundary_perm ?_ v
  have : flat [(x, back, front)] = (x :: back) ++ front := by simp [flat]
  rw [this]
  exact (List.Perm.append_left (x :: back) (List.reverse_perm front).symm).trans List.perm_append_comm

/-- **C105 (closed).** If it reports one chunk and every vertex has an even number of ends of edges, the output, in its order, is one closed walk. -/
theorem closed_walk (hE : ByEnds src tgt flip orient loop) {out : List T} (h : sortLoop flip orient loop = some (out, 1))
    (he : ∀ v, Even (degree src tgt loop v)) : ∃ a, Walk src tgt a out a := by
  obtain ⟨out', nch, cs, h1, h2, h3, h4, h5⟩ := sort_chunked hE
  rw [h] at h1
  simp only [Option.some.injEq, Prod.mk.injEq] at h1
  obtain ⟨rfl, rfl⟩ := h1
  obtain ⟨⟨x, back, front⟩, rfl⟩ := List.length_eq_one_iff.1 h2.symm
  obtain ⟨⟨a, b, k1, k2, -⟩, -⟩ := h4
  obtain ⟨c, w1, w2⟩ := k1.split
  have hfl : flat [(x, back, front)] = (x :: back) ++ front := by simp [flat]
  have hf0 : degree src tgt front b = 0 := degree_zero' fun t ht => k2 t (by simp [ht])
  have hcb : c = b := by
    by_contra hcb
    have e1 := he b
    rw [← degree_turned hE h5, h3, hfl, degree_append, hf0] at e1
    have e2 := w2.degree_even b
    rw [if_neg hcb, if_pos rfl] at e2
    rw [Nat.even_iff] at e1 e2
    omega
  have hfr : front = [] := by
    cases front with
    | nil => rfl
    | cons y front =>
      exfalso
      rw [List.reverse_cons] at w1
      obtain ⟨e, -, w3, w4⟩ := w1.split
      have w4 : tgt y = c := w4
      exact (k2 y (by simp)).2 (w4.trans hcb)
  subst hfr
  subst hcb
  rw [h3, hfl, List.append_nil]
  exact ⟨c, w2⟩

/-- **C105 (simple loop).** A connected array of edges such that no vertex has more than two is one chunk. -/
theorem connected_one (hE : ByEnds src tgt flip orient loop) (hne : loop ≠ []) (hc : Connected src tgt loop)
    (hd : ∀ v, degree src tgt loop v ≤ 2) : ∃ out, sortLoop flip orient loop = some (out, 1) := by
  obtain ⟨out, nch, cs, h1, h2, h3, h4, h5⟩ := sort_chunked hE
  cases cs with
  | nil =>
    exfalso
    obtain ⟨l', g1, g2⟩ := h5
    rw [h3] at g2
    have := g2.length_eq
    rw [← g1.length_eq] at this
    exact hne (List.length_eq_zero_iff.1 this.symm)
  | cons c cs =>
    have := chunked_first h4 (fun v => by rw [← h3, degree_turned hE h5]; exact hd v) (by rw [← h3]; exact connected_turned hE h5 hc)
    subst this
    refine ⟨out, ?_⟩
    rw [h1, h2]; rfl

/-- **C105 (cycle).** A simple closed loop, given in any order and with any orientation of its edges, becomes one closed walk. -/
theorem cycle_sorted (hE : ByEnds src tgt flip orient loop) (hne : loop ≠ []) (hC : Cycle src tgt loop) :
    ∃ out a, sortLoop flip orient loop = some (out, 1) ∧ Turned flip loop out ∧ Walk src tgt a out a := by
  obtain ⟨out, h⟩ := connected_one hE hne hC.conn fun v => by rcases hC.deg v with h | h <;> omega
  obtain ⟨out', nch, h1, h2⟩ := sort_total hE
  rw [h] at h1
  simp only [Option.some.injEq, Prod.mk.injEq] at h1
  obtain ⟨rfl, rfl⟩ := h1
  obtain ⟨a, ha⟩ := closed_walk hE h fun v => by rcases hC.deg v with h | h <;> rw [h] <;> decide
  exact ⟨out, a, h, h2, ha⟩

end NgsAMG.LSort
