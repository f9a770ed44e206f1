import Verif.Props.Loops4
import Mathlib.Algebra.Ring.Int.Defs
import Mathlib.Algebra.BigOperators.Ring.List

/-!
# The coarse loops (C98)
-/

namespace NgsAMG.Loop
open NgsAMG.Spec
variable {V F : Type} [LinearOrder V]
set_option linter.unusedSectionVars false

theorem steps_map (vm : F → V) (w : List F) : steps (w.map vm) = (steps w).map (Prod.map vm vm) := by
  induction w with
  | nil => rfl
  | cons a t ih =>
    cases t with
    | nil => rfl
    | cons b t => simp only [List.map_cons, steps] at ih ⊢; rw [ih]; rfl

theorem closed_map {w : List F} (vm : F → V) (h : Closed w) : Closed (w.map vm) :=
  ⟨by simpa using h.1, by rw [List.head?_map, List.getLast?_map, h.2]⟩

theorem count_fst_filter (es : List (V × V)) (v : V) :
    (es.map Prod.fst).count v = ((es.filter fun x => decide (x.1 ≠ x.2)).map Prod.fst).count v + es.count (v, v) := by
  induction es with
  | nil => rfl
  | cons e es ih =>
    obtain ⟨x, y⟩ := e
    by_cases h : x = y
    · subst h
      simp only [List.map_cons, List.count_cons, List.filter_cons, ne_eq, not_true_eq_false, decide_false, Bool.false_eq_true, if_false, ih]
      by_cases hv : x = v <;> simp [hv] <;> omega
    · simp only [List.map_cons, List.count_cons, List.filter_cons, ne_eq, h, not_false_eq_true, decide_true, if_true, ih]
      have : ((x, y) == (v, v)) = false := by
        simp only [beq_eq_false_iff_ne, ne_eq, Prod.mk.injEq]; rintro ⟨h1, h2⟩; exact h (h1.trans h2.symm)
      simp only [this, Bool.false_eq_true, if_false]
      omega

theorem count_snd_filter (es : List (V × V)) (v : V) :
    (es.map Prod.snd).count v = ((es.filter fun x => decide (x.1 ≠ x.2)).map Prod.snd).count v + es.count (v, v) := by
  induction es with
  | nil => rfl
  | cons e es ih =>
    obtain ⟨x, y⟩ := e
    by_cases h : x = y
    · subst h
      simp only [List.map_cons, List.count_cons, List.filter_cons, ne_eq, not_true_eq_false, decide_false, Bool.false_eq_true, if_false, ih]
      by_cases hv : x = v <;> simp [hv] <;> omega
    · simp only [List.map_cons, List.count_cons, List.filter_cons, ne_eq, h, not_false_eq_true, decide_true, if_true, ih]
      have : ((x, y) == (v, v)) = false := by
        simp only [beq_eq_false_iff_ne, ne_eq, Prod.mk.injEq]; rintro ⟨h1, h2⟩; exact h (h1.trans h2.symm)
      simp only [this, Bool.false_eq_true, if_false]
      omega

theorem push_balanced (vm : F → V) {w : List F} (h : Closed w) : Balanced (pushSteps vm w) := by
  have hb := closed_balanced (closed_map vm h).2
  rw [steps_map] at hb
  intro v
  have h1 := count_fst_filter ((steps w).map (Prod.map vm vm)) v
  have h2 := count_snd_filter ((steps w).map (Prod.map vm vm)) v
  have h3 := hb v
  rw [pushSteps]
  omega

theorem push_noself (vm : F → V) (w : List F) : ∀ x ∈ pushSteps vm w, x.1 ≠ x.2 := fun x hx => by
  simpa using (List.mem_filter.1 hx).2

theorem net_append (A B : List (V × V)) (a b : V) : net (A ++ B) a b = net A a b + net B a b := by
  simp only [net, List.count_append]; push_cast; omega

theorem net_nil (a b : V) : net ([] : List (V × V)) a b = 0 := by simp [net]

/-- a loop that is left out contributes nothing -/
theorem dropped_net {l : List V} (hl : SimpleLoop l) (hk : keepLoop l = false) (a b : V) : net (steps l) a b = 0 := by
  have h3 : l.length ≤ 3 := by
    by_contra h
    have h2 := hl.1.1
    simp [keepLoop, h, h2] at hk
  obtain ⟨x, xs, rfl⟩ := closed_form hl.1
  match xs, h3 with
  | [], _ => simp [steps, net, List.count_cons, and_comm]
  | [y], _ =>
    simp only [List.cons_append, List.nil_append, steps, net, List.count_cons, List.count_nil, beq_iff_eq, Prod.mk.injEq]
    have e1 : (if x = b ∧ y = a then 1 else 0 : ℕ) = if y = a ∧ x = b then 1 else 0 := by simp only [and_comm]
    have e2 : (if x = a ∧ y = b then 1 else 0 : ℕ) = if y = b ∧ x = a then 1 else 0 := by simp only [and_comm]
    rw [e1, e2]
    push_cast
    omega
  | _ :: _ :: _, h3 => simp at h3

theorem keep_four {l : List V} (hl : SimpleLoop l) (hk : keepLoop l = true) : 4 ≤ l.length := by
  by_contra h
  have hc : isClosed l = true := (isClosed_iff l).2 hl.1.2
  have h3 : l.length ≤ 3 := by omega
  simp [keepLoop, hc, h3] at hk

theorem comb_zero (R : List (List V)) : Combination R fun _ _ => 0 := ⟨fun _ => 0, fun a b => by simp⟩

theorem comb_add {R : List (List V)} {f g : V → V → ℤ} (hf : Combination R f) (hg : Combination R g) : Combination R fun a b => f a b + g a b := by
  obtain ⟨c, hc⟩ := hf
  obtain ⟨d, hd⟩ := hg
  refine ⟨fun l => c l + d l, fun a b => ?_⟩
  show f a b + g a b = _
  rw [hc, hd, ← List.sum_map_add]
  congr 1
  apply List.map_congr_left
  intro l _
  rw [add_mul]

theorem comb_congr {R : List (List V)} {f g : V → V → ℤ} (hf : Combination R f) (h : ∀ a b, g a b = f a b) : Combination R g := by
  obtain ⟨c, hc⟩ := hf
  exact ⟨c, fun a b => by rw [h, hc]⟩

theorem comb_single {R : List (List V)} (hR : R.Nodup) {l : List V} (hl : l ∈ R) (s : ℤ) : Combination R fun a b => s * net (steps l) a b := by
  refine ⟨fun x => if x = l then s else 0, fun a b => ?_⟩
  show s * net (steps l) a b = (R.map fun x => (if x = l then s else 0) * net (steps x) a b).sum
  induction R with
  | nil => simp at hl
  | cons x R ih =>
    obtain ⟨h1, h2⟩ := List.nodup_cons.1 hR
    rw [List.map_cons, List.sum_cons]
    rcases List.mem_cons.1 hl with rfl | hl'
    · have : (R.map fun x => (if x = l then s else 0) * net (steps x) a b).sum = 0 := by
        rw [List.sum_eq_zero]
        intro y hy
        obtain ⟨z, hz, rfl⟩ := List.mem_map.1 hy
        rw [if_neg (by rintro rfl; exact h1 hz), zero_mul]
      rw [this, if_pos rfl, add_zero]
    · rw [if_neg (by rintro rfl; exact h1 hl'), zero_mul, zero_add]
      exact ih h2 hl'

/-- the coarse loops of one fine loop -/
theorem itLoop_correct {data : List (V × V)} (hb : Balanced data) (hn : ∀ x ∈ data, x.1 ≠ x.2) : ∃ R, itLoop data = some R ∧
    (∀ l ∈ R, SimpleLoop l ∧ 4 ≤ l.length ∧ (∃ v, l.head? = some v ∧ ∀ x ∈ l, v ≤ x) ∧ ((∀ x ∈ steps l, x ∈ data) ∨ (∀ x ∈ steps l, x.swap ∈ data))) ∧
    ∀ Q : List (List V), Q.Nodup → (∀ l ∈ R, l ∈ Q) → Combination Q (net data) := by
  obtain ⟨out, ho, hs, hp⟩ := simpleLoops_correct data hb hn
  refine ⟨(out.filter keepLoop).map rotateVLoop, by rw [itLoop, ho]; rfl, ?_, ?_⟩
  · intro l hl
    obtain ⟨l', hl', rfl⟩ := List.mem_map.1 hl
    obtain ⟨h1, h2⟩ := List.mem_filter.1 hl'
    obtain ⟨r1, r2, ⟨v, hv, hmin⟩, r4, r5⟩ := rotate_correct (hs l' h1)
    have hsub : ∀ x ∈ steps l', x ∈ data := fun x hx => hp.subset (List.mem_flatMap.2 ⟨l', h1, hx⟩)
    obtain ⟨n, hn', ⟨v', hv', hmin'⟩, hr⟩ := rotate_form (hs l' h1).1
    have hst : (steps (bndArr l' n n)).Perm (steps l') := by
      rw [bnd_steps l' n n (hs l' h1).1.2 hn' hn', steps_split l' n hn']
      exact List.perm_append_comm
    have hmem : ∀ x ∈ rotateVLoop l', x ∈ l' := by
      intro x hx
      have : x ∈ bndArr l' n n := by
        rcases hr with hr | hr
        · rwa [hr] at hx
        · rw [hr] at hx; exact List.mem_reverse.1 hx
      rw [bndArr, if_pos ((isClosed_iff l').2 (hs l' h1).1.2)] at this
      rcases List.mem_append.1 this with h | h
      · exact List.mem_of_mem_drop h
      · exact List.mem_of_mem_drop (List.mem_of_mem_take h)
    refine ⟨r1, by rw [r4]; exact keep_four (hs l' h1) h2, ⟨v, hv, fun x hx => hmin x (hmem x hx)⟩, ?_⟩
    rcases hr with hr | hr
    · left; rw [hr]; intro x hx; exact hsub x (hst.subset hx)
    · right; rw [hr]; intro x hx
      have := (steps_reverse _).subset hx
      obtain ⟨y, hy, rfl⟩ := List.mem_map.1 this
      rw [Prod.swap_swap]
      exact hsub y (hst.subset hy)
  · intro Q hQ hsub
    refine comb_congr ?_ (fun a b => (net_perm hp a b).symm)
    clear hp ho
    induction out with
    | nil => exact comb_congr (comb_zero Q) fun a b => net_nil a b
    | cons l out ih =>
      have h1 := ih (fun x hx => hs x (by simp [hx])) (fun x hx => hsub x (by
        obtain ⟨y, hy, rfl⟩ := List.mem_map.1 hx
        rw [List.mem_filter] at hy
        exact List.mem_map.2 ⟨y, List.mem_filter.2 ⟨by simp [hy.1], hy.2⟩, rfl⟩))
      have hadd : ∀ a b, net ((l :: out).flatMap steps) a b = net (steps l) a b + net (out.flatMap steps) a b := fun a b => by
        rw [List.flatMap_cons, net_append]
      by_cases hk : keepLoop l = true
      · obtain ⟨r1, r2, r3, r4, r5⟩ := rotate_correct (hs l (by simp))
        have hin : rotateVLoop l ∈ Q := hsub _ (List.mem_map.2 ⟨l, List.mem_filter.2 ⟨by simp, hk⟩, rfl⟩)
        rcases r5 with r5 | r5
        · refine comb_congr (comb_add (comb_single hQ hin 1) h1) fun a b => ?_
          rw [hadd, r5, one_mul]
        · refine comb_congr (comb_add (comb_single hQ hin (-1)) h1) fun a b => ?_
          rw [hadd, r5]; omega
      · refine comb_congr h1 fun a b => ?_
        rw [hadd, dropped_net (hs l (by simp)) (by simpa using hk), zero_add]

theorem isDup_iff (before : List (List V)) (l : List V) : isDup before l = true ↔ l ∈ before := by
  simp only [isDup, List.any_eq_true, List.mem_filter, decide_eq_true_eq]
  constructor
  · rintro ⟨x, ⟨h, -⟩, rfl⟩; exact h
  · intro h; exact ⟨l, ⟨h, rfl⟩, rfl⟩

theorem noDups_spec (L : List (List V)) : ∀ before, (noDups before L).Nodup ∧ ∀ x, x ∈ noDups before L ↔ x ∈ L ∧ x ∉ before := by
  induction L with
  | nil => intro before; simp [noDups]
  | cons l t ih =>
    intro before
    obtain ⟨h1, h2⟩ := ih (l :: before)
    rw [noDups]
    by_cases hd : isDup before l = true
    · rw [if_pos hd]
      rw [isDup_iff] at hd
      refine ⟨h1, fun x => ?_⟩
      rw [h2]
      simp only [List.mem_cons, not_or]
      constructor
      · rintro ⟨h3, h4, h5⟩; exact ⟨Or.inr h3, h5⟩
      · rintro ⟨rfl | h3, h4⟩
        · exact absurd hd h4
        · exact ⟨h3, fun he => h4 (he ▸ hd), h4⟩
    · rw [if_neg hd]
      have hd' : l ∉ before := fun h => hd ((isDup_iff before l).2 h)
      refine ⟨List.nodup_cons.2 ⟨fun h => ((h2 l).1 h).2 (by simp), h1⟩, fun x => ?_⟩
      rw [List.mem_cons, h2]
      simp only [List.mem_cons, not_or]
      constructor
      · rintro (rfl | ⟨h3, h4, h5⟩)
        · exact ⟨Or.inl rfl, hd'⟩
        · exact ⟨Or.inr h3, h5⟩
      · rintro ⟨rfl | h3, h4⟩
        · exact Or.inl rfl
        · by_cases he : x = l
          · exact Or.inl he
          · exact Or.inr ⟨h3, he, h4⟩

/-- **C98** (coarse loops). For all closed fine walks `ws`, every map `vm` of the fine to the coarse vertices, and every way `datas` in which
the processes give the mapped steps of each of the walks (any order, each step once): the computation ends; no two of the loops it finds are equal
lists; each is a closed walk of at least three vertices, all different, that starts at the smallest of them; all its steps are mapped steps of one of
the fine walks, in one of the two directions; and the image of every fine walk, as a sum of oriented edges, is a combination of the loops found. -/
theorem coarseLoops_correct_partial (vm : F → V) (ws : List (List F)) (datas : List (List (V × V)))
    (hd : List.Forall₂ (fun w d => Closed w ∧ d.Perm (pushSteps vm w)) ws datas) :
    ∃ R, coarseLoops datas = some R ∧ R.Nodup ∧
      (∀ l ∈ R, SimpleLoop l ∧ 4 ≤ l.length ∧ (∃ v, l.head? = some v ∧ ∀ x ∈ l, v ≤ x) ∧
        ∃ w ∈ ws, (∀ x ∈ steps l, x ∈ pushSteps vm w) ∨ (∀ x ∈ steps l, x.swap ∈ pushSteps vm w)) ∧
      ∀ w ∈ ws, Combination R (net (pushSteps vm w)) := by
  have key : ∃ Rs, datas.mapM itLoop = some Rs ∧ (∀ l ∈ Rs.flatten, SimpleLoop l ∧ 4 ≤ l.length ∧ (∃ v, l.head? = some v ∧ ∀ x ∈ l, v ≤ x) ∧
        ∃ w ∈ ws, (∀ x ∈ steps l, x ∈ pushSteps vm w) ∨ (∀ x ∈ steps l, x.swap ∈ pushSteps vm w)) ∧
      ∀ Q : List (List V), Q.Nodup → (∀ l ∈ Rs.flatten, l ∈ Q) → ∀ w ∈ ws, Combination Q (net (pushSteps vm w)) := by
    induction hd with
    | nil => exact ⟨[], by simp, by simp, by simp⟩
    | @cons w d ws datas hwd hrest ih =>
      obtain ⟨Rs, h1, h2, h3⟩ := ih
      obtain ⟨hw, hp⟩ := hwd
      obtain ⟨R, r1, r2, r3⟩ := itLoop_correct (Balanced.perm hp (push_balanced vm hw)) (fun x hx => push_noself vm w x (hp.subset hx))
      refine ⟨R :: Rs, by simp [r1, h1], ?_, ?_⟩
      · intro l hl
        rw [List.flatten_cons, List.mem_append] at hl
        rcases hl with hl | hl
        · obtain ⟨q1, q2, q3, q4⟩ := r2 l hl
          refine ⟨q1, q2, q3, w, by simp, ?_⟩
          rcases q4 with q4 | q4
          · exact Or.inl fun x hx => hp.subset (q4 x hx)
          · exact Or.inr fun x hx => hp.subset (q4 x hx)
        · obtain ⟨q1, q2, q3, w', hw', q4⟩ := h2 l hl
          exact ⟨q1, q2, q3, w', by simp [hw'], q4⟩
      · intro Q hQ hsub w' hw'
        rcases List.mem_cons.1 hw' with rfl | hw'
        · exact comb_congr (r3 Q hQ fun l hl => hsub l (by simp [hl])) fun a b => (net_perm hp a b).symm
        · exact h3 Q hQ (fun l hl => hsub l (by rw [List.flatten_cons, List.mem_append]; exact Or.inr hl)) w' hw'
  obtain ⟨Rs, h1, h2, h3⟩ := key
  obtain ⟨n1, n2⟩ := noDups_spec Rs.flatten []
  refine ⟨noDups [] Rs.flatten, by rw [coarseLoops, allCLoops, h1]; rfl, n1, ?_, ?_⟩
  · intro l hl; exact h2 l ((n2 l).1 hl).1
  · exact h3 _ n1 fun l hl => (n2 l).2 ⟨hl, by simp⟩

end NgsAMG.Loop
