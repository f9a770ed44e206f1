import Verif.Props.MISAgg3
import Verif.Props.CoarseMap2
import Verif.Props.BTM9

/-!
# C91: agglomerates of the MIS algorithm
-/

namespace NgsAMG.MIS
open NgsAMG.CMap NgsAMG.Spec

variable {E : Env}

/-- the rows of the table of fixed agglomerates -/
structure FixedOK (E : Env) : Prop where
  rows : ∀ f ∈ E.fixed, f ≠ [] ∧ f.Nodup
  disj : E.fixed.Pairwise List.Disjoint

/-- specification of the agglomerates of a process: disjoint sets with their centres; first the computed ones `cs`, then the fixed ones, unchanged. A computed agglomerate contains only free vertices that are
in no fixed agglomerate and that the process may use, is connected, has radius at most 4 (3 without the option `dist2`), and the processes of every member also have the centre. Every free vertex of the process
is in one -/
structure Formed (E : Env) (aggs : List Agg) (v2a : ℕ → Option ℕ) : Prop where
  disj : Disjoint aggs v2a
  parts : ∃ cs fs, aggs = cs ++ fs ∧ List.Forall₂ (fun f g => g.mems.Perm f ∧ f.head? = some g.center) E.fixed fs ∧ ∀ g ∈ cs, ∀ v ∈ g.mems,
    Walk E.nb g.mems g.center v (if E.dist2 then 4 else 3) ∧ E.leq (E.eq v) (E.eq g.center) = true ∧ E.free v = true ∧ (∀ f ∈ E.fixed, v ∉ f) ∧
    (E.solid = none → E.master (E.eq v) = true) ∧ ∀ sv, E.solid = some sv → E.eq v = 0 ∨ sv v = true
  all : ∀ v ∈ E.verts, E.free v = true → (E.solid = none → E.master (E.eq v) = true) → (∀ sv, E.solid = some sv → sv v = true) → v2a v ≠ none
  none : ∀ v, E.free v = false → (∀ f ∈ E.fixed, v ∉ f) → v2a v = none

theorem marked0_false {v : ℕ} : marked0 E v = false ↔ (∀ f ∈ E.fixed, v ∉ f) ∧ E.free v = true ∧ (E.solid = none → E.master (E.eq v) = true) ∧ ∀ sv, E.solid = some sv → E.eq v = 0 ∨ sv v = true := by
  unfold marked0
  simp only [Bool.or_eq_false_iff, List.any_eq_false, List.contains_iff_mem, Bool.not_eq_false']
  cases hs : E.solid with
  | none => simp; tauto
  | some sv =>
    simp only [Bool.and_eq_false_iff, decide_eq_false_iff_not, Bool.not_eq_false', reduceCtorEq, false_implies, true_and, Option.some.injEq, forall_eq', Nat.not_lt, Nat.le_zero]
    tauto

/-- **`FormAgglomerates`**: for every outcome of the floating point tests and every order of the candidates the run succeeds and gives disjoint, connected agglomerates of small radius that contain every free
vertex of the process and no other ones; missing: `HangOK`, without which it is false (`dirichlet_taken`, `fixed_twice`). -/
theorem form_correct_partial (hE : EnvOK E) (hF : FixedOK E) (hH : HangOK E) : ∃ s, form E = some s ∧ Formed E s.aggs s.v2a := by
  have h0 := checkAll_inv hE (order E) _ (st0_inv E)
  obtain ⟨s1, h1, h2, -, h4⟩ := finishAll_inv hE hH (E.verts.filter fun v => E.solid.isSome || E.master (E.eq v)) _ h0
  have hno : ∀ f ∈ E.fixed, ∀ v ∈ f, s1.v2a v = none := by
    intro f hf v hv
    by_contra hne
    obtain ⟨a, ha⟩ := Option.ne_none_iff_exists'.1 hne
    exact (marked0_false.1 (h2.fresh v a ha)).1 f hf hv
  obtain ⟨s2, gs, k1, k2, k3, k4, k5, k6⟩ := addAllFixed_spec E.fixed s1 hF.rows hF.disj h2.disj hno
  refine ⟨s2, by rw [form, h1]; exact k1, k2, ⟨s1.aggs, gs, k3, k4, ?_⟩, ?_, ?_⟩
  · intro g hg v hv
    obtain ⟨a, ha⟩ := List.mem_iff_getElem?.1 hg
    have hf := marked0_false.1 (h2.fresh v a ((h2.disj.mem v a).2 ⟨g, ha, hv⟩))
    obtain ⟨w0, w1, w2⟩ := h2.walk g hg v hv
    refine ⟨walk_mono w2 (fun _ h => h) ?_, h2.leq g hg v hv, hf.2.1, hf.1, hf.2.2⟩
    unfold bound at w1
    split at w1
    · rename_i hd
      rw [if_pos hd]
      omega
    · rename_i hd
      rw [if_neg hd]
      omega
  · intro v hv hfree hm hs
    by_cases hfx : ∀ f ∈ E.fixed, v ∉ f
    · have hm0 : marked0 E v = false := marked0_false.2 ⟨hfx, hfree, hm, fun sv h => Or.inr (hs sv h)⟩
      have hmine : E.solid.isSome = true → mine E v = true := by
        intro h
        obtain ⟨sv, hsv⟩ := Option.isSome_iff_exists.1 h
        rw [mine, hsv]
        exact hs sv hsv
      have hne := h4 v (by
        rw [List.mem_filter]
        refine ⟨hv, ?_⟩
        cases hsol : E.solid with
        | none => simp [hm hsol]
        | some _ => simp) hm0 hmine
      obtain ⟨a, ha⟩ := Option.ne_none_iff_exists'.1 hne
      rw [k5 v a ha]
      simp
    · push Not at hfx
      obtain ⟨f, hf, hvf⟩ := hfx
      obtain ⟨i, hi⟩ := List.mem_iff_getElem?.1 hf
      have hlen := k4.length_eq
      have hil : i < gs.length := by
        rw [← hlen]
        exact (List.getElem?_eq_some_iff.1 hi).1
      have hst := List.forall₂_iff_get.1 k4 |>.2 i (List.getElem?_eq_some_iff.1 hi).1 hil
      have hfi : E.fixed.get ⟨i, (List.getElem?_eq_some_iff.1 hi).1⟩ = f := (List.getElem?_eq_some_iff.1 hi).2
      rw [hfi] at hst
      have : s2.v2a v = some (s1.aggs.length + i) := by
        rw [k2.mem]
        refine ⟨gs[i], ?_, hst.1.mem_iff.2 hvf⟩
        rw [k3, List.getElem?_append_right (by omega)]
        simp [hil]
      rw [this]
      simp
  · intro v hfree hfx
    rw [k6 v hfx]
    by_contra hne
    obtain ⟨a, ha⟩ := Option.ne_none_iff_exists'.1 hne
    rw [(marked0_false.1 (h2.fresh v a ha)).2.1] at hfree
    cases hfree

/-! ### without `dist2` an agglomerate starts with a triangle fan -/

theorem greedy_sub {v : ℕ} {a : ℕ} (hE : EnvOK E) (P : ℕ → Prop) : ∀ (f : ℕ) (q : List ℕ) (ec : ℕ → ℤ) (s : St), (∀ n ∈ q, P n) →
    ∀ w, (greedy E a v f q ec s).v2a w = s.v2a w ∨ P w
  | 0, _, _, _, _, _ => Or.inl rfl
  | f + 1, q, ec, s, hq, w => by
    rw [greedy]
    cases hl : q.getLast? with
    | none => exact Or.inl rfl
    | some n =>
      obtain ⟨q', rfl⟩ : ∃ q', q = q' ++ [n] := by
        rw [List.getLast?_eq_some_iff] at hl
        exact hl
      dsimp only
      rw [List.dropLast_concat]
      split
      · rcases greedy_sub hE P f _ _ (addTo (tested s) a n 1) (fun m hm => hq m (List.mem_append_left _ ((hE.srt _ _).mem_iff.1 hm))) w with h | h
        · by_cases e : w = n
          · right
            rw [e]
            exact hq n (by simp)
          · left
            refine h.trans ?_
            simp [addTo, tested, Function.update_apply, e]
        · exact Or.inr h
      · exact greedy_sub hE P f _ _ (tested s) (fun m hm => hq m (by simp [hm])) w

/-- dropping the locked-out neighbours from the sorted list leaves exactly the other ones -/
theorem drop_sorted {α : Type*} [DecidableEq α] (f : α → ℤ) {l out q : List α} (hl : l.Pairwise fun a b => f a ≤ f b) (hp : l.Perm q) (hnd : q.Nodup) (hod : out.Nodup) (hoq : ∀ x ∈ out, x ∈ q)
    (hlt : ∀ x ∈ out, ∀ y ∈ q, y ∉ out → f x < f y) : ∀ y ∈ l.drop out.length, y ∉ out := by
  have hln : l.Nodup := hp.nodup_iff.2 hnd
  intro y hy hyo
  obtain ⟨j, hj, hjy⟩ := List.getElem_of_mem hy
  rw [List.getElem_drop] at hjy
  have hjl : out.length + j < l.length := by
    rw [List.length_drop] at hj
    omega
  -- all elements before `y` are in `out`
  have hall : ∀ x ∈ l.take (out.length + j + 1), x ∈ out := by
    intro x hx
    by_contra hxo
    obtain ⟨i, hi, hix⟩ := List.getElem_of_mem hx
    rw [List.getElem_take] at hix
    rw [List.length_take] at hi
    have hne : i ≠ out.length + j := by
      rintro rfl
      rw [hjy] at hix
      exact hxo (hix ▸ hyo)
    have hle := List.pairwise_iff_getElem.1 hl i (out.length + j) (by omega) hjl (by omega)
    rw [hix, hjy] at hle
    have := hlt y hyo x (hp.mem_iff.1 (List.mem_of_mem_take hx)) hxo
    omega
  have hsub := (hln.sublist (List.take_sublist (out.length + j + 1) l)).subperm hall
  have := hsub.length_le
  rw [List.length_take] at this
  omega

/-- **without `dist2`** the vertices that `init_agglomerate` puts together after the first pair are neighbours of both of them -/
theorem fill_common (hE : EnvOK E) (hsrt : ∀ f l, (E.srt f l).Pairwise fun a b => f a ≤ f b) (hd : E.dist2 = false) (a v veq n1 : ℕ) (s : St) :
    ∀ w, (fill E a v veq n1 s).v2a w = s.v2a w ∨ (w ∈ E.nb v ∧ w ∈ E.nb n1) := by
  rw [fill]
  refine greedy_sub hE _ _ _ _ _ ?_
  intro n hn
  have hq := (hE.srt _ _).mem_iff.1 (List.mem_of_mem_drop hn)
  rw [List.mem_filter] at hq
  refine ⟨hq.1, ?_⟩
  by_contra hn1
  have hout : lockout E s v veq n1 = (E.nb v).filter fun j => decide (j ∉ E.nb n1) && decide (ecnt E s v veq n1 j ≠ -1) := by
    rw [lockout, hd]
    rfl
  have hmem : ∀ x, x ∈ lockout E s v veq n1 ↔ x ∈ E.nb v ∧ x ∉ E.nb n1 ∧ mayCheck E s veq x = true := by
    intro x
    rw [hout, List.mem_filter]
    simp only [Bool.and_eq_true, decide_eq_true_eq]
    constructor
    · rintro ⟨h1, h2, h3⟩
      refine ⟨h1, h2, ?_⟩
      by_contra h
      rw [ecnt, if_neg h] at h3
      exact h3 rfl
    · rintro ⟨h1, h2, h3⟩
      refine ⟨h1, h2, ?_⟩
      rw [ecnt, if_pos h3]
      split <;> omega
  refine drop_sorted _ (hsrt _ _) (hE.srt _ _) ((hE.nodup v).filter _) (hout ▸ (hE.nodup v).filter _) ?_ ?_ n hn ((hmem n).2 ⟨hq.1, hn1, hq.2⟩)
  · intro x hx
    rw [hmem] at hx
    rw [List.mem_filter]
    exact ⟨hx.1, hx.2.2⟩
  · intro x hx y hy hyo
    rw [List.mem_filter] at hy
    rw [if_pos hx, if_neg hyo, ecnt, if_pos hy.2]
    split <;> omega

theorem firstNeib_sub {a veq : ℕ} : ∀ (l : List ℕ) (s : St) (w : ℕ), (firstNeib E a veq l s).1.v2a w = s.v2a w ∨ (firstNeib E a veq l s).2 = some w
  | [], _, _ => Or.inl rfl
  | n :: l, s, w => by
    rw [firstNeib]
    split
    · split
      · by_cases e : w = n
        · right
          rw [e]
        · left
          simp [addTo, tested, Function.update_apply, e]
      · exact firstNeib_sub l (tested s) w
    · exact firstNeib_sub l s w

/-- **without `dist2`** an agglomerate starts as a fan: there is one vertex `n1` such that all vertices put together with `v` are neighbours of `v` and of `n1` -/
theorem grow_common (hE : EnvOK E) (hsrt : ∀ f l, (E.srt f l).Pairwise fun a b => f a ≤ f b) (hd : E.dist2 = false) (s : St) (v veq : ℕ) :
    ∃ n1, ∀ w, (grow E s v veq).v2a w = s.v2a w ∨ w = v ∨ w = n1 ∨ (w ∈ E.nb v ∧ w ∈ E.nb n1) := by
  have hs : ∀ w, (start s v).v2a w = s.v2a w ∨ w = v := by
    intro w
    by_cases e : w = v
    · exact Or.inr e
    · left
      simp [start, Function.update_apply, e]
  rw [grow]
  have hf := fun w => firstNeib_sub (E := E) (a := s.aggs.length) (veq := veq) (E.ord s.k (E.nb v)) (start s v) w
  generalize firstNeib E s.aggs.length veq (E.ord s.k (E.nb v)) (start s v) = r at hf ⊢
  cases h : r.2 with
  | none =>
    refine ⟨v, fun w => ?_⟩
    rcases hf w with h1 | h1
    · rcases hs w with h2 | h2
      · exact Or.inl (h1.trans h2)
      · exact Or.inr (Or.inl h2)
    · rw [h] at h1
      cases h1
  | some n1 =>
    refine ⟨n1, fun w => ?_⟩
    rcases fill_common hE hsrt hd s.aggs.length v veq n1 r.1 w with h0 | h0
    · rcases hf w with h1 | h1
      · rcases hs w with h2 | h2
        · exact Or.inl (h0.trans (h1.trans h2))
        · exact Or.inr (Or.inl h2)
      · rw [h] at h1
        cases h1
        exact Or.inr (Or.inr (Or.inl rfl))
    · exact Or.inr (Or.inr (Or.inr h0))

end NgsAMG.MIS
