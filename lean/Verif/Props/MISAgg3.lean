import Verif.Props.MISAgg2

/-!
# C91: the second loop, the fixed agglomerates, the result
-/

namespace NgsAMG.MIS
open NgsAMG.CMap NgsAMG.Spec

variable {E : Env}

/-- the one case in which the code takes a vertex it must not take: no hanging vertex hangs on a vertex that is the own process's, but Dirichlet or in a fixed agglomerate -/
def HangOK (E : Env) : Prop := ∀ v N, marked0 E v = false → E.nb v = [N] → mine E N = true → E.leq (E.eq v) (E.eq N) = true → marked0 E N = false

theorem Keeps.trans {s t u : St} (h : Keeps s t) (h' : Keeps t u) : Keeps s u := fun w a hw => h' w a (h w a hw)

theorem neibAggs_spec {v : ℕ} : ∀ (l : List ℕ) (s : St) (take no : List ℕ),
    Same s (neibAggs E v l (s, take, no)).1 ∧ (neibAggs E v l (s, take, no)).1.dist = s.dist ∧
    ∀ a ∈ (neibAggs E v l (s, take, no)).2.1, a ∈ take ∨ ∃ n ∈ l, s.v2a n = some a ∧ s.dist n < bound E ∧ E.leq (E.eq v) (E.eq ((s.aggs[a]?).elim 0 Agg.center)) = true
  | [], s, take, no => ⟨⟨rfl, rfl, rfl, fun _ _ => rfl⟩, rfl, fun a ha => Or.inl ha⟩
  | n :: l, s, take, no => by
    have hk : ∀ t : St, Same s t → t.dist = s.dist → ∀ tk nn : List ℕ,
        (∀ a ∈ tk, a ∈ take ∨ (s.v2a n = some a ∧ s.dist n < bound E ∧ E.leq (E.eq v) (E.eq ((s.aggs[a]?).elim 0 Agg.center)) = true)) →
        Same s (neibAggs E v l (t, tk, nn)).1 ∧ (neibAggs E v l (t, tk, nn)).1.dist = s.dist ∧
        ∀ a ∈ (neibAggs E v l (t, tk, nn)).2.1, a ∈ take ∨ ∃ n' ∈ n :: l, s.v2a n' = some a ∧ s.dist n' < bound E ∧ E.leq (E.eq v) (E.eq ((s.aggs[a]?).elim 0 Agg.center)) = true := by
      intro t ht hd tk nn htk
      obtain ⟨h1, h2, h3⟩ := neibAggs_spec l t tk nn
      refine ⟨⟨h1.aggs.trans ht.aggs, h1.v2a.trans ht.v2a, h1.marked.trans ht.marked, fun w _ => by rw [h2, hd]⟩, h2.trans hd, ?_⟩
      intro a ha
      rcases h3 a ha with h | ⟨n', hn', h4, h5, h6⟩
      · rcases htk a h with h | h
        · exact Or.inl h
        · exact Or.inr ⟨n, by simp, h⟩
      · rw [ht.v2a] at h4
        rw [hd] at h5
        rw [ht.aggs] at h6
        exact Or.inr ⟨n', by simp [hn'], h4, h5, h6⟩
    rw [neibAggs]
    split
    · rename_i a hva
      split
      · rename_i hc
        simp only [Bool.and_eq_true, decide_eq_true_eq] at hc
        have hlt : s.dist n < bound E := by
          have := hc.1.1.1.2
          unfold bound
          unfold maxDist at this
          split at this
          · rename_i hd
            rw [if_pos hd]
            omega
          · rename_i hd
            rw [if_neg hd]
            omega
        split
        · refine hk (tested s) ⟨rfl, rfl, rfl, fun _ _ => rfl⟩ rfl _ _ ?_
          intro b hb
          rw [List.mem_append, List.mem_singleton] at hb
          rcases hb with hb | rfl
          · exact Or.inl hb
          · exact Or.inr ⟨hva, hlt, hc.1.1.2⟩
        · exact hk (tested s) ⟨rfl, rfl, rfl, fun _ _ => rfl⟩ rfl _ _ fun b hb => Or.inl hb
      · exact hk _ ⟨rfl, rfl, rfl, fun _ _ => rfl⟩ rfl _ _ fun b hb => Or.inl hb
    · exact hk _ ⟨rfl, rfl, rfl, fun _ _ => rfl⟩ rfl _ _ fun b hb => Or.inl hb

theorem foldl_min (d : ℕ → ℤ) : ∀ (l : List ℕ) (m : ℤ), l.foldl (fun m w => min m (d w)) m ≤ m ∧ (∀ w ∈ l, l.foldl (fun m w => min m (d w)) m ≤ d w) ∧
    (l.foldl (fun m w => min m (d w)) m = m ∨ ∃ w ∈ l, l.foldl (fun m w => min m (d w)) m = d w)
  | [], m => ⟨le_refl _, by simp, Or.inl rfl⟩
  | w :: l, m => by
    obtain ⟨h1, h2, h3⟩ := foldl_min d l (min m (d w))
    rw [List.foldl_cons]
    refine ⟨h1.trans (min_le_left _ _), ?_, ?_⟩
    · intro x hx
      rcases List.mem_cons.1 hx with rfl | hx
      · exact h1.trans (min_le_right _ _)
      · exact h2 x hx
    · rcases h3 with h | ⟨x, hx, h⟩
      · rcases le_total m (d w) with hle | hle
        · left
          rw [h, min_eq_left hle]
        · right
          exact ⟨w, by simp, by rw [h, min_eq_right hle]⟩
      · right
        exact ⟨x, by simp [hx], h⟩

theorem Inv0.get {s : St} (h : Inv0 E s) {v a : ℕ} (hv : s.v2a v = some a) : ∃ g, s.aggs[a]? = some g ∧ v ∈ g.mems ∧ g ∈ s.aggs := by
  obtain ⟨g, hg, hm⟩ := (h.disj.mem v a).1 hv
  exact ⟨g, hg, hm, List.mem_of_getElem? hg⟩

/-- the second loop: a vertex that is not taken is put into one agglomerate -/
theorem finishV_inv (hE : EnvOK E) (hH : HangOK E) {s : St} (h : Inv0 E s) (v : ℕ) :
    ∃ s', finishV E s v = some s' ∧ Inv0 E s' ∧ Keeps s s' ∧ (marked0 E v = false → (E.solid.isSome = true → mine E v = true) → s'.v2a v ≠ none) := by
  rw [finishV]
  by_cases hv : s.marked v = true
  · rw [if_pos hv]
    refine ⟨s, rfl, h, fun _ _ h => h, fun h0 _ => ?_⟩
    rw [h.marked, h0, Bool.false_or] at hv
    intro e
    rw [e] at hv
    cases hv
  rw [if_neg hv]
  have hv : s.marked v = false := by simpa using hv
  by_cases hs : (E.solid.isSome && !mine E v) = true
  · rw [if_pos hs]
    refine ⟨s, rfl, h, fun _ _ h => h, fun _ h1 => ?_⟩
    simp only [Bool.and_eq_true, Bool.not_eq_true'] at hs
    rw [h1 hs.1] at hs
    cases hs.2
  rw [if_neg hs]
  obtain ⟨h0, hn⟩ := h.unmarked hv
  have hforce : ∀ t : St, Same s t → ∃ s', some (initAgg E t v (E.eq v) true).1 = some s' ∧ Inv0 E s' ∧ Keeps s s' ∧ (marked0 E v = false → (E.solid.isSome = true → mine E v = true) → s'.v2a v ≠ none) := by
    intro t ht
    obtain ⟨h1, h2, h3⟩ := initAgg_inv hE (h.same ht) (v := v) (by rw [ht.marked]; exact hv) true
    refine ⟨_, rfl, h1, ?_, fun _ _ => by rw [h3 rfl]; simp⟩
    intro w a hw
    exact h2 w a (by rw [ht.v2a]; exact hw)
  have hst : Same s (tested s) := ⟨rfl, rfl, rfl, fun _ _ => rfl⟩
  split
  · rename_i N hN
    have hvN : v ∈ E.nb N := hE.symm v N (by rw [hN]; simp)
    split
    · rename_i a hNa
      split
      · rename_i hl
        split
        · obtain ⟨g, hg, hNg, hgm⟩ := h.get hNa
          have hdN : s.dist N ≤ bound E := by
            by_contra hlt
            exact h.far N a hNa (by omega) v hvN hn
          refine ⟨_, rfl, ?_, ?_, fun _ _ => by rw [addTo_self]; simp⟩
          · refine Inv0.addTo hE h.tested (g := g) hv hg (hE.trans _ _ _ hl (h.leq g hgm N hNg)) hNg hvN (le_refl _) (by show 1 + s.dist N ≤ _; omega) ?_
            intro _ n hnn
            rw [hN, List.mem_singleton] at hnn
            rw [hnn]
            show s.v2a N ≠ none
            rw [hNa]
            simp
          · exact addTo_keeps (s := tested s) hn
        · exact hforce _ hst
      · exact hforce _ ⟨rfl, rfl, rfl, fun _ _ => rfl⟩
    · rename_i hNn
      split
      · rename_i hc
        simp only [Bool.and_eq_true] at hc
        have hN0 := hH v N h0 hN hc.1 hc.2
        have hNm : s.marked N = false := by
          rw [h.marked, hN0, hNn]
          rfl
        rcases initAgg_grown (veq := E.eq N) hE hNm h.hun true with ⟨ms, hgr⟩ | ⟨hf, -⟩
        swap
        · cases hf
        have h1 := h.grown hE hNm hgr
        have hk := hgr.keeps h hNm
        dsimp only
        generalize (initAgg E s N (E.eq N) true).1 = s1 at hgr h1 hk ⊢
        split
        · rename_i hm
          refine ⟨_, rfl, h1, hk, fun _ _ => ?_⟩
          rw [h1.marked, h0, Bool.false_or] at hm
          intro e
          rw [e] at hm
          cases hm
        · rename_i hm
          have hm : s1.marked v = false := by simpa using hm
          have hN1 : s1.v2a N = some s.aggs.length := by rw [hgr.v2a, if_pos hgr.cen]
          rw [hN1]
          have hb := bound_pos E
          refine ⟨_, rfl, ?_, hk.trans (addTo_keeps (h1.unmarked hm).2), fun _ _ => by rw [addTo_self]; simp⟩
          refine h1.addTo hE hm (g := ⟨N, ms⟩) (by rw [hgr.aggs]; simp) hc.2 hgr.cen hvN (by rw [hgr.dcen]; simp) (by omega) (by omega)
      · exact hforce _ ⟨rfl, rfl, rfl, fun _ _ => rfl⟩
  · obtain ⟨h1, h2, h3⟩ := neibAggs_spec (E := E) (v := v) (E.nb v) s [] []
    dsimp only
    generalize neibAggs E v (E.nb v) (s, [], []) = r at h1 h2 h3 ⊢
    split
    · exact hforce _ h1
    · rename_i hne
      have hpos : 0 < r.2.1.length := by
        rw [List.length_pos_iff]
        simpa using hne
      have hp := hE.pick r.1.k r.2.1.length hpos
      rw [List.getElem?_eq_getElem hp]
      obtain ⟨n, hnn, hna, hdn, hl⟩ := (h3 _ (List.getElem_mem hp)).resolve_left (by simp)
      generalize r.2.1[E.pick r.1.k r.2.1.length] = a at hna hl ⊢
      obtain ⟨g, hg, hng, hgm⟩ := h.get hna
      rw [hg, Option.elim_some] at hl
      have h1i := h.same h1
      have hg1 : r.1.aggs[a]? = some g := by rw [h1.aggs]; exact hg
      have hm1 : r.1.marked v = false := by rw [h1.marked]; exact hv
      refine ⟨_, rfl, ?_, ?_, fun _ _ => by rw [addTo_self]; simp⟩
      · dsimp only
        rw [hg1, Option.elim_some, h2]
        obtain ⟨-, hmin, hatt⟩ := foldl_min s.dist (g.mems.filter fun w => w ∈ E.nb v) 1000
        have hle := hmin n (by simp [hng, hnn])
        have hb : bound E ≤ 3 := by unfold bound; split <;> omega
        rcases hatt with hatt | ⟨u, hu, hatt⟩
        · omega
        · simp only [List.mem_filter, decide_eq_true_eq] at hu
          refine h1i.addTo hE hm1 hg1 hl hu.1 (hE.symm _ _ hu.2) ?_ (by omega) (by omega)
          rw [h2, hatt]
      · refine Keeps.trans ?_ (addTo_keeps (h1i.unmarked hm1).2)
        intro w b hw
        rw [h1.v2a]
        exact hw

theorem checkAll_inv (hE : EnvOK E) : ∀ (l : List ℕ) (s : St), Inv0 E s → Inv0 E (l.foldl (checkV E) s)
  | [], _, h => h
  | v :: l, _, h => checkAll_inv hE l _ (checkV_inv hE h v).1

theorem finishAll_inv (hE : EnvOK E) (hH : HangOK E) : ∀ (l : List ℕ) (s : St), Inv0 E s →
    ∃ s', l.foldlM (finishV E) s = some s' ∧ Inv0 E s' ∧ Keeps s s' ∧ ∀ v ∈ l, marked0 E v = false → (E.solid.isSome = true → mine E v = true) → s'.v2a v ≠ none
  | [], s, h => ⟨s, rfl, h, fun _ _ h => h, by simp⟩
  | v :: l, s, h => by
    obtain ⟨s1, h1, h2, h3, h4⟩ := finishV_inv hE hH h v
    obtain ⟨s2, k1, k2, k3, k4⟩ := finishAll_inv hE hH l s1 h2
    refine ⟨s2, by rw [List.foldlM_cons, h1]; exact k1, k2, h3.trans k3, ?_⟩
    intro w hw h0 hm
    rcases List.mem_cons.1 hw with rfl | hw
    · obtain ⟨a, ha⟩ := Option.ne_none_iff_exists'.1 (h4 h0 hm)
      rw [k3 w a ha]
      simp
    · exact k4 w hw h0 hm

theorem st0_inv (E : Env) : Inv0 E (st0 E) :=
  ⟨⟨by simp [st0], by simp [st0], by simp [st0]⟩, by simp [st0], by simp [st0], by simp [st0], by simp [st0], by simp [st0]⟩

/-- a fixed agglomerate as it is stored -/
def Stored (f : List ℕ) (g : Agg) : Prop := g.mems.Perm f ∧ f.head? = some g.center

theorem insertAll_perm : ∀ (f m : List ℕ), (f.foldl (fun m v => m.orderedInsert (· ≤ ·) v) m).Perm (f ++ m)
  | [], m => List.Perm.refl _
  | v :: f, m => by
    rw [List.foldl_cons]
    refine (insertAll_perm f _).trans ?_
    refine (List.Perm.append_left f (List.perm_orderedInsert (· ≤ ·) v m)).trans ?_
    exact List.perm_middle

theorem insertAll_sorted : ∀ (f m : List ℕ), m.Pairwise (· ≤ ·) → (f.foldl (fun m v => m.orderedInsert (· ≤ ·) v) m).Pairwise (· ≤ ·)
  | [], m, h => h
  | v :: f, m, h => insertAll_sorted f _ (List.Pairwise.orderedInsert v m h)

theorem addFixed_spec {s : St} {f : List ℕ} (hf : f ≠ []) (hnd : f.Nodup) (h : Disjoint s.aggs s.v2a) (hfree : ∀ v ∈ f, s.v2a v = none) :
    ∃ s' g, addFixed s f = some s' ∧ Disjoint s'.aggs s'.v2a ∧ s'.aggs = s.aggs ++ [g] ∧ Stored f g ∧ ∀ v, s'.v2a v = if v ∈ f then some s.aggs.length else s.v2a v := by
  obtain ⟨c, t, rfl⟩ : ∃ c t, f = c :: t := List.exists_cons_of_ne_nil hf
  have hperm : (t.foldl (fun m v => m.orderedInsert (· ≤ ·) v) [c]).Perm (c :: t) := (insertAll_perm t [c]).trans (List.perm_append_singleton c t)
  refine ⟨_, ⟨c, t.foldl (fun m v => m.orderedInsert (· ≤ ·) v) [c]⟩, rfl, ⟨?_, ?_, ?_⟩, rfl, ⟨hperm, rfl⟩, fun _ => rfl⟩
  · intro w a
    dsimp only [List.tail_cons]
    by_cases hw : w ∈ c :: t
    · rw [if_pos hw]
      constructor
      · intro e
        cases e
        exact ⟨⟨c, t.foldl (fun m v => m.orderedInsert (· ≤ ·) v) [c]⟩, by simp, hperm.mem_iff.2 hw⟩
      · rintro ⟨g, hga, hwg⟩
        rcases lt_or_ge a s.aggs.length with hlt | hge
        · rw [List.getElem?_append_left hlt] at hga
          have := (h.mem w a).2 ⟨g, hga, hwg⟩
          rw [hfree w hw] at this
          cases this
        · have hl := (List.getElem?_eq_some_iff.1 hga).1
          simp at hl
          congr 1
          omega
    · rw [if_neg hw, h.mem]
      constructor
      · rintro ⟨g, hga, hwg⟩
        exact ⟨g, by rw [List.getElem?_append_left (List.getElem?_eq_some_iff.1 hga).1]; exact hga, hwg⟩
      · rintro ⟨g, hga, hwg⟩
        rcases lt_or_ge a s.aggs.length with hlt | hge
        · rw [List.getElem?_append_left hlt] at hga
          exact ⟨g, hga, hwg⟩
        · have hl := (List.getElem?_eq_some_iff.1 hga).1
          have ha : a = s.aggs.length := by simp at hl; omega
          subst ha
          simp at hga
          subst hga
          exact absurd (hperm.mem_iff.1 hwg) hw
  · intro g hg
    simp only [List.tail_cons, List.mem_append, List.mem_singleton] at hg
    rcases hg with hg | rfl
    · exact h.cen g hg
    · exact hperm.mem_iff.2 (by simp)
  · intro g hg
    simp only [List.tail_cons, List.mem_append, List.mem_singleton] at hg
    rcases hg with hg | rfl
    · exact h.asc g hg
    · have h1 := insertAll_sorted t [c] (by simp)
      exact (h1.and (hperm.nodup_iff.2 hnd)).imp fun h => lt_of_le_of_ne h.1 h.2

theorem addAllFixed_spec : ∀ (fs : List (List ℕ)) (s : St), (∀ f ∈ fs, f ≠ [] ∧ f.Nodup) → fs.Pairwise List.Disjoint → Disjoint s.aggs s.v2a → (∀ f ∈ fs, ∀ v ∈ f, s.v2a v = none) →
    ∃ s' gs, fs.foldlM addFixed s = some s' ∧ Disjoint s'.aggs s'.v2a ∧ s'.aggs = s.aggs ++ gs ∧ List.Forall₂ Stored fs gs ∧
      (∀ v a, s.v2a v = some a → s'.v2a v = some a) ∧ (∀ v, (∀ f ∈ fs, v ∉ f) → s'.v2a v = s.v2a v)
  | [], s, _, _, h, _ => ⟨s, [], rfl, h, by simp, .nil, fun _ _ h => h, fun _ _ => rfl⟩
  | f :: fs, s, hf, hp, h, hfree => by
    rw [List.pairwise_cons] at hp
    obtain ⟨s1, g, h1, h2, h3, h4, h5⟩ := addFixed_spec (hf f (by simp)).1 (hf f (by simp)).2 h (hfree f (by simp))
    obtain ⟨s2, gs, k1, k2, k3, k4, k5, k6⟩ := addAllFixed_spec fs s1 (fun f' hf' => hf f' (by simp [hf'])) hp.2 h2 (by
      intro f' hf' v hv
      rw [h5, if_neg (fun hvf => hp.1 f' hf' hvf hv)]
      exact hfree f' (by simp [hf']) v hv)
    refine ⟨s2, g :: gs, by rw [List.foldlM_cons, h1]; exact k1, k2, by rw [k3, h3]; simp, .cons h4 k4, ?_, ?_⟩
    · intro v a hv
      refine k5 v a ?_
      rw [h5, if_neg]
      · exact hv
      · intro hvf
        rw [hfree f (by simp) v hvf] at hv
        cases hv
    · intro v hv
      rw [k6 v (fun f' hf' => hv f' (by simp [hf'])), h5, if_neg (hv f (by simp))]

end NgsAMG.MIS
