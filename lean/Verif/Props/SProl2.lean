import Verif.Props.SProl

/-! C67: the graph of the smoothed prolongation. -/

namespace NgsAMG.SProl

open MapData SparseMM

variable {VD ED : Type} {n : ℕ}

/-- what is known about the input: a simple graph with its connectivity, coarse numbers in range, a sorting function that sorts -/
structure InputOK (I : Input VD ED) : Prop where
  simple : Simple I.mesh.edges
  ends : ∀ e ∈ I.mesh.edges, e.1 < I.mesh.nv ∧ e.2 < I.mesh.nv
  econ : edgeCM I.mesh.edges = some I.econ
  vlt : ∀ v c, I.vmap v = some c → c < I.ncv
  sorts : ∀ l, (I.sortDesc l).Perm l ∧ (I.sortDesc l).Pairwise fun x y => y.2 ≤ x.2

theorem InputOK.joins {I : Input VD ED} (h : InputOK I) {v m e : ℕ} : (m, e) ∈ I.econ v ↔ Joins I.mesh.edges e v m := by
  obtain ⟨econ, h1, h2, _⟩ := edgeCM_spec I.mesh.edges
  rw [h.econ] at h1
  obtain rfl := Option.some.inj h1
  exact h2 v m e

theorem InputOK.sorted {I : Input VD ED} (h : InputOK I) (v : ℕ) : ((I.econ v).map Prod.fst).Pairwise (· < ·) := by
  obtain ⟨econ, h1, _, h3⟩ := edgeCM_spec I.mesh.edges
  rw [h.econ] at h1
  obtain rfl := Option.some.inj h1
  exact h3 h.simple v

theorem InputOK.ne {I : Input VD ED} (h : InputOK I) {v m e : ℕ} (hm : (m, e) ∈ I.econ v) : m ≠ v ∧ m < I.mesh.nv := by
  rcases h.joins.1 hm with hj | hj
  · have := List.mem_of_getElem? hj
    exact ⟨(h.simple.loops _ this).symm, (h.ends _ this).2⟩
  · have := List.mem_of_getElem? hj
    exact ⟨h.simple.loops _ this, (h.ends _ this).1⟩

/-! ### candidates and their weights -/

/-- strength of the connection of `V` to a coarse vertex: sum of the approximate weights of the edges to its members -/
noncomputable def strength (E : Energy VD ED n) (I : Input VD ED) (V c : ℕ) : ℝ :=
  (((I.econ V).filter fun x => I.vmap x.1 = some c).map fun x => E.approx (I.mesh.edata x.2)).sum

/-- `c` is a candidate: a neighbour of `V` is in aggregate `c`, which is not the one of `V` and is allowed -/
def Cand (I : Input VD ED) (V CV c : ℕ) : Prop :=
  c ≠ CV ∧ I.allowed V c = true ∧ ∃ m e, Joins I.mesh.edges e V m ∧ I.vmap m = some c

theorem addWt_keys (l : List (ℕ × ℝ)) (c : ℕ) (w : ℝ) :
    (addWt l c w).map Prod.fst = if c ∈ l.map Prod.fst then l.map Prod.fst else l.map Prod.fst ++ [c] := by
  unfold addWt
  split
  · rw [List.map_map]
    refine List.map_congr_left fun x _ => ?_
    simp only [Function.comp]
    split <;> rfl
  · simp

/-- the value stored for a key (zero if there is none) -/
noncomputable def val (l : List (ℕ × ℝ)) (c : ℕ) : ℝ := ((l.filter fun x => x.1 = c).map Prod.snd).sum

theorem val_of_not_mem {l : List (ℕ × ℝ)} {c : ℕ} (h : c ∉ l.map Prod.fst) : val l c = 0 := by
  unfold val
  have : l.filter (fun x => decide (x.1 = c)) = [] := by
    rw [List.filter_eq_nil_iff]
    intro x hx hc
    simp only [decide_eq_true_eq] at hc
    exact h (List.mem_map.2 ⟨x, hx, hc⟩)
  simp [this]

theorem addWt_val (l : List (ℕ × ℝ)) (hl : (l.map Prod.fst).Nodup) (c : ℕ) (w : ℝ) (d : ℕ) :
    val (addWt l c w) d = val l d + if c = d then w else 0 := by
  unfold addWt
  split
  · rename_i hc
    induction l with
    | nil => simp at hc
    | cons x l ih =>
      rw [List.map_cons, List.nodup_cons] at hl
      by_cases hx : x.1 = c
      · have hcl : c ∉ l.map Prod.fst := by rw [← hx]; exact hl.1
        have hid : (l.map fun x => if x.1 = c then (x.1, x.2 + w) else x) = l := by
          conv_rhs => rw [← List.map_id l]
          refine List.map_congr_left fun y hy => ?_
          rw [if_neg, id]
          intro h
          exact hcl (List.mem_map.2 ⟨y, hy, h⟩)
        rw [List.map_cons, hid]
        simp only [val, hx, if_true, List.filter_cons]
        by_cases hd : c = d
        · simp only [hd, decide_true, if_true, List.map_cons, List.sum_cons]; ring
        · simp [hd]
      · have hc' : c ∈ l.map Prod.fst := by
          rw [List.map_cons, List.mem_cons] at hc
          exact hc.resolve_left (Ne.symm hx)
        have := ih hl.2 hc'
        simp only [val, List.map_cons, hx, if_false, List.filter_cons] at this ⊢
        by_cases hd : x.1 = d
        · simp only [hd, decide_true, if_true, List.map_cons, List.sum_cons, this]; ring
        · simp only [hd, decide_false, Bool.false_eq_true, if_false, this]
  · rename_i hc
    by_cases hd : c = d
    · subst hd
      rw [val_of_not_mem hc]
      have : l.filter (fun x => decide (x.1 = c)) = [] := by
        rw [List.filter_eq_nil_iff]
        intro x hx h
        simp only [decide_eq_true_eq] at h
        exact hc (List.mem_map.2 ⟨x, hx, h⟩)
      simp [val, this]
    · simp [val, hd]

theorem collectRow_spec (E : Energy VD ED n) (I : Input VD ED) (V CV : ℕ) :
    ((collectRow E I V CV).2.map Prod.fst).Nodup ∧
    (∀ c, c ∈ (collectRow E I V CV).2.map Prod.fst ↔
      c ≠ CV ∧ I.allowed V c = true ∧ ∃ x ∈ I.econ V, I.vmap x.1 = some c) ∧
    (∀ c, c ∈ (collectRow E I V CV).2.map Prod.fst → val (collectRow E I V CV).2 c = strength E I V c) ∧
    (collectRow E I V CV).1 = strength E I V CV := by
  have gen : ∀ (l : List (ℕ × ℕ)) (s : ℝ × List (ℕ × ℝ)), (s.2.map Prod.fst).Nodup →
      let r := l.foldl (fun s x => match I.vmap x.1 with
        | none => s
        | some cov =>
          if cov = CV then (s.1 + E.approx (I.mesh.edata x.2), s.2)
          else if I.allowed V cov then (s.1, addWt s.2 cov (E.approx (I.mesh.edata x.2)))
          else s) s
      (r.2.map Prod.fst).Nodup ∧
      (∀ c, c ∈ r.2.map Prod.fst ↔ c ∈ s.2.map Prod.fst ∨ (c ≠ CV ∧ I.allowed V c = true ∧ ∃ x ∈ l, I.vmap x.1 = some c)) ∧
      (∀ c, c ≠ CV → I.allowed V c = true → val r.2 c = val s.2 c +
        ((l.filter fun x => I.vmap x.1 = some c).map fun x => E.approx (I.mesh.edata x.2)).sum) ∧
      r.1 = s.1 + ((l.filter fun x => I.vmap x.1 = some CV).map fun x => E.approx (I.mesh.edata x.2)).sum := by
    intro l
    induction l with
    | nil => intro s hs; simp [hs]
    | cons x l ih =>
      intro s hs
      rw [List.foldl_cons]
      cases hv : I.vmap x.1 with
      | none =>
        obtain ⟨h1, h2, h3, h4⟩ := ih s hs
        refine ⟨h1, ?_, ?_, ?_⟩
        · intro c
          rw [h2 c]
          simp [hv]
        · intro c hc ha
          rw [h3 c hc ha]
          simp [hv]
        · rw [h4]
          simp [hv]
      | some cov =>
        dsimp only
        by_cases hcv : cov = CV
        · subst hcv
          simp only [if_true]
          obtain ⟨h1, h2, h3, h4⟩ := ih (s.1 + E.approx (I.mesh.edata x.2), s.2) hs
          refine ⟨h1, ?_, ?_, ?_⟩
          · intro c
            rw [h2 c]
            simp only [List.mem_cons, exists_eq_or_imp, hv, Option.some.injEq]
            constructor
            · rintro (h | ⟨a, b, c'⟩)
              · exact Or.inl h
              · exact Or.inr ⟨a, b, Or.inr c'⟩
            · rintro (h | ⟨a, b, (h | h)⟩)
              · exact Or.inl h
              · exact absurd h.symm a
              · exact Or.inr ⟨a, b, h⟩
          · intro c hc ha
            rw [h3 c hc ha]
            simp [hv, Ne.symm hc]
          · rw [h4]
            simp [hv, add_assoc]
        · simp only [hcv, if_false]
          cases hal : I.allowed V cov with
          | false =>
            simp only [Bool.false_eq_true, if_false]
            obtain ⟨h1, h2, h3, h4⟩ := ih s hs
            refine ⟨h1, ?_, ?_, ?_⟩
            · intro c
              rw [h2 c]
              simp only [List.mem_cons, exists_eq_or_imp, hv, Option.some.injEq]
              constructor
              · rintro (h | ⟨a, b, c'⟩)
                · exact Or.inl h
                · exact Or.inr ⟨a, b, Or.inr c'⟩
              · rintro (h | ⟨a, b, (h | h)⟩)
                · exact Or.inl h
                · subst h; rw [hal] at b; exact absurd b (by simp)
                · exact Or.inr ⟨a, b, h⟩
            · intro c hc ha
              rw [h3 c hc ha]
              have : cov ≠ c := by rintro rfl; rw [hal] at ha; exact absurd ha (by simp)
              simp [hv, this]
            · rw [h4]
              simp [hv, hcv]
          | true =>
            simp only [if_true]
            have hnd : ((addWt s.2 cov (E.approx (I.mesh.edata x.2))).map Prod.fst).Nodup := by
              rw [addWt_keys]
              split
              · exact hs
              · rename_i h
                rw [List.nodup_append]
                exact ⟨hs, by simp, by simpa using fun a w hb hac => h (List.mem_map.2 ⟨(a, w), hb, hac⟩)⟩
            obtain ⟨h1, h2, h3, h4⟩ := ih (s.1, addWt s.2 cov (E.approx (I.mesh.edata x.2))) hnd
            refine ⟨h1, ?_, ?_, ?_⟩
            · intro c
              rw [h2 c, addWt_keys]
              have hk : c ∈ (if cov ∈ s.2.map Prod.fst then s.2.map Prod.fst else s.2.map Prod.fst ++ [cov]) ↔
                  c ∈ s.2.map Prod.fst ∨ c = cov := by
                split
                · rename_i h
                  constructor
                  · exact Or.inl
                  · rintro (h' | rfl)
                    · exact h'
                    · exact h
                · simp
              rw [hk]
              simp only [List.mem_cons, exists_eq_or_imp, hv, Option.some.injEq]
              constructor
              · rintro ((h | rfl) | ⟨a, b, c'⟩)
                · exact Or.inl h
                · exact Or.inr ⟨hcv, hal, Or.inl rfl⟩
                · exact Or.inr ⟨a, b, Or.inr c'⟩
              · rintro (h | ⟨a, b, (h | h)⟩)
                · exact Or.inl (Or.inl h)
                · exact Or.inl (Or.inr h.symm)
                · exact Or.inr ⟨a, b, h⟩
            · intro c hc ha
              rw [h3 c hc ha, addWt_val _ hs]
              by_cases h : cov = c
              · subst h; simp [hv, add_assoc]
              · simp [hv, h]
            · rw [h4]
              simp [hv, hcv]
  obtain ⟨h1, h2, h3, h4⟩ := gen (I.econ V) (0, []) (by simp)
  refine ⟨h1, ?_, ?_, ?_⟩
  · intro c
    exact (h2 c).trans (by simp)
  · intro c hc
    have hc' := ((h2 c).1 hc).resolve_left (by simp)
    exact (h3 c hc'.1 hc'.2.1).trans (by simp [val, strength])
  · exact h4.trans (by simp [strength])

/-! ### selection -/

theorem pick_prefix (frac dg : ℝ) (l : List (ℕ × ℝ)) (cw : ℝ) : pick frac dg cw l <+: l.map Prod.fst := by
  induction l generalizing cw with
  | nil => simp [pick]
  | cons x l ih =>
    unfold pick
    split
    · simp
    · rw [List.map_cons, List.cons_prefix_cons]
      exact ⟨rfl, ih _⟩

theorem pick_strong (frac dg : ℝ) (l : List (ℕ × ℝ)) (cw : ℝ) :
    ∀ c ∈ pick frac dg cw l, ∃ w, (c, w) ∈ l ∧ frac * dg ≤ w := by
  induction l generalizing cw with
  | nil => simp [pick]
  | cons x l ih =>
    intro c hc
    unfold pick at hc
    split at hc
    · simp at hc
    · rename_i h
      push Not at h
      rw [List.mem_cons] at hc
      rcases hc with rfl | hc
      · exact ⟨x.2, by simp, h.2⟩
      · obtain ⟨w, hw, h'⟩ := ih _ c hc
        exact ⟨w, List.mem_cons_of_mem _ hw, h'⟩

theorem val_of_mem {l : List (ℕ × ℝ)} (hl : (l.map Prod.fst).Nodup) {c : ℕ} {w : ℝ} (h : (c, w) ∈ l) : val l c = w := by
  induction l with
  | nil => simp at h
  | cons x l ih =>
    rw [List.map_cons, List.nodup_cons] at hl
    rw [List.mem_cons] at h
    rcases h with rfl | h
    · have := val_of_not_mem hl.1
      unfold val at this ⊢
      simp [this]
    · have hx : x.1 ≠ c := by
        intro hx
        exact hl.1 (hx ▸ List.mem_map.2 ⟨_, h, rfl⟩)
      have := ih hl.2 h
      unfold val at this ⊢
      simp [hx, this]

/-- exactly where the selection stops -/
theorem pick_exact (frac dg : ℝ) (l : List (ℕ × ℝ)) (cw : ℝ) : ∃ p q, l = p ++ q ∧ pick frac dg cw l = p.map Prod.fst ∧
    (∀ (h : p ≠ []), (p.getLast h).2 > frac * (cw + (p.map Prod.snd).sum)) ∧
    (∀ (h : q ≠ []), ¬((q.head h).2 > frac * (cw + (p.map Prod.snd).sum + (q.head h).2)) ∨ (q.head h).2 < frac * dg) := by
  induction l generalizing cw with
  | nil => exact ⟨[], [], rfl, by simp [pick], by simp, by simp⟩
  | cons x l ih =>
    unfold pick
    split
    · rename_i h
      exact ⟨[], x :: l, rfl, by simp, by simp, by simpa using h⟩
    · rename_i h
      push Not at h
      obtain ⟨p, q, h1, h2, h3, h4⟩ := ih (cw + x.2)
      refine ⟨x :: p, q, by rw [h1, List.cons_append], by rw [h2, List.map_cons], ?_, ?_⟩
      · intro _
        by_cases hp : p = []
        · subst hp; simpa using h.1
        · rw [List.getLast_cons hp, List.map_cons, List.sum_cons, ← add_assoc]
          exact h3 hp
      · intro hq
        have := h4 hq
        rw [List.map_cons, List.sum_cons, ← add_assoc cw]
        exact this

/-- the selection for one vertex: its own coarse vertex and the strongest candidates, at most `maxPerRow` in total -/
theorem finRow_spec (E : Energy VD ED n) (O : Opts) (I : Input VD ED) (hI : InputOK I) (hO : 1 ≤ O.maxPerRow) (V CV : ℕ) :
    ∃ row, finRow E O I V CV = some row ∧ row.Pairwise (· < ·) ∧ CV ∈ row ∧ row.length ≤ O.maxPerRow ∧
      (∀ c ∈ row, c = CV ∨ Cand I V CV c ∧ O.minFrac * dgWt E I.mesh V ≤ strength E I V c) ∧
      (∀ c ∈ row, c ≠ CV → ∀ d, Cand I V CV d → d ∉ row → strength E I V d ≤ strength E I V c) := by
  obtain ⟨h1, h2, h3, h4⟩ := collectRow_spec E I V CV
  set s := collectRow E I V CV with hs
  obtain ⟨hp, hsorted⟩ := hI.sorts s.2
  set l := I.sortDesc s.2 with hl
  set t := l.take (min (O.maxPerRow - 1) l.length) with ht
  set pk := pick O.minFrac (dgWt E I.mesh V) (0.2 * s.1) t with hpk
  have hfin : finRow E O I V CV = some ((CV :: pk).insertionSort (· ≤ ·)) := by
    unfold finRow
    rw [if_neg (by omega)]
  have hnodl : (l.map Prod.fst).Nodup := (hp.map Prod.fst).nodup_iff.2 h1
  have hpre : pk <+: l.map Prod.fst := by
    have := pick_prefix O.minFrac (dgWt E I.mesh V) t (0.2 * s.1)
    refine this.trans ?_
    rw [ht, List.map_take]
    exact List.take_prefix _ _
  have hcand : ∀ c, c ∈ l.map Prod.fst ↔ Cand I V CV c := by
    intro c
    rw [(hp.map Prod.fst).mem_iff, h2 c, Cand]
    refine and_congr_right fun _ => and_congr_right fun _ => ?_
    constructor
    · rintro ⟨x, hx, hv⟩
      exact ⟨x.1, x.2, hI.joins.1 hx, hv⟩
    · rintro ⟨m, e, hj, hv⟩
      exact ⟨(m, e), hI.joins.2 hj, hv⟩
  have hval : ∀ c w, (c, w) ∈ l → strength E I V c = w := by
    intro c w h
    have hm : (c, w) ∈ s.2 := hp.mem_iff.1 h
    rw [← h3 c (List.mem_map.2 ⟨_, hm, rfl⟩)]
    exact val_of_mem h1 hm
  have hCV : CV ∉ pk := fun h => ((hcand CV).1 (hpre.subset h)).1 rfl
  have hnd : (CV :: pk).Nodup := List.nodup_cons.2 ⟨hCV, hpre.sublist.nodup hnodl⟩
  refine ⟨_, hfin, ?_, ?_, ?_, ?_, ?_⟩
  · have hnd' : ((CV :: pk).insertionSort (· ≤ ·)).Nodup := (List.perm_insertionSort _ _).nodup_iff.2 hnd
    have hsrt := List.pairwise_insertionSort (r := fun x y : ℕ => x ≤ y) (CV :: pk)
    exact (hsrt.and hnd').imp fun h => Nat.lt_of_le_of_ne h.1 h.2
  · rw [List.mem_insertionSort]; simp
  · rw [List.length_insertionSort, List.length_cons]
    have hlen : pk.length ≤ t.length := by
      have := (pick_prefix O.minFrac (dgWt E I.mesh V) t (0.2 * s.1)).length_le
      rwa [List.length_map] at this
    rw [ht, List.length_take] at hlen
    omega
  · intro c hc
    rw [List.mem_insertionSort, List.mem_cons] at hc
    rcases hc with hc | hc
    · exact Or.inl hc
    · right
      refine ⟨(hcand c).1 (hpre.subset hc), ?_⟩
      obtain ⟨w, hw, h⟩ := pick_strong _ _ _ _ c hc
      rw [hval c w (List.mem_of_mem_take hw)]
      exact h
  · intro c hc hne d hd hdn
    rw [List.mem_insertionSort, List.mem_cons] at hc hdn
    have hc := hc.resolve_left hne
    push Not at hdn
    obtain ⟨suf, hsuf⟩ := hpre
    have hdl := (hcand d).2 hd
    rw [← hsuf, List.mem_append] at hdl
    have hdl := hdl.resolve_left hdn.2
    -- positions in the sorted list
    have hkeys : (l.map Prod.fst).Pairwise fun a b => strength E I V b ≤ strength E I V a := by
      rw [List.pairwise_map]
      refine hsorted.imp_of_mem ?_
      intro x y hx hy hxy
      rw [hval x.1 x.2 hx, hval y.1 y.2 hy]
      exact hxy
    rw [← hsuf, List.pairwise_append] at hkeys
    exact hkeys.2.2 c hc d hdl

/-- exactly how many candidates are selected: the weakest selected one is above the threshold; if there would be room for another
one, then the strongest that is left over is below one of the thresholds -/
theorem finRow_threshold (E : Energy VD ED n) (O : Opts) (I : Input VD ED) (hI : InputOK I) (V CV : ℕ) (row : List ℕ)
    (hrow : finRow E O I V CV = some row) :
    (row ≠ [CV] → ∃ c ∈ row, c ≠ CV ∧ O.minFrac * (0.2 * strength E I V CV + ((row.erase CV).map (strength E I V)).sum)
      < strength E I V c) ∧
    (row.length < O.maxPerRow → (∃ d, Cand I V CV d ∧ d ∉ row) → ∃ d, Cand I V CV d ∧ d ∉ row ∧
      (∀ d', Cand I V CV d' → d' ∉ row → strength E I V d' ≤ strength E I V d) ∧
      (strength E I V d ≤ O.minFrac * (0.2 * strength E I V CV + ((row.erase CV).map (strength E I V)).sum + strength E I V d) ∨
        strength E I V d < O.minFrac * dgWt E I.mesh V)) := by
  obtain ⟨h1, h2, h3, h4⟩ := collectRow_spec E I V CV
  unfold finRow at hrow
  dsimp only at hrow
  set s := collectRow E I V CV with hs
  obtain ⟨hp, hsorted⟩ := hI.sorts s.2
  set l := I.sortDesc s.2 with hl
  split at hrow
  · simp at hrow
  rename_i hmax
  obtain rfl := Option.some.inj hrow
  set t := l.take (min (O.maxPerRow - 1) l.length) with ht
  obtain ⟨p, q, e1, e2, e3, e4⟩ := pick_exact O.minFrac (dgWt E I.mesh V) t (0.2 * s.1)
  rw [e2]
  have hcand : ∀ c, c ∈ l.map Prod.fst ↔ Cand I V CV c := by
    intro c
    rw [(hp.map Prod.fst).mem_iff, h2 c, Cand]
    refine and_congr_right fun _ => and_congr_right fun _ => ?_
    constructor
    · rintro ⟨x, hx, hv⟩
      exact ⟨x.1, x.2, hI.joins.1 hx, hv⟩
    · rintro ⟨m, e, hj, hv⟩
      exact ⟨(m, e), hI.joins.2 hj, hv⟩
  have hval : ∀ x ∈ l, strength E I V x.1 = x.2 := by
    intro x h
    have hm : (x.1, x.2) ∈ s.2 := hp.mem_iff.1 h
    rw [← h3 x.1 (List.mem_map.2 ⟨_, hm, rfl⟩)]
    exact val_of_mem h1 hm
  have htl : t <+: l := List.take_prefix _ _
  have hpt : ∀ x ∈ p, x ∈ l := fun x hx => htl.subset (e1 ▸ List.mem_append_left _ hx)
  have hCV : CV ∉ p.map Prod.fst := by
    intro h
    obtain ⟨x, hx, hxc⟩ := List.mem_map.1 h
    exact ((hcand CV).1 (List.mem_map.2 ⟨x, hpt x hx, hxc⟩)).1 rfl
  have hperm : (((CV :: p.map Prod.fst).insertionSort (· ≤ ·)).erase CV).Perm (p.map Prod.fst) := by
    have := (List.perm_insertionSort (· ≤ ·) (CV :: p.map Prod.fst)).erase CV
    rwa [List.erase_cons_head] at this
  have hsum : ((((CV :: p.map Prod.fst).insertionSort (· ≤ ·)).erase CV).map (strength E I V)).sum = (p.map Prod.snd).sum := by
    rw [(hperm.map (strength E I V)).sum_eq, List.map_map]
    congr 1
    exact List.map_congr_left fun x hx => hval x (hpt x hx)
  rw [hsum, ← h4]
  refine ⟨?_, ?_⟩
  · intro hne
    have hp0 : p ≠ [] := by
      rintro rfl
      simp at hne
    have hm : p.getLast hp0 ∈ p := List.getLast_mem hp0
    refine ⟨(p.getLast hp0).1, ?_, ?_, ?_⟩
    · rw [List.mem_insertionSort, List.mem_cons]
      exact Or.inr (List.mem_map.2 ⟨_, hm, rfl⟩)
    · intro h
      exact hCV (List.mem_map.2 ⟨_, hm, h⟩)
    · rw [hval _ (hpt _ hm)]
      exact e3 hp0
  · intro hlen hex
    rw [List.length_insertionSort, List.length_cons, List.length_map] at hlen
    -- there is a first candidate that is not taken
    obtain ⟨d, hd, hdn⟩ := hex
    have hpl : p <+: l := (List.prefix_append p q).trans (e1 ▸ htl)
    obtain ⟨r, hr⟩ := hpl
    have hdr : d ∈ r.map Prod.fst := by
      have := (hcand d).2 hd
      rw [← hr, List.map_append, List.mem_append] at this
      refine this.resolve_left fun h => hdn ?_
      rw [List.mem_insertionSort, List.mem_cons]
      exact Or.inr h
    have hr0 : r ≠ [] := by rintro rfl; simp at hdr
    have hq0 : q ≠ [] := by
      rintro rfl
      rw [List.append_nil] at e1
      have hl1 : p.length = min (min (O.maxPerRow - 1) l.length) l.length := by rw [← e1, ht, List.length_take]
      have hl2 : l.length = p.length + r.length := by rw [← hr, List.length_append]
      have : 0 < r.length := List.length_pos_iff.2 hr0
      omega
    have hqr : q <+: r := by
      have : p ++ q <+: p ++ r := by rw [hr, ← e1]; exact htl
      exact (List.prefix_append_right_inj p).1 this
    have hhead : q.head hq0 = r.head hr0 := by
      obtain ⟨r', rfl⟩ := hqr
      rw [List.head_append_of_ne_nil]
    have hml : q.head hq0 ∈ l := by
      rw [← hr]
      exact List.mem_append_right _ (hqr.subset (List.head_mem hq0))
    have hnodl : (l.map Prod.fst).Nodup := (hp.map Prod.fst).nodup_iff.2 h1
    have hnot : (q.head hq0).1 ∉ (CV :: p.map Prod.fst).insertionSort (· ≤ ·) := by
      rw [List.mem_insertionSort, List.mem_cons]
      rintro (h | h)
      · exact ((hcand _).1 (List.mem_map.2 ⟨_, hml, rfl⟩)).1 h
      · rw [← hr, List.map_append, List.nodup_append] at hnodl
        exact hnodl.2.2 _ h _ (List.mem_map.2 ⟨_, hqr.subset (List.head_mem hq0), rfl⟩) rfl
    refine ⟨(q.head hq0).1, (hcand _).1 (List.mem_map.2 ⟨_, hml, rfl⟩), hnot, ?_, ?_⟩
    · intro d' hd' hdn'
      have hdr' : d' ∈ r.map Prod.fst := by
        have := (hcand d').2 hd'
        rw [← hr, List.map_append, List.mem_append] at this
        refine this.resolve_left fun h => hdn' ?_
        rw [List.mem_insertionSort, List.mem_cons]
        exact Or.inr h
      obtain ⟨x, hx, rfl⟩ := List.mem_map.1 hdr'
      rw [hval x (hr ▸ List.mem_append_right _ hx), hval _ hml, hhead]
      have hrs : r.Pairwise fun x y => y.2 ≤ x.2 := by
        rw [← hr, List.pairwise_append] at hsorted
        exact hsorted.2.1
      cases r with
      | nil => exact absurd rfl hr0
      | cons a r =>
        rw [List.head_cons]
        rw [List.mem_cons] at hx
        rcases hx with rfl | hx
        · exact le_refl _
        · exact (List.pairwise_cons.1 hrs).1 x hx
    · rw [hval _ hml]
      rcases e4 hq0 with h | h
      · exact Or.inl (not_lt.1 h)
      · exact Or.inr h

/-- **C67**: what `graphRow` selects -/
theorem graphRow_spec (E : Energy VD ED n) (O : Opts) (I : Input VD ED) (hI : InputOK I) (hO : 1 ≤ O.maxPerRow) (V CV : ℕ) :
    ∃ g k, graphRow E O I V CV = some (g, k) ∧ g.Nodup ∧ CV ∈ g ∧ g.length ≤ O.maxPerRow ∧
      (∀ c ∈ g, c = CV ∨ Cand I V CV c ∧ O.minFrac * dgWt E I.mesh V ≤ strength E I V c) ∧
      ((k = 1 ∧ g = [CV]) ∨ (2 ≤ k ∧ k = countIn I V g + 1)) := by
  obtain ⟨row, h1, h2, h3, h4, h5, _⟩ := finRow_spec E O I hI hO V CV
  unfold graphRow
  rw [h1, Option.map_some]
  have hnd : row.Nodup := h2.imp fun h => Nat.ne_of_lt h
  by_cases hlen : row.length = 1
  · rw [if_pos hlen]
    refine ⟨row, 1, rfl, hnd, h3, h4, h5, Or.inl ⟨rfl, ?_⟩⟩
    obtain ⟨a, rfl⟩ := List.length_eq_one_iff.1 hlen
    simp at h3
    rw [h3]
  · rw [if_neg hlen]
    by_cases hs : countSame I V CV = 0
    · rw [if_pos hs]
      exact ⟨[CV], 1, rfl, by simp, by simp, by simpa using hO, by simp, Or.inl ⟨rfl, rfl⟩⟩
    · rw [if_neg hs]
      refine ⟨row, _, rfl, hnd, h3, h4, h5, Or.inr ⟨?_, rfl⟩⟩
      have : countSame I V CV ≤ countIn I V row := by
        unfold countSame countIn
        refine List.countP_mono_left fun x _ hx => ?_
        simp only [decide_eq_true_eq] at hx
        simp only [hx]
        simpa using h3
      omega

/-- **C67**: the weight to which the second threshold refers is the largest weight of an edge at the vertex -/
theorem dgWt_spec (E : Energy VD ED n) (M : Mesh VD ED) (V : ℕ) :
    0 ≤ dgWt E M V ∧
    (∀ e < M.edges.length, (M.edge e).1 = V ∨ (M.edge e).2 = V → E.approx (M.edata e) ≤ dgWt E M V) ∧
    (dgWt E M V = 0 ∨ ∃ e < M.edges.length, ((M.edge e).1 = V ∨ (M.edge e).2 = V) ∧ E.approx (M.edata e) = dgWt E M V) := by
  have key : ∀ (l : List ℕ) (d : ℕ → ℝ),
      let r := l.foldl (fun d e =>
        let w := E.approx (M.edata e)
        let d := Function.update d (M.edge e).1 (max (d (M.edge e).1) w)
        Function.update d (M.edge e).2 (max (d (M.edge e).2) w)) d
      d V ≤ r V ∧ (∀ e ∈ l, (M.edge e).1 = V ∨ (M.edge e).2 = V → E.approx (M.edata e) ≤ r V) ∧
      (r V = d V ∨ ∃ e ∈ l, ((M.edge e).1 = V ∨ (M.edge e).2 = V) ∧ E.approx (M.edata e) = r V) := by
    intro l
    induction l with
    | nil => intro d; simp
    | cons e l ih =>
      intro d
      dsimp only [List.foldl_cons]
      obtain ⟨h1, h2, h3⟩ := ih (Function.update (Function.update d (M.edge e).1 (max (d (M.edge e).1) (E.approx (M.edata e))))
        (M.edge e).2 (max ((Function.update d (M.edge e).1 (max (d (M.edge e).1) (E.approx (M.edata e)))) (M.edge e).2)
          (E.approx (M.edata e))))
      dsimp only at h1 h2 h3
      set d' := Function.update (Function.update d (M.edge e).1 (max (d (M.edge e).1) (E.approx (M.edata e))))
        (M.edge e).2 (max ((Function.update d (M.edge e).1 (max (d (M.edge e).1) (E.approx (M.edata e)))) (M.edge e).2)
          (E.approx (M.edata e))) with hd'
      have hval : d' V = if (M.edge e).1 = V ∨ (M.edge e).2 = V then max (d V) (E.approx (M.edata e)) else d V := by
        rw [hd']
        by_cases ha : (M.edge e).1 = V <;> by_cases hb : (M.edge e).2 = V <;>
          simp [ha, hb, Function.update_apply, Ne.symm]
      refine ⟨?_, ?_, ?_⟩
      · refine le_trans ?_ h1
        rw [hval]
        split
        · exact le_max_left _ _
        · exact le_rfl
      · intro e' he' hj
        rcases List.mem_cons.mp he' with rfl | he'
        · refine le_trans ?_ h1
          rw [hval, if_pos hj]
          exact le_max_right _ _
        · exact h2 e' he' hj
      · rcases h3 with h3 | ⟨e', he', hj, h3⟩
        · rw [h3, hval]
          split
          · rename_i hj
            rcases max_choice (d V) (E.approx (M.edata e)) with hm | hm
            · exact Or.inl hm
            · exact Or.inr ⟨e, List.mem_cons_self, hj, hm.symm⟩
          · exact Or.inl rfl
        · exact Or.inr ⟨e', List.mem_cons_of_mem _ he', hj, h3⟩
  obtain ⟨h1, h2, h3⟩ := key (List.range M.edges.length) (fun _ => 0)
  refine ⟨h1, fun e he => h2 e (List.mem_range.mpr he), ?_⟩
  rcases h3 with h3 | ⟨e, he, h3⟩
  · exact Or.inl h3
  · exact Or.inr ⟨e, List.mem_range.mp he, h3⟩

end NgsAMG.SProl
