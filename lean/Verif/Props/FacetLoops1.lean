import Verif.Model.FacetLoops
import Verif.Props.LoopSort5
import Mathlib.Data.List.Range

/-!
# Facet loops 1: counting the rows, tables of distant processes and of encoded rows
-/

namespace NgsAMG.LSort

variable {D T O : Type}

/-- specification: the rows without distant processes -/
def locs (dps : ℕ → List ℕ) (n : ℕ) : List ℕ := (List.range n).filter fun r => decide (dps r = [])

/-- specification: the rows with distant processes -/
def exs (dps : ℕ → List ℕ) (n : ℕ) : List ℕ := (List.range n).filter fun r => decide (dps r ≠ [])

theorem locs_succ (dps : ℕ → List ℕ) (n : ℕ) : locs dps (n + 1) = locs dps n ++ if dps n = [] then [n] else [] := by
  unfold locs
  rw [List.range_succ, List.filter_append]
  by_cases h : dps n = [] <;> simp [h]

theorem exs_succ (dps : ℕ → List ℕ) (n : ℕ) : exs dps (n + 1) = exs dps n ++ if dps n = [] then [] else [n] := by
  unfold exs
  rw [List.range_succ, List.filter_append]
  by_cases h : dps n = [] <;> simp [h]

theorem length_add (dps : ℕ → List ℕ) (n : ℕ) : (locs dps n).length + (exs dps n).length = n := by
  induction n with
  | zero => rfl
  | succ n ih => rw [locs_succ, exs_succ]; split <;> simp <;> omega

theorem exs_prefix (dps : ℕ → List ℕ) {m n : ℕ} (h : m ≤ n) : ∃ t, exs dps n = exs dps m ++ t := by
  induction n, h using Nat.le_induction with
  | base => exact ⟨[], by simp⟩
  | succ n _ ih => obtain ⟨t, ht⟩ := ih; rw [exs_succ, ht]; exact ⟨_, List.append_assoc _ _ _⟩

theorem mem_exs {dps : ℕ → List ℕ} {n x : ℕ} : x ∈ exs dps n ↔ x < n ∧ dps x ≠ [] := by simp [exs]

theorem mem_locs {dps : ℕ → List ℕ} {n x : ℕ} : x ∈ locs dps n ↔ x < n ∧ dps x = [] := by simp [locs]

/-- the counters after `r` rows -/
structure CInv (data : ℕ → List D) (dps : ℕ → List ℕ) (r : ℕ) (c : Cnt) : Prop where
  loc : c.nLoc = (locs dps r).length
  ex : c.nEx = (exs dps r).length
  exR : ∀ i x : ℕ, (exs dps r)[i]? = some x → c.exRows i = x ∧ c.perowEx i = (data x).length
  per : ∀ i x : ℕ, (locs dps r)[i]? = some x → c.perow i = (data x).length
  pd : ∀ x < r, c.perowDps x = (dps x).length

theorem getElem?_snoc {α : Type} {l : List α} {y x : α} {i : ℕ} (h : (l ++ [y])[i]? = some x) :
    l[i]? = some x ∧ i ≠ l.length ∨ i = l.length ∧ x = y := by
  by_cases hi : i < l.length
  · left; rw [List.getElem?_append_left hi] at h; exact ⟨h, by omega⟩
  · right
    have : i < (l ++ [y]).length := (List.getElem?_eq_some_iff.1 h).1
    simp at this
    obtain rfl : i = l.length := by omega
    simp at h
    exact ⟨rfl, h.symm⟩

theorem count_inv (data : ℕ → List D) (dps : ℕ → List ℕ) (r : ℕ) : CInv data dps r (count data dps r) := by
  induction r with
  | zero => exact ⟨rfl, rfl, by simp [exs], by simp [locs], fun x hx => absurd hx (Nat.not_lt_zero x)⟩
  | succ r ih =>
    have hc : count data dps (r + 1) = Cnt.step data dps (count data dps r) r := by
      unfold count; rw [List.range_succ, List.foldl_append]; rfl
    rw [hc]
    unfold Cnt.step
    by_cases h : dps r = []
    · rw [if_neg (by simp [h])]
      refine ⟨?_, ?_, ?_, ?_, ?_⟩
      · rw [locs_succ, if_pos h]; simp [ih.loc]
      · rw [exs_succ, if_pos h]; simp [ih.ex]
      · rw [exs_succ, if_pos h, List.append_nil]; exact ih.exR
      · rw [locs_succ, if_pos h]
        intro i x hi
        show Function.update _ _ _ i = _
        rcases getElem?_snoc hi with ⟨h1, h2⟩ | ⟨rfl, rfl⟩
        · rw [Function.update_of_ne (by rw [ih.loc]; exact h2)]; exact ih.per i x h1
        · rw [ih.loc]; simp
      · intro x hx
        rcases Nat.lt_succ_iff_lt_or_eq.1 hx with hx | rfl
        · exact ih.pd x hx
        · show (count data dps x).perowDps x = _
          rw [h]
          have : ∀ n ≤ x, (count data dps n).perowDps x = 0 := by
            intro n
            induction n with
            | zero => intro _; rfl
            | succ n ihn =>
              intro hn
              have hc : count data dps (n + 1) = Cnt.step data dps (count data dps n) n := by
                unfold count; rw [List.range_succ, List.foldl_append]; rfl
              rw [hc]
              unfold Cnt.step
              split
              · show Function.update _ _ _ x = 0
                rw [Function.update_of_ne (by omega)]
                exact ihn (by omega)
              · exact ihn (by omega)
          exact this x le_rfl
    · rw [if_pos (by simpa using h)]
      refine ⟨?_, ?_, ?_, ?_, ?_⟩
      · rw [locs_succ, if_neg h]; simp [ih.loc]
      · rw [exs_succ, if_neg h]; simp [ih.ex]
      · rw [exs_succ, if_neg h]
        intro i x hi
        show Function.update _ _ _ i = _ ∧ Function.update _ _ _ i = _
        rcases getElem?_snoc hi with ⟨h1, h2⟩ | ⟨rfl, rfl⟩
        · rw [Function.update_of_ne (by rw [ih.ex]; exact h2), Function.update_of_ne (by rw [ih.ex]; exact h2)]
          exact ih.exR i x h1
        · rw [ih.ex]; simp
      · rw [locs_succ, if_neg h, List.append_nil]; exact ih.per
      · intro x hx
        show Function.update _ _ _ x = _
        by_cases hxr : x = r
        · subst hxr; simp
        · rw [Function.update_of_ne hxr]; exact ih.pd x (by omega)

theorem mapM_range {α : Type} (n : ℕ) (f : ℕ → Option α) (l : List α) (hl : l.length = n) (h : ∀ (k : ℕ) (x : α), l[k]? = some x → f k = some x) :
    (List.range n).mapM f = some l := by
  induction n generalizing l with
  | zero =>
    obtain rfl := List.length_eq_zero_iff.1 hl
    rfl
  | succ n ih =>
    have hne : l ≠ [] := by rintro rfl; cases hl
    obtain ⟨l', y, rfl⟩ : ∃ l' y, l = l' ++ [y] := ⟨l.dropLast, l.getLast hne, (List.dropLast_append_getLast hne).symm⟩
    simp at hl
    have h1 := ih l' hl (fun k x hk => h k x (by
      rw [List.getElem?_append_left (List.getElem?_eq_some_iff.1 hk).1]; exact hk))
    have h2 := h n y (by subst hl; simp)
    rw [List.range_succ, List.mapM_append, h1]
    simp [h2]

/-- the distant processes of the result: first the rows without, then the others in their order -/
theorem dpsTable_eq (data : ℕ → List D) (dps : ℕ → List ℕ) (n : ℕ) :
    dpsTable data dps n = some ((locs dps n).map (fun _ => []) ++ (exs dps n).map dps) := by
  have hI := count_inv data dps n
  have hlen := length_add dps n
  unfold dpsTable
  refine mapM_range n _ _ (by simp; omega) fun k x hk => ?_
  by_cases h0 : (exs dps n).length = 0
  · rw [if_pos (by rw [hI.ex, h0])]
    obtain h0 := List.length_eq_zero_iff.1 h0
    rw [h0, List.map_nil, List.append_nil] at hk
    rw [List.getElem?_map, Option.map_eq_some_iff] at hk
    obtain ⟨y, hy, rfl⟩ := hk
    have hkn : k < n := by
      have := (List.getElem?_eq_some_iff.1 hy).1
      rw [h0] at hlen; simp at hlen; omega
    have hd : dps k = [] := by
      by_contra hd
      have : k ∈ exs dps n := mem_exs.2 ⟨hkn, hd⟩
      rw [h0] at this; cases this
    rw [hI.pd k hkn, hd]; rfl
  · rw [if_neg (by rw [hI.ex]; exact h0), hI.loc, hI.ex]
    have hsub : n - (exs dps n).length = (locs dps n).length := by omega
    by_cases hk1 : k < (locs dps n).length
    · rw [if_neg (by omega), Cnt.shifted, hI.ex, if_pos (by omega)]
      rw [List.getElem?_append_left (by simpa using hk1), List.getElem?_map, Option.map_eq_some_iff] at hk
      obtain ⟨y, -, rfl⟩ := hk
      rfl
    · rw [List.getElem?_append_right (by simp; omega), List.length_map, List.getElem?_map, Option.map_eq_some_iff] at hk
      obtain ⟨y, hy, rfl⟩ := hk
      have := (List.getElem?_eq_some_iff.1 hy).1
      rw [if_pos (by omega), Cnt.shifted, hI.ex, if_neg (by omega), hsub, (hI.exR _ y hy).1,
        hI.pd y (mem_exs.1 (List.mem_of_getElem? hy)).1]
      simp [sized]

theorem encodeDps_eq (data : ℕ → List D) (dps : ℕ → List ℕ) (n : ℕ) : encodeDps data dps n = (exs dps n).map dps := by
  have hI := count_inv data dps n
  unfold encodeDps
  rw [dpsTable_eq, Option.getD_some]
  apply List.ext_getElem
  · simp [hI.ex]
  · intro i h1 h2
    simp only [List.length_map] at h2
    rw [List.getElem_map, List.getElem_range, hI.loc]
    simp [List.getD_eq_getElem?_getD, List.getElem?_append_right, List.getElem?_map, List.getElem?_eq_getElem h2]

theorem encodeTable_eq (data : ℕ → List D) (dps : ℕ → List ℕ) (encode : List D → Option (List T)) (n : ℕ) (enc : ℕ → List T)
    (he : ∀ x ∈ exs dps n, encode (data x) = some (enc x) ∧ (enc x).length = (data x).length) :
    encodeTable data dps encode n = some ((exs dps n).map enc) := by
  have hI := count_inv data dps n
  unfold encodeTable
  refine mapM_range _ _ _ (by simp [hI.ex]) fun k x hk => ?_
  rw [List.getElem?_map, Option.map_eq_some_iff] at hk
  obtain ⟨y, hy, rfl⟩ := hk
  obtain ⟨h1, h2⟩ := hI.exR k y hy
  obtain ⟨h3, h4⟩ := he y (List.mem_of_getElem? hy)
  rw [h1, h2, h3, Option.bind_some, sized, if_pos h4]

/-- the last loop after `r` rows -/
structure WInv (tr : ℕ → List O) (dps : ℕ → List ℕ) (decode : List T → List O) (red : List (List T)) (n r : ℕ) (w : Wr O) : Prop where
  loc : w.nLoc = (locs dps r).length
  ex : w.nEx = (exs dps r).length
  rl : ∀ i x : ℕ, (locs dps r)[i]? = some x → w.rows i = some (tr x)
  re : ∀ i < (exs dps r).length, w.rows ((locs dps n).length + i) = some (decode (red.getD i []))

theorem locs_le (dps : ℕ → List ℕ) {m n : ℕ} (h : m ≤ n) : (locs dps m).length ≤ (locs dps n).length := by
  induction n, h using Nat.le_induction with
  | base => exact le_rfl
  | succ n _ ih => rw [locs_succ]; simp; omega

theorem out_inv (data : ℕ → List D) (dps : ℕ → List ℕ) (transform : List D → Option (List O)) (decode : List T → List O) (n : ℕ)
    (red : List (List T)) (tr : ℕ → List O) (ht : ∀ x ∈ locs dps n, transform (data x) = some (tr x)) :
    ∀ r ≤ n, ∃ w, (List.range r).foldlM (Wr.step data transform decode red (count data dps n)) {} = some w ∧ WInv tr dps decode red n r w := by
  have hI := count_inv data dps n
  intro r
  induction r with
  | zero => intro _; exact ⟨{}, rfl, rfl, rfl, by simp [locs], by simp [exs]⟩
  | succ r ih =>
    intro hr
    obtain ⟨w, h1, h2⟩ := ih (by omega)
    rw [List.range_succ, List.foldlM_append, h1]
    obtain ⟨t, ht'⟩ := exs_prefix dps (m := r + 1) (n := n) hr
    by_cases h : dps r = []
    · have hcond : ¬ (w.nEx < (count data dps n).nEx ∧ (count data dps n).exRows w.nEx = r) := by
        rintro ⟨a, b⟩
        rw [hI.ex] at a
        have := hI.exR _ _ (List.getElem?_eq_getElem a)
        rw [this.1] at b
        have := (mem_exs.1 (List.getElem_mem a)).2
        rw [b] at this
        exact this h
      have hloc := locs_succ dps r
      rw [if_pos h] at hloc
      have hlt : (locs dps r).length < (locs dps n).length := by
        have := locs_le dps hr
        rw [hloc] at this; simp at this; omega
      refine ⟨{ w with
          rows := Function.update w.rows w.nLoc (some (tr r))
          nLoc := w.nLoc + 1 }, ?_, ?_, ?_, ?_, ?_⟩
      · simp only [Option.bind_eq_bind, Option.bind_some, List.foldlM_cons, List.foldlM_nil, Option.pure_def]
        rw [Wr.step, if_neg hcond, ht r (mem_locs.2 ⟨by omega, h⟩)]
        rfl
      · rw [hloc]; simp [h2.loc]
      · rw [exs_succ, if_pos h]; simp [h2.ex]
      · rw [hloc]
        intro i x hi
        show Function.update _ _ _ i = _
        rcases getElem?_snoc hi with ⟨k1, k2⟩ | ⟨rfl, rfl⟩
        · rw [Function.update_of_ne (by rw [h2.loc]; exact k2)]; exact h2.rl i x k1
        · rw [h2.loc]; simp
      · rw [exs_succ, if_pos h, List.append_nil]
        intro i hi
        show Function.update _ _ _ _ = _
        rw [Function.update_of_ne (by rw [h2.loc]; omega)]
        exact h2.re i hi
    · have hex := exs_succ dps r
      rw [if_neg h] at hex
      have hget : (exs dps n)[(exs dps r).length]? = some r := by rw [ht', hex]; simp
      have hcond : w.nEx < (count data dps n).nEx ∧ (count data dps n).exRows w.nEx = r := by
        rw [h2.ex, hI.ex]
        exact ⟨(List.getElem?_eq_some_iff.1 hget).1, (hI.exR _ _ hget).1⟩
      refine ⟨{ w with
          rows := Function.update w.rows ((count data dps n).nLoc + w.nEx) (some (decode (red.getD w.nEx [])))
          nEx := w.nEx + 1 }, ?_, ?_, ?_, ?_, ?_⟩
      · simp only [Option.bind_eq_bind, Option.bind_some, List.foldlM_cons, List.foldlM_nil, Option.pure_def]
        rw [Wr.step, if_pos hcond]
        rfl
      · rw [locs_succ, if_neg h]; simp [h2.loc]
      · rw [hex]; simp [h2.ex]
      · rw [locs_succ, if_neg h, List.append_nil]
        intro i x hi
        show Function.update _ _ _ i = _
        have h3 := (List.getElem?_eq_some_iff.1 hi).1
        have h4 := locs_le dps (m := r) (n := n) (by omega)
        rw [Function.update_of_ne (by rw [hI.loc]; omega)]
        exact h2.rl i x hi
      · rw [hex]
        intro i hi
        show Function.update _ _ _ _ = _
        by_cases hie : i = (exs dps r).length
        · subst hie; rw [h2.ex, hI.loc]; simp
        · rw [Function.update_of_ne (by rw [h2.ex, hI.loc]; omega)]
          refine h2.re i ?_
          simp at hi; omega

/-- the result: the transformed rows without distant processes, then the decoded reduced rows -/
theorem outTable_eq (data : ℕ → List D) (dps : ℕ → List ℕ) (transform : List D → Option (List O)) (decode : List T → List O) (n : ℕ)
    (red : List (List T)) (hred : red.length = (exs dps n).length) (tr : ℕ → List O)
    (ht : ∀ x ∈ locs dps n, transform (data x) = some (tr x) ∧ (tr x).length = (data x).length) :
    outTable data dps transform decode n red = some ((locs dps n).map tr ++ red.map decode) := by
  have hI := count_inv data dps n
  have hlen := length_add dps n
  obtain ⟨w, h1, h2⟩ := out_inv data dps transform decode n red tr (fun x hx => (ht x hx).1) n le_rfl
  unfold outTable
  simp only
  rw [h1, Option.bind_some]
  refine mapM_range n _ _ (by simp; omega) fun k x hk => ?_
  by_cases hk1 : k < (locs dps n).length
  · rw [List.getElem?_append_left (by simpa using hk1), List.getElem?_map, Option.map_eq_some_iff] at hk
    obtain ⟨y, hy, rfl⟩ := hk
    rw [h2.rl k y hy, Option.bind_some, Cnt.sizes, hI.loc, if_neg (by omega), hI.per k y hy, sized,
      if_pos (ht y (List.mem_of_getElem? hy)).2]
  · rw [List.getElem?_append_right (by simp; omega), List.length_map, List.getElem?_map, Option.map_eq_some_iff] at hk
    obtain ⟨y, hy, rfl⟩ := hk
    have hlt := (List.getElem?_eq_some_iff.1 hy).1
    have hg : red.getD (k - (locs dps n).length) [] = y := by rw [List.getD_eq_getElem?_getD, hy]; rfl
    have hr := h2.re (k - (locs dps n).length) (by omega)
    rw [show (locs dps n).length + (k - (locs dps n).length) = k by omega, hg] at hr
    rw [hr, Option.bind_some, Cnt.sizes, hI.loc, hI.ex, if_pos (by omega), hg, sized, if_pos rfl]

end NgsAMG.LSort
