import Verif.Props.Loops6

/-!
# When the rotated form of a loop is unique (C98)
-/

namespace NgsAMG.Loop
open NgsAMG.Spec
variable {V : Type} [LinearOrder V]
set_option linter.unusedSectionVars false

theorem eq_of_rotated_head {c d : List V} (hr : c ~r d) (hn : c.Nodup) (hh : c.head? = d.head?) : c = d := by
  obtain ⟨n, rfl⟩ := hr
  rcases Nat.eq_zero_or_pos c.length with h0 | h0
  · have : c = [] := List.length_eq_zero_iff.1 h0
    subst this; simp
  · have hlt := Nat.mod_lt n h0
    rw [← List.rotate_mod c n, List.head?_rotate hlt, List.head?_eq_getElem?] at hh
    have : 0 = n % c.length := (List.getElem?_inj h0 hn).1 hh
    rw [← List.rotate_mod c n, ← this, List.rotate_zero]

theorem closed_ext {l l' : List V} (h : Closed l) (h' : Closed l') (he : l.dropLast = l'.dropLast) : l = l' := by
  obtain ⟨a, xs, rfl⟩ := closed_form h
  obtain ⟨b, ys, rfl⟩ := closed_form h'
  rw [List.dropLast_concat, List.dropLast_concat] at he
  injection he with h1 h2
  rw [h1, h2]

theorem SameLoop.trans' {l l' l'' : List V} (c1 : Closed l') (c2 : Closed l'') (h1 : SameLoop l l') (h2 : SameLoop l' l'') : SameLoop l l'' := by
  have r1 := same_reverse_core c1
  have r2 := same_reverse_core c2
  rcases h1 with h1 | h1
  · rcases h2 with h2 | h2
    · exact Or.inl (h1.trans h2)
    · exact Or.inr (h1.trans h2)
  · rcases h2 with h2 | h2
    · exact Or.inr (h1.trans (r1.trans (h2.reverse.trans r2.symm)))
    · refine Or.inl (h1.trans (r1.trans (h2.reverse.trans ?_)))
      have := r2.reverse
      rwa [List.reverse_reverse] at this

theorem SameLoop.symm' {l l' : List V} (c1 : Closed l) (c2 : Closed l') (h : SameLoop l l') : SameLoop l' l := by
  rcases h with h | h
  · exact Or.inl h.symm
  · have r1 := same_reverse_core c1
    have r2 := same_reverse_core c2
    refine Or.inr ?_
    have h3 := (h.trans r2).reverse
    rw [List.reverse_reverse] at h3
    exact h3.symm.trans r1.symm

theorem core_head {l : List V} (h : Closed l) : l.dropLast.head? = l.head? := by
  obtain ⟨a, xs, rfl⟩ := closed_form h
  rw [List.dropLast_concat]; rfl

/-- loops with the same start, and the same order of the neighbours of the start, are equal -/
theorem same_eq {r r' : List V} (h : SimpleLoop r) (h' : SimpleLoop r') (hs : SameLoop r r') (hh : r.head? = r'.head?) (h4 : 4 ≤ r.length)
    (a b a' b' : V) (ha : r[1]? = some a) (hb : r[r.length - 2]? = some b) (ha' : r'[1]? = some a') (hb' : r'[r'.length - 2]? = some b')
    (hord : (b ≤ a ∧ b' ≤ a') ∨ (a ≤ b ∧ a' ≤ b')) : r = r' := by
  have n1 := (simple_iff h.1).1 h
  rcases hs with hs | hs
  · exact closed_ext h.1 h'.1 (eq_of_rotated_head hs n1 (by rw [core_head h.1, core_head h'.1, hh]))
  · exfalso
    have hc := closed_reverse h'.1
    have he := closed_ext h.1 hc (eq_of_rotated_head hs n1 (by rw [core_head h.1, core_head hc, List.head?_reverse, ← h'.1.2, hh]))
    have hlen : r.length = r'.length := by rw [he, List.length_reverse]
    have e1 : r[1]? = r'[r'.length - 2]? := by
      rw [he, List.getElem?_reverse (by omega)]; congr 1
    have e2 : r[r.length - 2]? = r'[1]? := by
      rw [he, List.length_reverse, List.getElem?_reverse (by omega)]; congr 1; omega
    rw [ha, hb'] at e1
    rw [hb, ha'] at e2
    injection e1 with e1
    injection e2 with e2
    have hab : a = b := by rcases hord with h | h <;> [exact le_antisymm (by rw [e1, e2]; exact h.2) h.1; exact le_antisymm h.1 (by rw [e1, e2]; exact h.2)]
    have hd1 : r.dropLast[1]? = some a := by rw [List.getElem?_dropLast, if_pos (by omega)]; exact ha
    have hd2 : r.dropLast[r.length - 2]? = some a := by rw [List.getElem?_dropLast, if_pos (by omega), hab]; exact hb
    have := (List.getElem?_inj (by simp; omega) n1).1 (hd1.trans hd2.symm)
    omega

/-- the vertices next to the start after rotating, and the smallest vertex is the first one or it is not -/
theorem rotate_neighbours {l : List V} (hl : SimpleLoop l) (h4 : 4 ≤ l.length) : ∃ a b, (rotateVLoop l)[1]? = some a ∧ (rotateVLoop l)[l.length - 2]? = some b ∧
    ((∃ x ∈ l, ∀ h ∈ l.head?, x < h) → b ≤ a) ∧ ((∀ x ∈ l, ∀ h ∈ l.head?, h ≤ x) → a ≤ b) := by
  have hc := hl.1
  match l, hl, hc, h4 with
  | s :: t, hl, hc, h4 =>
    obtain ⟨m1, m2, m3⟩ := minPos_spec (s :: t) s rfl
    obtain ⟨n, hn⟩ : ∃ n, n = (minPos (s :: t) s).1 := ⟨_, rfl⟩
    obtain ⟨l, hldef⟩ : ∃ l, l = s :: t := ⟨_, rfl⟩
    have hrot : rotateVLoop l = if (flipLoop l n || n != 0) = true then rotBuffer l n (flipLoop l n) else l := by
      rw [hldef, rotateVLoop, if_pos hc.2, ← hn]
    rw [← hldef] at m1 m2 m3 hl hc h4 hn ⊢
    rw [← hn] at m1 m2
    have hhead : l.head? = some s := by rw [hldef]; rfl
    have hh0 : l[0]? = some s := by rw [hldef]; rfl
    have hlast : l[l.length - 1]? = some s := by
      rw [← List.getLast?_eq_getElem?, ← hc.2, hhead]
    -- the smallest vertex is found at the first position it occurs at
    have hnlast : n + 1 < l.length := by
      by_contra hcon
      have hnl : n = l.length - 1 := by omega
      rw [hnl, hlast] at m2
      injection m2 with m2
      -- then the start is the smallest, and position 0 would have been kept
      have hkeep : ∀ (L : List (V × ℕ)), (∀ e ∈ L, s ≤ e.1) → L.foldl (fun s e => if e.1 < s.2 then (e.2, e.1) else s) (0, s) = (0, s) := by
        intro L
        induction L with
        | nil => intro _; rfl
        | cons e L ih =>
          intro hL
          rw [List.foldl_cons, if_neg (not_lt.2 (hL e (by simp)))]
          exact ih fun x hx => hL x (by simp [hx])
      have h0 : minPos l s = (0, s) := by
        apply hkeep
        intro e he
        rw [m2]
        rw [List.mem_zipIdx_iff_getElem?] at he
        exact m3 _ (List.mem_of_getElem? he)
      rw [h0] at hn
      simp only at hn
      omega
    have hbnd1 : ∀ k, k + n < l.length → (bndArr l n n)[k]? = l[k + n]? := by
      intro k hk
      rw [bndArr, if_pos ((isClosed_iff l).2 hc.2), List.getElem?_append_left (by rw [List.length_drop]; omega), List.getElem?_drop, Nat.add_comm]
    have hlenb : (bndArr l n n).length = l.length := by
      rw [bnd_length _ _ _ m1 m1, bndSize, if_pos ((isClosed_iff l).2 hc.2)]; omega
    have hbnd2 : 0 < n → (bndArr l n n)[l.length - 2]? = l[n - 1]? := by
      intro h0
      rw [bndArr, if_pos ((isClosed_iff l).2 hc.2)]
      by_cases h1 : n = 1
      · rw [h1, List.getElem?_append_left (by rw [List.length_drop]; omega), List.getElem?_drop, hh0, ← hlast]
        congr 1; omega
      · rw [List.getElem?_append_right (by rw [List.length_drop]; omega), List.getElem?_take, if_pos (by rw [List.length_drop]; omega), List.getElem?_drop, List.length_drop]
        congr 1; omega
    obtain ⟨x, hx⟩ : ∃ x, l[n + 1]? = some x := ⟨_, List.getElem?_eq_getElem hnlast⟩
    have hrev : ∀ k, k < l.length → (bndArr l n n).reverse[k]? = (bndArr l n n)[l.length - 1 - k]? := by
      intro k hk
      rw [List.getElem?_reverse (by omega), hlenb]
    by_cases h0 : n = 0
    · -- starts at the smallest vertex
      obtain ⟨y, hy⟩ : ∃ y, l[l.length - 2]? = some y := ⟨_, List.getElem?_eq_getElem (by omega)⟩
      have hb0 : bndArr l n n = l := by rw [h0, bndArr, if_pos ((isClosed_iff l).2 hc.2)]; simp
      have hx1 : l[1]? = some x := by rw [h0] at hx; exact hx
      have hfl : flipLoop l n = decide (y < x) := by
        rw [flipLoop, if_neg (by omega), ltAt, hy, hx1]
      have hsm : ¬ ∃ z ∈ l, ∀ h ∈ l.head?, z < h := by
        rintro ⟨z, hz, hz2⟩
        have := hz2 s hhead
        have h3 := m3 z hz
        rw [h0] at m2
        rw [hh0] at m2
        injection m2 with m2
        rw [← m2] at h3
        exact absurd this (not_lt.2 h3)
      by_cases hf : y < x
      · have hr : rotateVLoop l = l.reverse := by
          rw [hrot, hfl, decide_eq_true hf, if_pos (by simp), rotBuffer_eq _ _ _ hc.2, if_pos rfl, hb0]
        refine ⟨y, x, ?_, ?_, fun h => absurd h hsm, fun _ => hf.le⟩
        · rw [hr, List.getElem?_reverse (by omega)]; rw [← hy]; congr 1
        · rw [hr, List.getElem?_reverse (by omega)]; rw [← hx1]; congr 1; omega
      · have hr : rotateVLoop l = l := by
          rw [hrot, hfl, decide_eq_false hf, h0, if_neg (by simp)]
        refine ⟨x, y, by rw [hr]; exact hx1, by rw [hr]; exact hy, fun h => absurd h hsm, fun _ => not_lt.1 hf⟩
    · obtain ⟨y, hy⟩ : ∃ y, l[n - 1]? = some y := ⟨_, List.getElem?_eq_getElem (by omega)⟩
      have hfl : flipLoop l n = decide (x < y) := by
        rw [flipLoop, if_pos ⟨by omega, hnlast⟩, ltAt, hx, hy]
      have hsm : ¬ ∀ z ∈ l, ∀ h ∈ l.head?, h ≤ z := by
        intro hall
        have hle := hall _ (List.mem_of_getElem? m2) s hhead
        have hge := m3 s (List.mem_of_getElem? hh0)
        have heq : l[0]? = l[n]? := by rw [hh0, m2]; exact congrArg some (le_antisymm hle hge)
        have hn1 := (simple_iff hc).1 hl
        have e1 : l.dropLast[0]? = l.dropLast[n]? := by
          rw [List.getElem?_dropLast, List.getElem?_dropLast, if_pos (by omega), if_pos (by omega)]; exact heq
        have := (List.getElem?_inj (by simp; omega) hn1).1 e1
        omega
      have hb1 : (bndArr l n n)[1]? = some x := by rw [hbnd1 1 (by omega), ← hx, Nat.add_comm]
      have hb2 : (bndArr l n n)[l.length - 2]? = some y := by rw [hbnd2 (by omega), hy]
      by_cases hf : x < y
      · have hr : rotateVLoop l = (bndArr l n n).reverse := by
          rw [hrot, hfl, decide_eq_true hf, if_pos (by simp), rotBuffer_eq _ _ _ hc.2, if_pos rfl]
        refine ⟨y, x, ?_, ?_, fun _ => hf.le, fun h => absurd h hsm⟩
        · rw [hr, hrev 1 (by omega), ← hb2]; congr 1
        · rw [hr, hrev _ (by omega), ← hb1]; congr 1; omega
      · have hr : rotateVLoop l = bndArr l n n := by
          rw [hrot, hfl, decide_eq_false hf, if_pos (by simp [h0]), rotBuffer_eq _ _ _ hc.2]; rfl
        refine ⟨x, y, by rw [hr]; exact hb1, by rw [hr]; exact hb2, fun _ => not_lt.1 hf, fun h => absurd h hsm⟩

theorem SameLoop.mem {l l' : List V} (c1 : Closed l) (c2 : Closed l') (h : SameLoop l l') (x : V) : x ∈ l ↔ x ∈ l' := by
  have hm : ∀ {m : List V}, Closed m → (x ∈ m ↔ x ∈ m.dropLast) := by
    intro m hm
    obtain ⟨a, xs, rfl⟩ := closed_form hm
    rw [List.dropLast_concat]
    simp
    tauto
  rw [hm c1, hm c2]
  rcases h with h | h
  · exact h.mem_iff
  · rw [h.mem_iff, (same_reverse_core c2).mem_iff, List.mem_reverse]

/-- **C98** (duplicates). Two lists of the same loop (any start, any direction) are brought to the same form, so that the duplicate is found and removed, if
both begin at the smallest vertex or neither does. (Missing: the case that only one of them does, where it is wrong, see `duplicate_stays`.) -/
theorem rotate_unique_partial {l l' : List V} (hl : SimpleLoop l) (hl' : SimpleLoop l') (h4 : 4 ≤ l.length) (hs : SameLoop l l')
    (hb : ((∃ x ∈ l, ∀ h ∈ l.head?, x < h) ∧ (∃ x ∈ l', ∀ h ∈ l'.head?, x < h)) ∨ ((∀ x ∈ l, ∀ h ∈ l.head?, h ≤ x) ∧ (∀ x ∈ l', ∀ h ∈ l'.head?, h ≤ x))) :
    rotateVLoop l = rotateVLoop l' := by
  obtain ⟨r1, r2, ⟨v, hv, hvm⟩, r4, -⟩ := rotate_correct hl
  obtain ⟨r1', r2', ⟨v', hv', hvm'⟩, r4', -⟩ := rotate_correct hl'
  have hlen : l.length = l'.length := by
    have e : l.dropLast.length = l'.dropLast.length := by
      rcases hs with h | h
      · exact h.perm.length_eq
      · rw [h.perm.length_eq]; simp
    rw [List.length_dropLast, List.length_dropLast] at e
    have := hl'.1.1
    omega
  have hss : SameLoop (rotateVLoop l) (rotateVLoop l') := SameLoop.trans' hl'.1 r1'.1 (SameLoop.trans' hl.1 hl'.1 r2 hs) (SameLoop.symm' r1'.1 hl'.1 r2')
  have hmem := SameLoop.mem r1.1 r1'.1 hss
  have hml : ∀ x, x ∈ l ↔ x ∈ l' := SameLoop.mem hl.1 hl'.1 hs
  have hvl : v ∈ l := (SameLoop.mem r1.1 hl.1 r2 v).1 (List.mem_of_mem_head? hv)
  have hvl' : v' ∈ l' := (SameLoop.mem r1'.1 hl'.1 r2' v').1 (List.mem_of_mem_head? hv')
  have hvv : v = v' := le_antisymm (hvm v' ((hml v').2 hvl')) (hvm' v ((hml v).1 hvl))
  obtain ⟨a, b, ha, hb1, hi, ho⟩ := rotate_neighbours hl h4
  obtain ⟨a', b', ha', hb1', hi', ho'⟩ := rotate_neighbours hl' (by omega)
  refine same_eq r1 r1' hss (by rw [hv, hv', hvv]) (by omega) a b a' b' ha (by rw [r4]; exact hb1) ha' (by rw [r4']; exact hb1') ?_
  rcases hb with ⟨h1, h2⟩ | ⟨h1, h2⟩
  · exact Or.inl ⟨hi h1, hi' h2⟩
  · exact Or.inr ⟨ho h1, ho' h2⟩

/-- a quadrilateral, from two of its vertices, in the two directions -/
example : rotateVLoop [3, 1, 4, 2, 3] = rotateVLoop [4, 1, 3, 2, 4] :=
  rotate_unique_partial ⟨⟨by decide, by decide⟩, by decide⟩ ⟨⟨by decide, by decide⟩, by decide⟩ (by decide) (Or.inr ⟨2, by decide⟩)
    (Or.inl ⟨⟨1, by decide, by decide⟩, ⟨1, by decide, by decide⟩⟩)

end NgsAMG.Loop
