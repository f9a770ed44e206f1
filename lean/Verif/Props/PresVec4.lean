import Verif.Props.PresVec3
import Mathlib.Algebra.Order.BigOperators.Group.List

/-!
# Property C102: the buffer
-/

namespace NgsAMG.Pres

theorem flatMap_get {α β : Type} (g : α → List β) (m : ℕ) : ∀ (L : List α) (r c : ℕ) (hr : r < L.length), (∀ x ∈ L, (g x).length = m) → c < m →
    (L.flatMap g)[r * m + c]? = (g L[r])[c]? := by
  intro L
  induction L with
  | nil => intro r c hr; simp at hr
  | cons a t ih =>
    intro r c hr hg hc
    rw [List.flatMap_cons]
    have ha : (g a).length = m := hg a List.mem_cons_self
    cases r with
    | zero =>
      rw [zero_mul, zero_add, List.getElem?_append_left (by omega)]
      rfl
    | succ r =>
      rw [List.getElem?_append_right (by rw [ha, Nat.succ_mul]; omega), ha, show (r + 1) * m + c - m = r * m + c by rw [Nat.succ_mul]; omega]
      exact ih r c (by simpa using hr) (fun x hx => hg x (List.mem_cons_of_mem _ hx)) hc

theorem flatMap_len {α β : Type} (g : α → List β) (m : ℕ) (L : List α) (h : ∀ x ∈ L, (g x).length = m) : (L.flatMap g).length = L.length * m := by
  induction L with
  | nil => simp
  | cons a t ih =>
    rw [List.flatMap_cons, List.length_append, ih fun x hx => h x (List.mem_cons_of_mem _ hx), h a List.mem_cons_self, List.length_cons, Nat.succ_mul, add_comm]

variable {n : ℕ}

theorem chunk_length (s : St n) (nv : ℕ) : (chunk s nv).length = 1 + n * s.P.length + nv * s.P.length := by
  unfold chunk
  rw [List.cons_append, List.length_cons, List.length_append, flatMap_len _ s.P.length _ (by simp), flatMap_len _ s.P.length _ (by simp)]
  simp only [List.length_finRange, List.length_range]
  omega

theorem chunk_head (s : St n) (nv : ℕ) : (chunk s nv)[0]? = some (n : ℝ) := rfl

theorem chunk_block (s : St n) (nv : ℕ) (r : Fin n) {c : ℕ} (hc : c < s.P.length) : (chunk s nv)[1 + r.1 * s.P.length + c]? = some (s.P.getD c 0 r) := by
  have hlt : r.1 * s.P.length + c < n * s.P.length := by
    have : (r.1 + 1) * s.P.length ≤ n * s.P.length := Nat.mul_le_mul_right _ r.2
    rw [Nat.succ_mul] at this
    omega
  unfold chunk
  rw [List.cons_append, show 1 + r.1 * s.P.length + c = (r.1 * s.P.length + c) + 1 by omega, List.getElem?_cons_succ, List.getElem?_append_left,
    flatMap_get _ s.P.length _ r.1 c (by simp) (by simp) hc]
  · simp [hc]
  · rw [flatMap_len _ s.P.length _ (by simp), List.length_finRange]
    exact hlt

theorem chunk_vec (s : St n) {nv j : ℕ} (hj : j < nv) {c : ℕ} (hc : c < s.P.length) : (chunk s nv)[1 + n * s.P.length + j * s.P.length + c]? = some (s.W c (1 + j)) := by
  unfold chunk
  rw [List.cons_append, show 1 + n * s.P.length + j * s.P.length + c = (n * s.P.length + (j * s.P.length + c)) + 1 by omega, List.getElem?_cons_succ,
    List.getElem?_append_right]
  · rw [flatMap_len _ s.P.length _ (by simp), List.length_finRange, Nat.add_sub_cancel_left, flatMap_get _ s.P.length _ j c (by simpa using hj) (by simp) hc]
    simp [hc]
  · rw [flatMap_len _ s.P.length _ (by simp), List.length_finRange]
    omega

theorem writeAt_spec {buf xs : List ℝ} {o : ℕ} (h : o + xs.length ≤ buf.length) : ∃ b, writeAt buf o xs = some b ∧ b.length = buf.length ∧
    (∀ i < xs.length, b[o + i]? = xs[i]?) ∧ ∀ p, p < o ∨ o + xs.length ≤ p → b[p]? = buf[p]? := by
  unfold writeAt
  rw [if_pos h]
  refine ⟨_, rfl, ?_, ?_, ?_⟩
  · simp only [List.length_append, List.length_take, List.length_drop]
    omega
  · intro i hi
    rw [List.append_assoc, List.getElem?_append_right (by rw [List.length_take]; omega), List.length_take, show o + i - min o buf.length = i by omega,
      List.getElem?_append_left hi]
  · intro p hp
    rcases hp with hp | hp
    · rw [List.append_assoc, List.getElem?_append_left (by rw [List.length_take]; omega), List.getElem?_take, if_pos hp]
    · rw [List.getElem?_append_right (by rw [List.length_append, List.length_take]; omega), List.length_append, List.length_take, List.getElem?_drop]
      congr 1
      omega

/-- the spaces of the edges do not overlap -/
theorem offsets_spec (I : Inp) : ∀ (L : List ℕ) (s : (ℕ → ℕ) × ℕ), L.Nodup →
    s.2 ≤ (L.foldl (fun s E => (Function.update s.1 E s.2, s.2 + I.room E)) s).2 ∧
    (∀ E, E ∉ L → (L.foldl (fun s E => (Function.update s.1 E s.2, s.2 + I.room E)) s).1 E = s.1 E) ∧
    (∀ E ∈ L, s.2 ≤ (L.foldl (fun s E => (Function.update s.1 E s.2, s.2 + I.room E)) s).1 E ∧
      (L.foldl (fun s E => (Function.update s.1 E s.2, s.2 + I.room E)) s).1 E + I.room E ≤ (L.foldl (fun s E => (Function.update s.1 E s.2, s.2 + I.room E)) s).2) ∧
    L.Pairwise fun E E' => (L.foldl (fun s E => (Function.update s.1 E s.2, s.2 + I.room E)) s).1 E + I.room E ≤
      (L.foldl (fun s E => (Function.update s.1 E s.2, s.2 + I.room E)) s).1 E' := by
  intro L
  induction L with
  | nil => intro s _; exact ⟨le_rfl, fun _ _ => rfl, fun E hE => by simp at hE, List.Pairwise.nil⟩
  | cons a t ih =>
    intro s hn
    rw [List.nodup_cons] at hn
    obtain ⟨h1, h2, h3, h4⟩ := ih (Function.update s.1 a s.2, s.2 + I.room a) hn.2
    simp only at h1 h2 h3 h4
    have ha : (t.foldl (fun s E => (Function.update s.1 E s.2, s.2 + I.room E)) (Function.update s.1 a s.2, s.2 + I.room a)).1 a = s.2 := by
      rw [h2 a hn.1, Function.update_self]
    rw [List.foldl_cons]
    refine ⟨by omega, ?_, ?_, ?_⟩
    · intro E hE
      rw [List.mem_cons, not_or] at hE
      rw [h2 E hE.2, Function.update_of_ne hE.1]
    · intro E hE
      rcases List.mem_cons.1 hE with rfl | hE
      · rw [ha]
        exact ⟨le_rfl, h1⟩
      · have := h3 E hE
        omega
    · rw [List.pairwise_cons]
      refine ⟨fun E hE => ?_, h4⟩
      rw [ha]
      exact (h3 E hE).1

theorem fill_spec {ip : ∀ n, Vec n → Vec n → ℝ} {I : Inp} {offs : ℕ → ℕ} (bl : ∀ E, St (I.fDofs E).length) :
    ∀ (L : List ℕ) (s : List ℝ × (ℕ → ℕ)), L.Nodup → (∀ E ∈ L, I.dofed E = true → I.block ip E = some (bl E) ∧ (bl E).P.length ≤ 1 + I.vecs.length) →
    (∀ E ∈ L, offs E + I.room E ≤ s.1.length) → (L.Pairwise fun E E' => offs E + I.room E ≤ offs E') →
    ∃ s', L.foldlM (I.edgeStep ip offs) s = some s' ∧ s'.1.length = s.1.length ∧
      (∀ E ∈ L, I.dofed E = true → s'.2 E = (bl E).P.length ∧ ∀ i < (chunk (bl E) I.vecs.length).length, s'.1[offs E + i]? = (chunk (bl E) I.vecs.length)[i]?) ∧
      (∀ E, E ∉ L → s'.2 E = s.2 E) ∧ (∀ p, (∀ E ∈ L, p < offs E ∨ offs E + I.room E ≤ p) → s'.1[p]? = s.1[p]?) := by
  intro L
  induction L with
  | nil => intro s _ _ _ _; exact ⟨s, rfl, rfl, fun E hE => by simp at hE, fun _ _ => rfl, fun _ _ => rfl⟩
  | cons a t ih =>
    intro s hn hb hl hp
    rw [List.nodup_cons] at hn
    rw [List.pairwise_cons] at hp
    rw [List.foldlM_cons]
    by_cases hd : I.dofed a = true
    · obtain ⟨b1, b2⟩ := hb a List.mem_cons_self hd
      have hroom : (chunk (bl a) I.vecs.length).length ≤ I.room a := by
        rw [chunk_length]
        unfold Inp.room
        rw [if_pos hd]
        have h1 : (I.fDofs a).length * (bl a).P.length ≤ (I.fDofs a).length * (1 + I.vecs.length) := Nat.mul_le_mul_left _ b2
        have h2 : I.vecs.length * (bl a).P.length ≤ (1 + I.vecs.length) * I.vecs.length := by
          rw [mul_comm]
          exact Nat.mul_le_mul_right _ b2
        omega
      obtain ⟨b, w1, w2, w3, w4⟩ := writeAt_spec (xs := chunk (bl a) I.vecs.length) (o := offs a) (buf := s.1) (by have := hl a List.mem_cons_self; omega)
      have hstep : I.edgeStep ip offs s a = some (b, Function.update s.2 a (bl a).P.length) := by
        unfold Inp.edgeStep
        rw [if_pos hd, b1, Option.bind_some, w1]
        rfl
      obtain ⟨s', c1, c2, c3, c4, c5⟩ := ih (b, Function.update s.2 a (bl a).P.length) hn.2 (fun E hE => hb E (List.mem_cons_of_mem _ hE))
        (fun E hE => by rw [w2]; exact hl E (List.mem_cons_of_mem _ hE)) hp.2
      refine ⟨s', by rw [hstep]; exact c1, c2.trans w2, ?_, ?_, ?_⟩
      · intro E hE hdE
        rcases List.mem_cons.1 hE with rfl | hE
        · refine ⟨(c4 E hn.1).trans (Function.update_self _ _ _), fun i hi => ?_⟩
          rw [c5 (offs E + i) fun E' hE' => Or.inl (by have := hp.1 E' hE'; omega)]
          exact w3 i hi
        · exact c3 E hE hdE
      · intro E hE
        rw [List.mem_cons, not_or] at hE
        exact (c4 E hE.2).trans (Function.update_of_ne hE.1 _ _)
      · intro p hp'
        rw [c5 p fun E hE => hp' E (List.mem_cons_of_mem _ hE)]
        refine w4 p ?_
        rcases hp' a List.mem_cons_self with h | h
        · exact Or.inl h
        · exact Or.inr (by omega)
    · have hstep : I.edgeStep ip offs s a = some s := by
        unfold Inp.edgeStep
        rw [if_neg hd]
      obtain ⟨s', c1, c2, c3, c4, c5⟩ := ih s hn.2 (fun E hE => hb E (List.mem_cons_of_mem _ hE)) (fun E hE => hl E (List.mem_cons_of_mem _ hE)) hp.2
      refine ⟨s', by rw [hstep]; exact c1, c2, ?_, ?_, ?_⟩
      · intro E hE hdE
        rcases List.mem_cons.1 hE with rfl | hE
        · exact absurd hdE hd
        · exact c3 E hE hdE
      · intro E hE
        rw [List.mem_cons, not_or] at hE
        exact c4 E hE.2
      · intro p hp'
        exact c5 p fun E hE => hp' E (List.mem_cons_of_mem _ hE)

theorem dofOff_succ (nd : ℕ → ℕ) (E : ℕ) : dofOff nd (E + 1) = dofOff nd E + nd E := by
  unfold dofOff
  rw [List.range_succ, List.map_append, List.sum_append]
  simp

theorem dofOff_mono (nd : ℕ → ℕ) {E E' : ℕ} (h : E ≤ E') : dofOff nd E ≤ dofOff nd E' := by
  induction h with
  | refl => exact le_rfl
  | step _ ih => rw [Nat.succ_eq_add_one, dofOff_succ]; omega

theorem dofOff_inj (nd : ℕ → ℕ) {E E' d : ℕ} (h1 : dofOff nd E ≤ d) (h2 : d < dofOff nd (E + 1)) (h3 : dofOff nd E' ≤ d) (h4 : d < dofOff nd (E' + 1)) : E = E' := by
  rcases lt_trichotomy E E' with h | h | h
  · have := dofOff_mono nd (show E + 1 ≤ E' by omega)
    omega
  · exact h
  · have := dofOff_mono nd (show E' + 1 ≤ E by omega)
    omega

/-- the entries of a coarse vector -/
theorem coarseVec_spec (I : Inp) (buf : List ℝ) (offs nd : ℕ → ℕ) (j : ℕ) (x0 : ℕ → ℝ) {E : ℕ} (hE : E ∈ I.ord) (hd : I.dofed E = true) {q : ℕ} (hq : q < nd E) :
    I.coarseVec buf offs nd j x0 (dofOff nd E + q) = buf.getD (offs E + 1 + ⌊buf.getD (offs E) 0⌋₊ * nd E + j * nd E + q) 0 := by
  unfold Inp.coarseVec
  have hin : ∀ E', (dofOff nd E' ≤ dofOff nd E + q ∧ dofOff nd E + q < dofOff nd (E' + 1)) → E' = E := by
    rintro E' ⟨h1, h2⟩
    exact dofOff_inj nd h1 h2 (Nat.le_add_right _ _) (by rw [dofOff_succ]; omega)
  have key : ∀ (L : List ℕ) (x : ℕ → ℝ), (E ∈ L ∨ x (dofOff nd E + q) = buf.getD (offs E + 1 + ⌊buf.getD (offs E) 0⌋₊ * nd E + j * nd E + q) 0) →
      (L.foldl (fun x E => if I.dofed E then fun d => if dofOff nd E ≤ d ∧ d < dofOff nd (E + 1) then
        buf.getD (offs E + 1 + ⌊buf.getD (offs E) 0⌋₊ * nd E + j * nd E + (d - dofOff nd E)) 0 else x d else x) x) (dofOff nd E + q) =
      buf.getD (offs E + 1 + ⌊buf.getD (offs E) 0⌋₊ * nd E + j * nd E + q) 0 := by
    intro L
    induction L with
    | nil => intro x h; simpa using h
    | cons a t ih =>
      intro x h
      rw [List.foldl_cons]
      refine ih _ ?_
      by_cases haE : a = E
      · subst haE
        right
        rw [if_pos hd, if_pos ⟨Nat.le_add_right _ _, by rw [dofOff_succ]; omega⟩, Nat.add_sub_cancel_left]
      · rcases h with h | h
        · exact Or.inl ((List.mem_cons.1 h).resolve_left (Ne.symm haE))
        · right
          by_cases hda : I.dofed a = true
          · rw [if_pos hda, if_neg fun hh => haE (hin a hh)]
            exact h
          · rw [if_neg hda]
            exact h
  exact key I.ord x0 (Or.inl hE)

end NgsAMG.Pres
