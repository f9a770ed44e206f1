import Verif.Props.Loops1

/-!
# Splitting closed walks into simple loops (C98)
-/

namespace NgsAMG.Loop
open NgsAMG.Spec
variable {V : Type} [LinearOrder V]
set_option linter.unusedSectionVars false

theorem parts_cons (c : List V) (s : List ℕ) (x : List V) : x ∈ parts c s ↔ x = bndArr c (s.headD 0) (s.getLastD 0) ∨
    ∃ p ∈ s.zip s.tail, x = part c p.1 p.2 := by
  simp only [parts, List.mem_cons, List.mem_map]
  constructor
  · rintro (h | ⟨p, hp, rfl⟩)
    · exact Or.inl h
    · exact Or.inr ⟨p, hp, rfl⟩
  · rintro (h | ⟨p, hp, rfl⟩)
    · exact Or.inl h
    · exact Or.inr ⟨p, hp, rfl⟩

theorem zip_tail_mem {s : List ℕ} {p : ℕ × ℕ} (hp : p ∈ s.zip s.tail) : ∃ k, s[k]? = some p.1 ∧ s[k + 1]? = some p.2 := by
  obtain ⟨k, hk⟩ := List.mem_iff_getElem?.1 hp
  rw [List.getElem?_zip_eq_some] at hk
  exact ⟨k, hk.1, by simpa using hk.2⟩

/-- a list of positions of one vertex as found by `findRep` -/
structure Rep (c : List V) (s : List ℕ) (v : V) : Prop where
  occ : ∀ i ∈ s, c[i]? = some v
  incr : s.Pairwise (· < ·)
  two : 2 ≤ s.length
  inner : s ≠ [0, c.length - 1]

theorem Rep.lt {c : List V} {s : List ℕ} {v : V} (h : Rep c s v) {i : ℕ} (hi : i ∈ s) : i < c.length := by
  have := h.occ i hi
  by_contra hc
  rw [List.getElem?_eq_none (by omega)] at this
  cases this

theorem Rep.head_mem {c : List V} {s : List ℕ} {v : V} (h : Rep c s v) : s.headD 0 ∈ s := by
  have := h.two
  cases s with
  | nil => simp at this
  | cons a t => simp

theorem getLastD_mem (a : ℕ) (t : List ℕ) : (a :: t).getLastD 0 ∈ a :: t := by
  rw [List.getLastD_eq_getLast?, List.getLast?_eq_some_getLast (l := a :: t) (by simp)]
  exact List.getLast_mem _

theorem Rep.last_mem {c : List V} {s : List ℕ} {v : V} (h : Rep c s v) : s.getLastD 0 ∈ s := by
  have := h.two
  cases s with
  | nil => simp at this
  | cons a t => exact getLastD_mem a t

theorem Rep.head_lt_last {c : List V} {s : List ℕ} {v : V} (h : Rep c s v) : s.headD 0 < s.getLastD 0 := by
  have h2 := h.two
  have hi := h.incr
  match s, h2, hi with
  | a :: b :: t, _, hi =>
    have hm : (a :: b :: t).getLastD 0 ∈ b :: t := by
      exact getLastD_mem b t
    exact (List.pairwise_cons.1 hi).1 _ hm

/-- neighbouring positions are in order, and not both ends of the chunk -/
theorem Rep.pair {c : List V} {s : List ℕ} {v : V} (h : Rep c s v) {p : ℕ × ℕ} (hp : p ∈ s.zip s.tail) :
    p.1 < p.2 ∧ p.1 ∈ s ∧ p.2 ∈ s ∧ ¬ (p.1 = 0 ∧ p.2 = c.length - 1) := by
  obtain ⟨k, h1, h2⟩ := zip_tail_mem hp
  have hk1 : k < s.length := by
    by_contra hc; rw [List.getElem?_eq_none (by omega)] at h1; cases h1
  have hk2 : k + 1 < s.length := by
    by_contra hc; rw [List.getElem?_eq_none (by omega)] at h2; cases h2
  rw [List.getElem?_eq_getElem hk1] at h1
  rw [List.getElem?_eq_getElem hk2] at h2
  injection h1 with h1
  injection h2 with h2
  have hpw := List.pairwise_iff_getElem.1 h.incr
  refine ⟨?_, ?_, ?_, ?_⟩
  · rw [← h1, ← h2]; exact hpw k (k + 1) hk1 hk2 (by omega)
  · rw [← h1]; exact List.getElem_mem _
  · rw [← h2]; exact List.getElem_mem _
  · rintro ⟨h3, h4⟩
    have hk0 : k = 0 := by
      by_contra hc
      have := hpw 0 k (by omega) hk1 (by omega)
      omega
    have hl : s.length = 2 := by
      by_contra hc
      have hk3 : k + 2 < s.length := by have := h.two; omega
      have := hpw (k + 1) (k + 2) hk2 hk3 (by omega)
      have := h.lt (List.getElem_mem hk3)
      omega
    apply h.inner
    subst hk0
    match s, hl with
    | [a, b], _ =>
      simp at h1 h2
      rw [h1, h2, h3, h4]

theorem part_head (c : List V) (i j : ℕ) (hij : i < j) : (part c i j).head? = c[i]? := by
  rw [part, List.head?_take, if_neg (by omega), List.head?_drop]

theorem part_length (c : List V) (i j : ℕ) (hj : j < c.length) : (part c i j).length = j + 1 - i := by
  rw [part, List.length_take, List.length_drop]; omega

theorem part_last (c : List V) (i j : ℕ) (hij : i < j) (hj : j < c.length) : (part c i j).getLast? = c[j]? := by
  rw [List.getLast?_eq_getElem?, part_length c i j hj, part, List.getElem?_take, if_pos (by omega), List.getElem?_drop]
  congr 1; omega

theorem Rep.part_closed {c : List V} {s : List ℕ} {v : V} (h : Rep c s v) {p : ℕ × ℕ} (hp : p ∈ s.zip s.tail) :
    Closed (part c p.1 p.2) ∧ (part c p.1 p.2).length < c.length := by
  obtain ⟨h1, h2, h3, h4⟩ := h.pair hp
  have hl2 := h.lt h3
  refine ⟨⟨?_, ?_⟩, ?_⟩
  · rw [part_length _ _ _ hl2]; omega
  · rw [part_head _ _ _ h1, part_last _ _ _ h1 hl2, h.occ _ h2, h.occ _ h3]
  · rw [part_length _ _ _ hl2]; omega

theorem bnd_length (c : List V) (i j : ℕ) (hi : i < c.length) (hj : j < c.length) : (bndArr c i j).length = bndSize c i j := by
  rw [bndArr, bndSize]
  split_ifs with h <;> simp only [List.length_append, List.length_drop, List.length_take] <;> omega

theorem bnd_head (c : List V) (i j : ℕ) (hj : j < c.length) : (bndArr c i j).head? = c[j]? := by
  rw [bndArr]
  split_ifs with h <;> rw [List.drop_eq_getElem_cons hj, List.cons_append, List.head?_cons, List.getElem?_eq_getElem hj]

theorem isClosed_iff (c : List V) : isClosed c = true ↔ c.head? = c.getLast? := by simp [isClosed]

/-- the part over the end of an array that is closed: its steps are those of the two ends -/
theorem bnd_steps (c : List V) (i j : ℕ) (hc : c.head? = c.getLast?) (hi : i < c.length) (hj : j < c.length) :
    steps (bndArr c i j) = steps (c.drop j) ++ steps (c.take (i + 1)) := by
  rw [bndArr, if_pos ((isClosed_iff c).2 hc)]
  match c, hc, hi, hj with
  | a :: t, hc, hi, hj =>
    simp only [List.drop_one, List.tail_cons, List.take_succ_cons]
    have hlast : ((a :: t).drop j).getLast? = some a := by
      rw [List.getLast?_drop, if_neg (by omega), ← hc]; rfl
    obtain ⟨xs, hxs⟩ : ∃ xs, (a :: t).drop j = xs ++ [a] := by
      rw [List.getLast?_eq_some_iff] at hlast
      exact hlast
    rw [hxs, List.append_assoc, List.singleton_append, steps_append]

theorem bnd_last_open (c : List V) (i j : ℕ) (hi : i < c.length) (ho : c.head? ≠ c.getLast?) : (bndArr c i j).getLast? = c[i]? := by
  rw [bndArr, if_neg (by rw [isClosed_iff]; exact ho), List.getLast?_append, List.getLast?_take]
  have h1 : i + 1 ≠ 0 := by omega
  rw [if_neg h1, Nat.add_sub_cancel, List.getElem?_eq_getElem hi]
  simp

theorem bnd_last_closed (c : List V) (i j : ℕ) (hi : i < c.length) (hj : j < c.length) (ho : c.head? = c.getLast?) : (bndArr c i j).getLast? = c[i]? := by
  rw [bndArr, if_pos ((isClosed_iff c).2 ho)]
  match c, ho, hi, hj with
  | a :: t, hc, hi, hj =>
    simp only [List.drop_one, List.tail_cons, List.getLast?_append]
    cases i with
    | zero =>
      simp only [List.take_zero, List.getLast?_nil, Option.none_or]
      rw [List.getLast?_drop, if_neg (by omega), ← hc]; rfl
    | succ i =>
      have hi' : i < t.length := by simpa using hi
      rw [List.getLast?_take, if_neg (by omega), Nat.add_sub_cancel, List.getElem?_eq_getElem hi']
      simp

theorem bnd_last (c : List V) (i j : ℕ) (hi : i < c.length) (hj : j < c.length) : (bndArr c i j).getLast? = c[i]? := by
  by_cases h : c.head? = c.getLast?
  · exact bnd_last_closed c i j hi hj h
  · exact bnd_last_open c i j hi h

/-- the measure that decreases with every nested call -/
def meas (c : List V) : ℕ := 2 * c.length + if isClosed c then 0 else 1

theorem Rep.parts_meas {c : List V} {s : List ℕ} {v : V} (h : Rep c s v) {x : List V} (hx : x ∈ parts c s) :
    meas x < meas c ∧ x.head? = x.getLast? ∧ x ≠ [] := by
  rw [parts_cons] at hx
  rcases hx with rfl | ⟨p, hp, rfl⟩
  · have h1 := h.lt h.head_mem
    have h2 := h.lt h.last_mem
    have hl := bnd_length c _ _ h1 h2
    have hcl : (bndArr c (s.headD 0) (s.getLastD 0)).head? = (bndArr c (s.headD 0) (s.getLastD 0)).getLast? := by
      rw [bnd_head _ _ _ h2, bnd_last _ _ _ h1 h2, h.occ _ h.head_mem, h.occ _ h.last_mem]
    refine ⟨?_, hcl, ?_⟩
    · have hlt := h.head_lt_last
      rw [meas, if_pos ((isClosed_iff _).2 hcl), meas, hl, bndSize]
      split_ifs <;> omega
    · intro he
      rw [he] at hl
      simp only [List.length_nil, bndSize] at hl
      omega
  · obtain ⟨hc, hl⟩ := h.part_closed hp
    refine ⟨?_, hc.2, ?_⟩
    · rw [meas, if_pos ((isClosed_iff _).2 hc.2), meas]; omega
    · intro he; rw [he] at hc; simp [Closed] at hc

theorem rep_of_find {c : List V} {s : List ℕ} (h : findRep c.length (sortedPos c) = some s) : ∃ v, Rep c s v := by
  obtain ⟨v, h1, h2, h3, h4⟩ := findRep_some c (sortedPos c) s (fun e he => (sortedPos_mem c e.1 e.2).1 he) (sortedPos_nodup c) h
  exact ⟨v, h1, h2, h3, h4⟩

theorem splitChunk_succ (fuel : ℕ) (c : List V) (h2 : 2 ≤ c.length) (hn : ¬ (c.length = 2 ∧ c.head? = c.getLast?)) :
    splitChunk (fuel + 1) c = match findRep c.length (sortedPos c) with
      | none => some [c]
      | some s => ((parts c s).mapM (splitChunk fuel)).map List.flatten := by
  rw [splitChunk, if_neg (by omega), if_neg hn]
  cases findRep c.length (sortedPos c) <;> rfl

theorem mapM_total {α β : Type} (f : α → Option β) (l : List α) (h : ∀ a ∈ l, ∃ b, f a = some b) : ∃ bs, l.mapM f = some bs ∧ List.Forall₂ (fun a b => f a = some b) l bs := by
  induction l with
  | nil => exact ⟨[], by simp, List.Forall₂.nil⟩
  | cons a l ih =>
    obtain ⟨b, hb⟩ := h a (by simp)
    obtain ⟨bs, h1, h2⟩ := ih fun x hx => h x (by simp [hx])
    exact ⟨b :: bs, by simp [hb, h1], List.Forall₂.cons hb h2⟩

/-- **C98** (`SplitChunk` comes to an end). For every chunk. -/
theorem split_ends (fuel : ℕ) : ∀ c : List V, meas c < fuel → ∃ out, splitChunk fuel c = some out := by
  induction fuel with
  | zero => intro c h; omega
  | succ fuel ih =>
    intro c h
    by_cases h2 : c.length < 2
    · exact ⟨[], by rw [splitChunk, if_pos h2]⟩
    by_cases hn : c.length = 2 ∧ c.head? = c.getLast?
    · exact ⟨[], by rw [splitChunk, if_neg h2, if_pos hn]⟩
    rw [splitChunk_succ fuel c (by omega) hn]
    cases hf : findRep c.length (sortedPos c) with
    | none => exact ⟨_, rfl⟩
    | some s =>
      obtain ⟨v, hr⟩ := rep_of_find hf
      obtain ⟨bs, h1, -⟩ := mapM_total (splitChunk fuel) (parts c s) fun x hx => ih x (by have := (hr.parts_meas hx).1; omega)
      exact ⟨bs.flatten, by simp [h1]⟩

theorem split_total (c : List V) : ∃ out, splitChunk (splitFuel c) c = some out := by
  apply split_ends
  rw [meas, splitFuel]; split_ifs <;> omega

/-- steps of the parts of a closed walk -/
theorem Rep.parts_steps {c : List V} {s : List ℕ} {v : V} (h : Rep c s v) (hc : c.head? = c.getLast?) :
    ((parts c s).flatMap steps).Perm (steps c) := by
  have h1 := h.lt h.head_mem
  have h2 := h.lt h.last_mem
  have hne : s ≠ [] := by intro he; have := h.two; rw [he] at this; simp at this
  have hch := steps_chain c s h.incr (fun i hi => h.lt hi) hne
  rw [parts, List.flatMap_cons, bnd_steps c _ _ hc h1 h2]
  conv_rhs => rw [steps_split c _ h1, hch]
  generalize steps (c.drop (s.getLastD 0)) = A
  generalize steps (c.take (s.headD 0 + 1)) = B
  generalize List.flatMap steps _ = C
  refine (List.perm_append_comm.append_right C : (A ++ B ++ C).Perm (B ++ A ++ C)).trans ?_
  rw [List.append_assoc]; exact List.perm_append_comm.append_left _

theorem flatten_flatMap {bs : List (List (List V))} : bs.flatten.flatMap steps = bs.flatMap fun ls => ls.flatMap steps := by
  induction bs with
  | nil => rfl
  | cons b bs ih => simp [List.flatMap_append, ih]

theorem nodup_tail_of {c : List V} (h : ∀ v i j, c[i]? = some v → c[j]? = some v → i < j → i = 0 ∧ j = c.length - 1) : c.tail.Nodup := by
  rw [List.nodup_iff_pairwise_ne, List.pairwise_iff_getElem]
  intro i j hi hj hij he
  have hi' : i + 1 < c.length := by simp at hi; omega
  have hj' : j + 1 < c.length := by simp at hj; omega
  have := h (c[i + 1]) (i + 1) (j + 1) (List.getElem?_eq_getElem hi') (by rw [List.getElem?_eq_getElem hj']; simp at he; rw [he]) (by omega)
  omega

/-- the parts of a closed walk: closed walks and single vertices; their steps are steps of it -/
theorem split_closed_aux (fuel : ℕ) : ∀ (c : List V) (out : List (List V)), c.head? = c.getLast? → (∀ x ∈ steps c, x.1 ≠ x.2) → splitChunk fuel c = some out →
    (∀ l ∈ out, SimpleLoop l) ∧ (out.flatMap steps).Perm (steps c) := by
  induction fuel with
  | zero => intro c out _ _ h; simp [splitChunk] at h
  | succ fuel ih =>
    intro c out hc hs h
    by_cases h2 : c.length < 2
    · rw [splitChunk, if_pos h2] at h
      injection h with h
      subst h
      match c, h2 with
      | [], _ => simp [steps]
      | [a], _ => simp [steps]
    by_cases hn : c.length = 2 ∧ c.head? = c.getLast?
    · exfalso
      match c, hn with
      | [a, b], hn =>
        have := hs (a, b) (by simp [steps])
        simp at hn
        exact this hn
    rw [splitChunk_succ fuel c (by omega) hn] at h
    cases hf : findRep c.length (sortedPos c) with
    | none =>
      rw [hf] at h
      injection h with h
      subst h
      have hcl : Closed c := ⟨by omega, hc⟩
      refine ⟨?_, by simp⟩
      intro l hl
      rw [List.mem_singleton] at hl
      subst hl
      refine ⟨hcl, nodup_tail_of fun v i j hi hj hij => ?_⟩
      exact findRep_none l.length (sortedPos l) (sortedPos_sorted l) (sortedPos_nodup l) hf v i j ((sortedPos_mem l v i).2 hi) ((sortedPos_mem l v j).2 hj) hij
    | some s =>
      rw [hf] at h
      obtain ⟨v, hr⟩ := rep_of_find hf
      obtain ⟨bs, hbs, rfl⟩ := Option.map_eq_some_iff.1 h
      have hps := hr.parts_steps hc
      have hstep : ∀ x ∈ parts c s, ∀ y ∈ steps x, y.1 ≠ y.2 := fun x hx y hy =>
        hs y (hps.subset (List.mem_flatMap.2 ⟨x, hx, hy⟩))
      have hcl : ∀ x ∈ parts c s, x.head? = x.getLast? := fun x hx => (hr.parts_meas hx).2.1
      clear h hf hr
      have key : ∀ (ps : List (List V)) (bs : List (List (List V))), (∀ x ∈ ps, ∀ y ∈ steps x, y.1 ≠ y.2) → (∀ x ∈ ps, x.head? = x.getLast?) →
          ps.mapM (splitChunk fuel) = some bs → (∀ l ∈ bs.flatten, SimpleLoop l) ∧ (bs.flatten.flatMap steps).Perm (ps.flatMap steps) := by
        intro ps
        induction ps with
        | nil => intro bs _ _ h; simp at h; subst h; simp
        | cons p ps ihp =>
          intro bs h1 h2 h
          simp only [List.mapM_cons, Option.bind_eq_bind, Option.bind_eq_some_iff, Option.pure_def, Option.some.injEq] at h
          obtain ⟨b, hb, bs', hbs', rfl⟩ := h
          obtain ⟨h3, h4⟩ := ih p b (h2 p (by simp)) (h1 p (by simp)) hb
          obtain ⟨h5, h6⟩ := ihp bs' (fun x hx => h1 x (by simp [hx])) (fun x hx => h2 x (by simp [hx])) hbs'
          refine ⟨?_, ?_⟩
          · intro l hl
            rw [List.flatten_cons, List.mem_append] at hl
            rcases hl with hl | hl
            · exact h3 l hl
            · exact h5 l hl
          · rw [List.flatten_cons, List.flatMap_append, List.flatMap_cons]
            exact h4.append h6
      obtain ⟨h3, h4⟩ := key _ _ hstep hcl hbs
      exact ⟨h3, h4.trans hps⟩

/-- **C98** (splitting a closed walk). For every closed walk (without a step from a vertex to itself): it is divided into closed walks that go
through no vertex twice, and every step of the walk is a step of exactly one of them, as often as it occurs, in the same direction. -/
theorem split_closed (c : List V) (hc : Closed c) (hs : ∀ x ∈ steps c, x.1 ≠ x.2) :
    ∃ out, splitChunk (splitFuel c) c = some out ∧ (∀ l ∈ out, SimpleLoop l) ∧ (out.flatMap steps).Perm (steps c) := by
  obtain ⟨out, ho⟩ := split_total c
  exact ⟨out, ho, split_closed_aux _ c out hc.2 hs ho⟩

end NgsAMG.Loop
