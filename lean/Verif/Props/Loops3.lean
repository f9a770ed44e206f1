import Verif.Props.Loops2

/-!
# From edges to simple loops (C98)
-/

namespace NgsAMG.Loop
open NgsAMG.Spec
variable {V : Type} [LinearOrder V]
set_option linter.unusedSectionVars false

/-- the edges that are not used yet -/
def unused (es : List (Entry V)) : List (V × V) := (es.filter fun e => !e.1).map Prod.snd

theorem unused_cons_true (x : V × V) (es : List (Entry V)) : unused ((true, x) :: es) = unused es := by simp [unused]

theorem unused_cons_false (x : V × V) (es : List (Entry V)) : unused ((false, x) :: es) = x :: unused es := by simp [unused]

theorem allUsed_iff (es : List (Entry V)) : allUsed es = true ↔ es = (es.map Prod.snd).map fun x => (true, x) := by
  induction es with
  | nil => simp [allUsed]
  | cons e es ih =>
    obtain ⟨b, x⟩ := e
    simp only [allUsed, List.all_cons, Bool.and_eq_true] at ih ⊢
    simp only [List.map_cons, List.cons.injEq, Prod.mk.injEq, and_true]
    constructor
    · rintro ⟨h1, h2⟩; exact ⟨h1, ih.1 h2⟩
    · rintro ⟨h1, h2⟩; exact ⟨h1, ih.2 h2⟩

theorem allUsed_unused (es : List (Entry V)) : allUsed es = true ↔ unused es = [] := by
  induction es with
  | nil => simp [allUsed, unused]
  | cons e es ih =>
    obtain ⟨b, x⟩ := e
    cases b
    · simp [allUsed, unused]
    · rw [unused_cons_true, ← ih]; simp [allUsed]

theorem steps_snoc (c : List V) (a b : V) (h : c.getLast? = some a) : steps (c ++ [b]) = steps c ++ [(a, b)] := by
  obtain ⟨xs, rfl⟩ := List.getLast?_eq_some_iff.1 h
  rw [List.append_assoc, List.singleton_append, steps_append]
  rfl

theorem steps_cons (c : List V) (a b : V) (h : c.head? = some b) : steps (a :: c) = (a, b) :: steps c := by
  cases c with
  | nil => simp at h
  | cons x t => simp at h; subst h; rfl

/-- one entry -/
theorem tryEntry_spec (c : List V) (e : Entry V) : (tryEntry c e).2.2 = e.2 ∧ c.length ≤ (tryEntry c e).1.length ∧
    (steps (tryEntry c e).1 ++ unused [(tryEntry c e).2]).Perm (steps c ++ unused [e]) ∧
    ((tryEntry c e).2 = e → (tryEntry c e).1 = c ∧ (e.1 = false → c.getLast? ≠ some e.2.1 ∧ c.head? ≠ some e.2.2)) ∧
    ((tryEntry c e).2 ≠ e → e.1 = false ∧ (tryEntry c e).2.1 = true) := by
  obtain ⟨b, x, y⟩ := e
  cases b
  · simp only [tryEntry, Bool.false_eq_true, if_false]
    by_cases h1 : c.getLast? = some x
    · rw [if_pos h1]
      refine ⟨rfl, by simp, ?_, by simp, by simp⟩
      rw [steps_snoc c x y h1]
      simp [unused]
    · rw [if_neg h1]
      by_cases h2 : c.head? = some y
      · rw [if_pos h2]
        refine ⟨rfl, by simp, ?_, by simp, by simp⟩
        rw [steps_cons c x y h2]
        simp only [unused]
        simpa using (List.perm_append_singleton (x, y) (steps c)).symm
      · rw [if_neg h2]
        exact ⟨rfl, le_refl _, List.Perm.refl _, fun _ => ⟨rfl, fun _ => ⟨h1, h2⟩⟩, fun h => absurd rfl h⟩
  · have h : tryEntry c (true, x, y) = (c, (true, x, y)) := by simp [tryEntry]
    rw [h]
    exact ⟨rfl, le_refl _, List.Perm.refl _, fun _ => ⟨rfl, by simp⟩, fun h => absurd rfl h⟩

theorem unused_cons (e : Entry V) (es : List (Entry V)) : unused (e :: es) = unused [e] ++ unused es := by
  obtain ⟨b, x⟩ := e
  cases b <;> simp [unused]

/-- one pass -/
theorem pass_spec : ∀ (es : List (Entry V)) (c : List V), (pass c es).2.map Prod.snd = es.map Prod.snd ∧ c.length ≤ (pass c es).1.length ∧
    (steps (pass c es).1 ++ unused (pass c es).2).Perm (steps c ++ unused es) ∧
    ((pass c es).2 = es → (pass c es).1 = c ∧ ∀ e ∈ es, e.1 = false → c.getLast? ≠ some e.2.1 ∧ c.head? ≠ some e.2.2) ∧
    (unused (pass c es).2).length ≤ (unused es).length ∧ ((pass c es).2 ≠ es → (unused (pass c es).2).length < (unused es).length) := by
  intro es
  induction es with
  | nil => intro c; simp [pass]
  | cons e es ih =>
    intro c
    obtain ⟨t1, t2, t3, t4, t5⟩ := tryEntry_spec c e
    obtain ⟨p1, p2, p3, p4, p5, p6⟩ := ih (tryEntry c e).1
    have hun : (unused [(tryEntry c e).2]).length ≤ (unused [e]).length ∧ ((tryEntry c e).2 ≠ e → (unused [(tryEntry c e).2]).length < (unused [e]).length) := by
      by_cases h : (tryEntry c e).2 = e
      · rw [h]; exact ⟨le_refl _, fun h => absurd rfl h⟩
      · obtain ⟨h1, h2⟩ := t5 h
        have h3 : unused [(tryEntry c e).2] = [] := by simp [unused, h2]
        have h4 : unused [e] = [e.2] := by simp [unused, h1]
        rw [h3, h4]; simp
    simp only [pass]
    refine ⟨?_, le_trans t2 p2, ?_, ?_, ?_, ?_⟩
    · simp [p1, t1]
    · rw [unused_cons, unused_cons e es]
      have hA : ∀ A B C : List (V × V), (A ++ (B ++ C)).Perm (A ++ C ++ B) := by
        intro A B C; rw [List.append_assoc]; exact List.perm_append_comm.append_left _
      refine (hA _ _ _).trans ?_
      refine (p3.append_right _).trans ?_
      refine (List.perm_append_comm.trans ?_ : (steps (tryEntry c e).1 ++ unused es ++ unused [(tryEntry c e).2]).Perm _)
      rw [← List.append_assoc, ← List.append_assoc]
      exact (List.perm_append_comm.trans t3).append_right _
    · intro h
      simp only [List.cons.injEq] at h
      obtain ⟨h1, h2⟩ := t4 h.1
      obtain ⟨h3, h4⟩ := p4 h.2
      rw [h1] at h3 h4 
      refine ⟨by rw [h1]; exact h3, ?_⟩
      intro x hx
      rcases List.mem_cons.1 hx with rfl | hx
      · exact h2
      · exact h4 x hx
    · rw [unused_cons, unused_cons e es, List.length_append, List.length_append]
      exact Nat.add_le_add hun.1 p5
    · intro h
      rw [unused_cons, unused_cons e es, List.length_append, List.length_append]
      by_cases h1 : (tryEntry c e).2 = e
      · by_cases h2 : (pass (tryEntry c e).1 es).2 = es
        · exact absurd (by rw [h1, h2]) h
        · exact Nat.add_lt_add_of_le_of_lt hun.1 (p6 h2)
      · exact Nat.add_lt_add_of_lt_of_le (hun.2 h1) p5

/-- the first edge of a new chunk -/
theorem start_spec (es : List (Entry V)) (h : allUsed es = false) : (start es).2.map Prod.snd = es.map Prod.snd ∧ (start es).1.length = 2 ∧
    (steps (start es).1 ++ unused (start es).2).Perm (unused es) ∧ (unused (start es).2).length + 1 = (unused es).length := by
  induction es with
  | nil => simp [allUsed] at h
  | cons e es ih =>
    obtain ⟨b, x, y⟩ := e
    cases b
    · simp only [start, Bool.false_eq_true, if_false]
      refine ⟨rfl, rfl, ?_, ?_⟩
      · rw [unused_cons_true, unused_cons_false]; simp [steps]
      · rw [unused_cons_true, unused_cons_false]; simp
    · have h' : allUsed es = false := by simpa [allUsed] using h
      obtain ⟨h1, h2, h3, h4⟩ := ih h'
      simp only [start, if_true]
      refine ⟨by simp [h1], h2, ?_, ?_⟩
      · rw [unused_cons_true, unused_cons_true]; exact h3
      · rw [unused_cons_true, unused_cons_true]; exact h4

/-- degrees of a walk -/
theorem walk_degree : ∀ (c : List V) (a b v : V), c.head? = some a → c.getLast? = some b →
    ((steps c).map Prod.fst).count v + (if v = b then 1 else 0) = ((steps c).map Prod.snd).count v + (if v = a then 1 else 0) := by
  intro c
  induction c with
  | nil => intro a b v h; simp at h
  | cons x t ih =>
    intro a b v ha hb
    simp at ha
    subst ha
    cases t with
    | nil => simp at hb; subst hb; simp [steps]
    | cons y t =>
      have := ih y b v rfl (by rw [List.getLast?_cons_cons] at hb; exact hb)
      simp only [steps, List.map_cons, List.count_cons, beq_iff_eq]
      have e1 : (if x = v then 1 else 0) = (if v = x then 1 else 0) := by simp only [eq_comm]
      have e2 : (if y = v then 1 else 0) = (if v = y then 1 else 0) := by simp only [eq_comm]
      omega

theorem closed_balanced {c : List V} (h : c.head? = c.getLast?) : Balanced (steps c) := by
  intro v
  cases hc : c.head? with
  | none =>
    have : c = [] := by simpa using hc
    subst this; rfl
  | some a =>
    have := walk_degree c a a v hc (h ▸ hc)
    omega

theorem closed_of_balanced {c : List V} (h : Balanced (steps c)) (hl : 2 ≤ c.length) : Closed c := by
  refine ⟨hl, ?_⟩
  obtain ⟨a, ha⟩ : ∃ a, c.head? = some a := by cases c with
    | nil => simp at hl
    | cons a t => exact ⟨a, rfl⟩
  obtain ⟨b, hb⟩ : ∃ b, c.getLast? = some b := by
    rw [List.getLast?_eq_some_getLast (l := c) (by intro h; rw [h] at hl; simp at hl)]; exact ⟨_, rfl⟩
  have := walk_degree c a b a ha hb
  have := h a
  by_cases hab : a = b
  · rw [ha, hb, hab]
  · simp [hab] at *
    omega

theorem Balanced.perm {A B : List (V × V)} (h : A.Perm B) (hb : Balanced B) : Balanced A := fun v => by
  rw [(h.map Prod.fst).count_eq, (h.map Prod.snd).count_eq]; exact hb v

theorem balanced_flatMap {out : List (List V)} (h : ∀ l ∈ out, SimpleLoop l) : Balanced (out.flatMap steps) := by
  induction out with
  | nil => intro v; rfl
  | cons l out ih =>
    intro v
    have h1 := closed_balanced (h l (by simp)).1.2 v
    have h2 := ih (fun x hx => h x (by simp [hx])) v
    simp only [List.flatMap_cons, List.map_append, List.count_append]
    omega

/-- a chunk no edge can be added to is closed -/
theorem stuck_closed {sub : List V} {out : List (List V)} {N data : List (V × V)} (hp : (steps sub ++ out.flatMap steps ++ N).Perm data) (hb : Balanced data)
    (ho : ∀ l ∈ out, SimpleLoop l) (hl : 2 ≤ sub.length) (hf : ∀ e ∈ N, sub.getLast? ≠ some e.1) : Closed sub := by
  refine ⟨hl, ?_⟩
  obtain ⟨a, ha⟩ : ∃ a, sub.head? = some a := by cases sub with
    | nil => simp at hl
    | cons a t => exact ⟨a, rfl⟩
  obtain ⟨b, hbl⟩ : ∃ b, sub.getLast? = some b := by
    rw [List.getLast?_eq_some_getLast (l := sub) (by intro h; rw [h] at hl; simp at hl)]; exact ⟨_, rfl⟩
  by_contra hne
  have hab : b ≠ a := by intro h; apply hne; rw [ha, hbl, h]
  have h1 := walk_degree sub a b b ha hbl
  have h2 := balanced_flatMap ho b
  have h3 := Balanced.perm hp hb b
  simp only [List.map_append, List.count_append] at h3
  simp only [if_true, if_neg hab] at h1
  have h4 : 0 < (N.map Prod.fst).count b := by omega
  obtain ⟨e, he, heb⟩ := List.mem_map.1 (List.count_pos_iff.1 h4)
  exact hf e he (by rw [hbl, heb])

/-- the state of the loop: the edges of the chunk, of the loops found and those not used are all the edges -/
structure MInv (data : List (V × V)) (sub : List V) (es : List (Entry V)) (out : List (List V)) : Prop where
  all : (steps sub ++ out.flatMap steps ++ unused es).Perm data
  simple : ∀ l ∈ out, SimpleLoop l
  two : sub = [] ∨ 2 ≤ sub.length

/-- what is to be found -/
def Good (data : List (V × V)) (out : List (List V)) : Prop := (∀ l ∈ out, SimpleLoop l) ∧ (out.flatMap steps).Perm data

theorem finishChunk_total (sub : List V) (out : List (List V)) : ∃ r, finishChunk sub out = some r := by
  rw [finishChunk]
  split_ifs
  · exact ⟨_, rfl⟩
  · obtain ⟨o, ho⟩ := split_total sub
    exact ⟨_, by rw [ho]; rfl⟩

theorem finishChunk_good {data : List (V × V)} {sub : List V} {es : List (Entry V)} {out r : List (List V)} (hi : MInv data sub es out)
    (hu : allUsed es = true) (hb : Balanced data) (hn : ∀ x ∈ data, x.1 ≠ x.2) (h : finishChunk sub out = some r) : Good data r := by
  have hall := hi.all
  rw [(allUsed_unused es).1 hu, List.append_nil] at hall
  rw [finishChunk] at h
  split_ifs at h with h1
  · injection h with h; subst h
    rw [h1] at hall
    exact ⟨hi.simple, by simpa [steps] using hall⟩
  · obtain ⟨o, ho, rfl⟩ := Option.map_eq_some_iff.1 h
    have hl := hi.two.resolve_left h1
    have hc : Closed sub := stuck_closed (N := []) (by simpa using hall) hb hi.simple hl (by simp)
    obtain ⟨h2, h3⟩ := split_closed_aux _ sub o hc.2 (fun x hx => hn x (hall.subset (by simp [hx]))) ho
    refine ⟨?_, ?_⟩
    · intro l hl
      rcases List.mem_append.1 hl with hl | hl
      · exact hi.simple l hl
      · exact h2 l hl
    · rw [List.flatMap_append]
      exact (List.perm_append_comm.trans (h3.append_right _)).trans hall

theorem merge_spec (data : List (V × V)) (fuel : ℕ) : ∀ (sub : List V) (es : List (Entry V)) (out : List (List V)), es.map Prod.snd = data →
    2 * (unused es).length + (if sub = [] then 0 else 1) < fuel →
    ∃ r, mergeLoop fuel sub es out = some (r, data.map fun x => (true, x)) ∧
      (Balanced data → (∀ x ∈ data, x.1 ≠ x.2) → MInv data sub es out → Good data r) := by
  induction fuel with
  | zero => intro sub es out _ h; omega
  | succ fuel ih =>
    intro sub es out hes hfu
    rw [mergeLoop]
    by_cases hu : allUsed es = true
    · rw [if_pos hu]
      obtain ⟨r, hr⟩ := finishChunk_total sub out
      refine ⟨r, ?_, fun hb hn hi => finishChunk_good hi hu hb hn hr⟩
      rw [hr, Option.map_some]
      have := (allUsed_iff es).1 hu
      rw [hes] at this
      rw [← this]
    rw [if_neg hu]
    have huf : allUsed es = false := by simpa using hu
    -- the chunk the round begins with
    obtain ⟨b, hbdef⟩ : ∃ b, b = if sub = [] then start es else (sub, es) := ⟨_, rfl⟩
    have hb : b.2.map Prod.snd = data ∧ 2 ≤ b.1.length ∧ (MInv data sub es out → MInv data b.1 b.2 out) ∨ (sub ≠ [] ∧ sub.length < 2 ∧ b = (sub, es)) := by
      by_cases hs : sub = []
      · left
        rw [if_pos hs] at hbdef
        obtain ⟨s1, s2, s3, s4⟩ := start_spec es huf
        rw [hbdef]
        refine ⟨s1.trans hes, s2.ge, fun hi => ⟨?_, hi.simple, Or.inr s2.ge⟩⟩
        have hall := hi.all
        rw [hs] at hall
        simp only [steps, List.nil_append] at hall
        refine List.Perm.trans ?_ hall
        refine ((List.perm_append_comm.append_right _).trans ?_)
        rw [List.append_assoc]
        exact s3.append_left _
      · rw [if_neg hs] at hbdef
        by_cases hl : 2 ≤ sub.length
        · left; rw [hbdef]; exact ⟨hes, hl, id⟩
        · right; exact ⟨hs, by omega, hbdef⟩
    have hb2 : b.2.map Prod.snd = data ∧ b.1 ≠ [] ∧ (MInv data sub es out → MInv data b.1 b.2 out ∧ 2 ≤ b.1.length) := by
      rcases hb with ⟨h1, h2, h3⟩ | ⟨h1, h2, h3⟩
      · exact ⟨h1, by intro h; rw [h] at h2; simp at h2, fun hi => ⟨h3 hi, h2⟩⟩
      · rw [h3]
        refine ⟨hes, h1, fun hi => ?_⟩
        rcases hi.two with h | h
        · exact absurd h h1
        · omega
    have hbm : 2 * (unused b.2).length < fuel ∧ ((unused b.2).length ≤ (unused es).length) := by
      by_cases hs : sub = []
      · rw [if_pos hs] at hbdef hfu
        obtain ⟨s1, s2, s3, s4⟩ := start_spec es huf
        rw [hbdef]; omega
      · rw [if_neg hs] at hbdef hfu
        rw [hbdef]; constructor
        · simp only; omega
        · exact le_refl _
    obtain ⟨hbs, hbne, hbi⟩ := hb2
    simp only [← hbdef]
    by_cases hu2 : allUsed b.2 = true
    · rw [if_pos hu2]
      obtain ⟨r, hr⟩ := finishChunk_total b.1 out
      refine ⟨r, ?_, fun hb hn hi => finishChunk_good (hbi hi).1 hu2 hb hn hr⟩
      rw [hr, Option.map_some]
      have := (allUsed_iff b.2).1 hu2
      rw [hbs] at this
      rw [← this]
    rw [if_neg hu2]
    obtain ⟨p1, p2, p3, p4, p5, p6⟩ := pass_spec b.2 b.1
    by_cases hq : (pass b.1 b.2).2 = b.2
    · rw [if_pos hq]
      obtain ⟨h1, h2⟩ := p4 hq
      obtain ⟨ls, hls⟩ := split_total (pass b.1 b.2).1
      rw [hls, Option.bind_some]
      obtain ⟨r, hr, hg⟩ := ih [] (pass b.1 b.2).2 (out ++ ls) (p1.trans hbs) (by rw [hq]; simp; omega)
      refine ⟨r, hr, fun hba hn hi => hg hba hn ?_⟩
      obtain ⟨hi', hl⟩ := hbi hi
      have hc : Closed b.1 := by
        refine stuck_closed hi'.all hba hi'.simple hl ?_
        intro e he
        obtain ⟨x, hx, rfl⟩ := List.mem_map.1 he
        rw [List.mem_filter] at hx
        exact (h2 x hx.1 (by simpa using hx.2)).1
      rw [h1] at hls
      obtain ⟨h3, h4⟩ := split_closed_aux _ b.1 ls hc.2 (fun x hx => hn x (hi'.all.subset (by simp [hx]))) hls
      refine ⟨?_, ?_, Or.inl rfl⟩
      · rw [hq]
        refine List.Perm.trans ?_ hi'.all
        simp only [steps, List.nil_append, List.flatMap_append]
        exact (List.perm_append_comm.trans (h4.append_right _)).append_right _
      · intro l hl
        rcases List.mem_append.1 hl with hl | hl
        · exact hi'.simple l hl
        · exact h3 l hl
    · rw [if_neg hq]
      have hne : (pass b.1 b.2).1 ≠ [] := by
        intro h
        rw [h] at p2
        exact hbne (by simpa using p2)
      obtain ⟨r, hr, hg⟩ := ih (pass b.1 b.2).1 (pass b.1 b.2).2 out (p1.trans hbs) (by have := p6 hq; rw [if_neg hne]; omega)
      refine ⟨r, hr, fun hba hn hi => hg hba hn ?_⟩
      obtain ⟨hi', hl⟩ := hbi hi
      refine ⟨?_, hi'.simple, Or.inr (le_trans hl p2)⟩
      refine List.Perm.trans ?_ hi'.all
      have hA : ∀ A B C : List (V × V), (A ++ B ++ C).Perm (A ++ C ++ B) := by
        intro A B C
        rw [List.append_assoc, List.append_assoc]
        exact List.perm_append_comm.append_left _
      exact (hA _ _ _).trans ((p3.append_right _).trans (hA _ _ _))

/-- **C98** (the merging comes to an end, and leaves its data as it was). For all edges. -/
theorem simpleLoops_ends (data : List (V × V)) : ∃ out, simpleLoops data = some (out, data.map fun x => (false, x)) := by
  obtain ⟨r, hr, -⟩ := merge_spec data (2 * data.length + 2) [] (data.map fun e => (false, e)) [] (by simp [Function.comp_def]) (by
    simp only [if_true]
    have : (unused (data.map fun e => (false, e))).length ≤ data.length := by
      rw [unused, List.length_map]; exact (List.length_filter_le _ _).trans (by simp)
    omega)
  exact ⟨r, by rw [simpleLoops, hr]; simp [Function.comp_def]⟩

/-- **C98** (coarse edges to loops). For all edges (none from a vertex to itself) of which as many begin in every vertex as end in it, in any
order: they are put together to closed walks that go through no vertex twice, and every edge is a step of exactly one of them, as often as it is given,
in its direction. -/
theorem simpleLoops_correct (data : List (V × V)) (hb : Balanced data) (hn : ∀ x ∈ data, x.1 ≠ x.2) :
    ∃ out, simpleLoops data = some (out, data.map fun x => (false, x)) ∧ (∀ l ∈ out, SimpleLoop l) ∧ (out.flatMap steps).Perm data := by
  have hun : unused (data.map fun e => (false, e)) = data := by
    clear hb hn
    induction data with
    | nil => rfl
    | cons x t ih => rw [List.map_cons, unused_cons_false, ih]
  obtain ⟨r, hr, hg⟩ := merge_spec data (2 * data.length + 2) [] (data.map fun e => (false, e)) [] (by simp [Function.comp_def]) (by
    rw [hun]; simp)
  refine ⟨r, by rw [simpleLoops, hr]; simp [Function.comp_def], hg hb hn ⟨?_, by simp, Or.inl rfl⟩⟩
  rw [hun]; simp [steps]

end NgsAMG.Loop
