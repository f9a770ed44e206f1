import Verif.Props.LoopSort1

/-!
# Sorting of loops 2: one chunk, all chunks
-/

namespace NgsAMG.LSort

variable {T V : Type}

/-- all edges of the chunks, in the order of the output; a chunk is the first edge, the extension in the back and the one in the front -/
def flat {α : Type} (cs : List (α × List α × List α)) : List α := cs.flatMap fun c => c.1 :: (c.2.1 ++ c.2.2)

/-- every chunk is a walk and nothing of what comes later fits to its ends -/
def Chunked (src tgt : T → V) : List (T × List T × List T) → Prop
  | [] => True
  | (x, back, front) :: cs =>
    (∃ a b, Walk src tgt a (front.reverse ++ x :: back) b ∧ (∀ y ∈ front ++ flat cs, src y ≠ b ∧ tgt y ≠ b) ∧
      ∀ y ∈ flat cs, src y ≠ a ∧ tgt y ≠ a) ∧ Chunked src tgt cs

theorem Walk.append {src tgt : T → V} {a b c : V} {l m : List T} (h : Walk src tgt a l b) (h' : Walk src tgt b m c) :
    Walk src tgt a (l ++ m) c := by
  induction l generalizing a with
  | nil => cases h; exact h'
  | cons t l ih => exact ⟨h.1, ih h.2⟩

theorem Walk.split {src tgt : T → V} {a c : V} {l m : List T} (h : Walk src tgt a (l ++ m) c) :
    ∃ b, Walk src tgt a l b ∧ Walk src tgt b m c := by
  induction l generalizing a with
  | nil => exact ⟨a, rfl, h⟩
  | cons t l ih => obtain ⟨b, h1, h2⟩ := ih h.2; exact ⟨b, ⟨h.1, h1⟩, h2⟩

theorem Walk.end_unique {src tgt : T → V} {a b c : V} {l : List T} (h : Walk src tgt a l b) (h' : Walk src tgt a l c) : b = c := by
  induction l generalizing a with
  | nil => exact h.symm.trans h'
  | cons t l ih => exact ih h.2 h'.2

/-- a walk in the other direction -/
theorem Walk.back {a b : V} {l : List (V × V)} (h : Walk Prod.fst Prod.snd a l b) :
    Walk Prod.fst Prod.snd b (l.map Prod.swap).reverse a := by
  induction l generalizing a with
  | nil => exact Eq.symm h
  | cons t l ih =>
    rw [List.map_cons, List.reverse_cons]
    refine (ih h.2).append ⟨rfl, ?_⟩
    exact h.1

theorem pr_neg (src tgt : T → V) (loop : List T) (d : T) {o : ℤ} (ho : o = 1 ∨ o = -1) (k : ℕ) :
    (pr src tgt loop d (o * -1) k).swap = pr src tgt loop d o k := by
  rcases ho with rfl | rfl <;> simp [pr]

/-- `Chunked` for numbers of edges -/
def ChunkedI (src tgt : T → V) (loop : List T) (d : T) (o : ℕ → ℤ) : List (ℕ × List ℕ × List ℕ) → Prop
  | [] => True
  | (x, back, front) :: cs =>
    (∃ a b, WalkI src tgt loop d o a (front.reverse ++ x :: back) b ∧
      (∀ k ∈ front ++ flat cs, src (loop.getD k d) ≠ b ∧ tgt (loop.getD k d) ≠ b) ∧
      ∀ k ∈ flat cs, src (loop.getD k d) ≠ a ∧ tgt (loop.getD k d) ≠ a) ∧ ChunkedI src tgt loop d o cs

theorem WalkI.congr {src tgt : T → V} {loop : List T} {d : T} {o o' : ℕ → ℤ} {a b : V} {l : List ℕ} (h : WalkI src tgt loop d o a l b)
    (ho : ∀ k ∈ l, o' k = o k) : WalkI src tgt loop d o' a l b := by
  unfold WalkI at *
  rw [List.map_congr_left (g := fun k => pr src tgt loop d (o k) k) fun k hk => by rw [ho k hk]]
  exact h

variable [DecidableEq V] {src tgt : T → V} {flip : T → T} {orient : T → Bool → T → ℤ} {loop : List T}

theorem chunk_spec (hE : ByEnds src tgt flip orient loop) (d : T) (s : St) (hs : Ok loop.length s) (hl : s.inds.length < loop.length) :
    ∃ s' x back front a b, chunk orient loop s = some s' ∧ Ok loop.length s' ∧ s'.inds = s.inds ++ x :: (back ++ front) ∧
      (∀ k ∈ s.inds, s'.used k = s.used k) ∧ WalkI src tgt loop d s'.used a (front.reverse ++ x :: back) b ∧
      (∀ k < loop.length, k ∉ s.inds ++ x :: back → src (loop.getD k d) ≠ b ∧ tgt (loop.getD k d) ≠ b) ∧
      (∀ k < loop.length, k ∉ s'.inds → src (loop.getD k d) ≠ a ∧ tgt (loop.getD k d) ≠ a) := by
  have hst : ∃ x, x < loop.length ∧ s.used x = 0 ∧ findStart loop s = some (x, loop.getD x d) := by
    unfold findStart
    rcases findSome_range loop.length (fun k => if s.used k = 0 then (loop[k]?).map fun x => (k, x) else none)
      with ⟨k, y, hk, hy, hf⟩ | ⟨_, hall⟩
    · by_cases hu : s.used k = 0
      · rw [if_pos hu, getD_lt (d := d) hk, Option.map_some, Option.some.injEq] at hy
        subst hy
        exact ⟨k, hk, hu, hf⟩
      · rw [if_neg hu] at hy; cases hy
    · exfalso
      have : List.range loop.length ⊆ s.inds := fun k hk => by
        rw [List.mem_range] at hk
        rw [← hs.us k]
        intro hu
        have := hall k hk
        rw [if_pos hu, getD_lt (d := d) hk] at this
        cases this
      have := (List.nodup_range.subperm this).length_le
      simp at this; omega
  obtain ⟨x, hx, hxu, hst⟩ := hst
  have hs0 := hs.add (ort := 1) (Or.inl rfl) hx hxu
  have hi0 : (s.add 1 x).inds = s.inds ++ [x] := rfl
  obtain ⟨s1, back, b, h1, h2, h3, h4, h5, h6⟩ := extend_spec hE d 1 (Or.inl rfl) (loop.length + 1) (s.add 1 x) (loop.getD x d) false
    (getD_mem hx) hs0 (by omega)
  obtain ⟨s2, front, a, k1, k2, k3, k4, k5, k6⟩ := extend_spec hE d (-1) (Or.inr rfl) (loop.length + 1) s1 (loop.getD x d) true
    (getD_mem hx) h2 (by omega)
  have hi1 : s1.inds = s.inds ++ x :: back := by rw [h3, hi0]; simp
  have hi2 : s2.inds = s.inds ++ x :: (back ++ front) := by rw [k3, hi1]; simp
  have hxs : x ∉ s.inds := fun h => (hs.us x).2 h hxu
  have hx2 : s2.used x = 1 := by
    rw [k4 x (by rw [hi1]; simp), h4 x (by rw [hi0]; simp)]
    show Function.update s.used x 1 x = 1
    simp
  refine ⟨s2, x, back, front, a, b, ?_, k2, hi2, ?_, ?_, ?_, ?_⟩
  · rw [chunk, hst, Option.bind_some]
    show (extend orient loop 1 (loop.length + 1) (s.add 1 x) (loop.getD x d) false).bind _ = _
    rw [h1, Option.bind_some]; exact k1
  · intro k hk
    rw [k4 k (by rw [hi1]; simp [hk]), h4 k (by rw [hi0]; simp [hk])]
    show Function.update s.used x 1 k = _
    rw [Function.update_of_ne]
    rintro rfl; exact hxs hk
  · have hb : WalkI src tgt loop d s2.used (tgt (loop.getD x d)) back b := by
      refine WalkI.congr h5 fun k hk => ?_
      simp only [mul_one]
      exact k4 k (by rw [hi1]; simp [hk])
    have hf : WalkI src tgt loop d s2.used a front.reverse (src (loop.getD x d)) := by
      have := Walk.back k5
      unfold WalkI
      rw [List.map_reverse]
      rw [List.map_map] at this
      rw [List.map_congr_left (g := fun k => pr src tgt loop d (s2.used k) k)] at this
      · exact this
      · intro k hk
        simp only [Function.comp_apply]
        refine pr_neg src tgt loop d ?_ k
        have : s2.used k ≠ 0 := (k2.us k).2 (by rw [k3]; simp [hk])
        rcases k2.val k with h | h | h
        · exact absurd h this
        · exact Or.inl h
        · exact Or.inr h
    unfold WalkI
    rw [List.map_append]
    refine hf.append ⟨?_, ?_⟩
    · show (pr src tgt loop d (s2.used x) x).1 = _
      rw [hx2, pr, if_neg (by decide)]
    · show Walk Prod.fst Prod.snd (pr src tgt loop d (s2.used x) x).2 _ b
      rw [hx2, pr, if_neg (by decide)]; exact hb
  · intro k hk hkn
    exact h6 k hk (by by_contra hu; exact hkn (hi1 ▸ (h2.us k).1 hu))
  · intro k hk hkn
    exact k6 k hk (by by_contra hu; exact hkn ((k2.us k).1 hu))

theorem chunks_spec (hE : ByEnds src tgt flip orient loop) (d : T) : ∀ (n nch : ℕ) (s : St), Ok loop.length s →
    loop.length < n + s.inds.length → ∃ s' cs, chunks orient loop n nch s = some (s', nch + cs.length) ∧ Ok loop.length s' ∧
      s'.inds = s.inds ++ flat cs ∧ s'.inds.length = loop.length ∧ (∀ k ∈ s.inds, s'.used k = s.used k) ∧
      ChunkedI src tgt loop d s'.used cs := by
  intro n
  induction n with
  | zero => intro nch s hs hn; have := hs.length_le; omega
  | succ n ih =>
    intro nch s hs hn
    by_cases hl : s.inds.length < loop.length
    · obtain ⟨s1, x, back, front, a, b, h1, h2, h3, h4, h5, h6, h7⟩ := chunk_spec hE d s hs hl
      obtain ⟨s2, cs, k1, k2, k3, k4, k5, k6⟩ := ih (nch + 1) s1 h2 (by rw [h3]; simp; omega)
      have hi2 : s2.inds = s.inds ++ flat ((x, back, front) :: cs) := by
        rw [k3, h3]; simp [flat]
      have hdis : ∀ k ∈ flat cs, k ∉ s1.inds := by
        intro k hk hk1
        have := k2.nodup
        rw [k3, List.nodup_append] at this
        exact this.2.2 k hk1 k hk rfl
      have hlt : ∀ k ∈ flat cs, k < loop.length := fun k hk => k2.lt k (by rw [k3]; simp [hk])
      refine ⟨s2, (x, back, front) :: cs, ?_, k2, hi2, k4, ?_, ⟨⟨a, b, ?_, ?_, ?_⟩, k6⟩⟩
      · rw [chunks, if_pos hl, h1, Option.bind_some, k1]
        simp; omega
      · intro k hk; rw [k5 k (by rw [h3]; simp [hk]), h4 k hk]
      · refine WalkI.congr h5 fun k hk => ?_
        refine k5 k ?_
        rw [h3]
        simp at hk ⊢
        tauto
      · intro k hk
        rcases List.mem_append.1 hk with hk | hk
        · refine h6 k (h2.lt k (by rw [h3]; simp [hk])) ?_
          intro hk'
          have := h2.nodup
          rw [h3, show s.inds ++ x :: (back ++ front) = (s.inds ++ x :: back) ++ front by simp, List.nodup_append] at this
          exact this.2.2 k hk' k hk rfl
        · refine h6 k (hlt k hk) fun hk' => hdis k hk ?_
          rw [h3]
          simp at hk' ⊢
          tauto
      · intro k hk
        exact h7 k (hlt k hk) (hdis k hk)
    · have := hs.length_le
      refine ⟨s, [], ?_, hs, by simp [flat], by omega, fun _ _ => rfl, trivial⟩
      rw [chunks, if_neg hl]; rfl

end NgsAMG.LSort
