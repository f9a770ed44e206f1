import Verif.Props.LoopSort2
import Verif.Props.Permutation
import Mathlib.Data.List.GetD
import Mathlib.Data.Fintype.EquivFin

/-!
# Sorting of loops 3: the output
-/

namespace NgsAMG.LSort

variable {T V : Type}

/-- an edge of the output -/
def oel (flip : T → T) (loop : List T) (d : T) (used : ℕ → ℤ) (k : ℕ) : T :=
  if used k = -1 then flip (loop.getD k d) else loop.getD k d

variable [DecidableEq V] {src tgt : T → V} {flip : T → T} {orient : T → Bool → T → ℤ} {loop : List T}

theorem oel_src (hE : ByEnds src tgt flip orient loop) {d : T} {used : ℕ → ℤ} {k : ℕ} (hk : k < loop.length) :
    src (oel flip loop d used k) = (pr src tgt loop d (used k) k).1 := by
  unfold oel pr
  split
  · exact hE.fs _ (getD_mem hk)
  · rfl

theorem oel_tgt (hE : ByEnds src tgt flip orient loop) {d : T} {used : ℕ → ℤ} {k : ℕ} (hk : k < loop.length) :
    tgt (oel flip loop d used k) = (pr src tgt loop d (used k) k).2 := by
  unfold oel pr
  split
  · exact hE.ft _ (getD_mem hk)
  · rfl

theorem oel_away (hE : ByEnds src tgt flip orient loop) {d : T} {used : ℕ → ℤ} {k : ℕ} (hk : k < loop.length) {v : V}
    (h : src (loop.getD k d) ≠ v ∧ tgt (loop.getD k d) ≠ v) :
    src (oel flip loop d used k) ≠ v ∧ tgt (oel flip loop d used k) ≠ v := by
  rw [oel_src hE hk, oel_tgt hE hk]
  unfold pr
  split
  · exact ⟨h.2, h.1⟩
  · exact h

theorem walk_oel (hE : ByEnds src tgt flip orient loop) {d : T} {used : ℕ → ℤ} {a b : V} {l : List ℕ} (hl : ∀ k ∈ l, k < loop.length)
    (h : WalkI src tgt loop d used a l b) : Walk src tgt a (l.map (oel flip loop d used)) b := by
  induction l generalizing a with
  | nil => exact h
  | cons k l ih =>
    refine ⟨(oel_src hE (hl k (by simp))).trans h.1, ?_⟩
    rw [oel_tgt hE (hl k (by simp))]
    exact ih (fun j hj => hl j (by simp [hj])) h.2

theorem flat_map {α β : Type} (f : α → β) (cs : List (α × List α × List α)) :
    (flat cs).map f = flat (cs.map fun c => (f c.1, c.2.1.map f, c.2.2.map f)) := by
  induction cs with
  | nil => rfl
  | cons c cs ih =>
    have h1 : flat (c :: cs) = c.1 :: (c.2.1 ++ c.2.2) ++ flat cs := rfl
    have h2 : flat ((c :: cs).map fun c => (f c.1, c.2.1.map f, c.2.2.map f)) =
      f c.1 :: (c.2.1.map f ++ c.2.2.map f) ++ flat (cs.map fun c => (f c.1, c.2.1.map f, c.2.2.map f)) := rfl
    rw [h1, h2, ← ih]; simp

theorem chunked_oel (hE : ByEnds src tgt flip orient loop) {d : T} {used : ℕ → ℤ} :
    ∀ cs : List (ℕ × List ℕ × List ℕ), (∀ k ∈ flat cs, k < loop.length) → ChunkedI src tgt loop d used cs →
      Chunked src tgt (cs.map fun c => (oel flip loop d used c.1, c.2.1.map (oel flip loop d used), c.2.2.map (oel flip loop d used))) := by
  intro cs
  induction cs with
  | nil => intro _ _; exact trivial
  | cons c cs ih =>
    obtain ⟨x, back, front⟩ := c
    intro hl h
    have hfl : ∀ k, k ∈ flat ((x, back, front) :: cs) ↔ k = x ∨ k ∈ back ∨ k ∈ front ∨ k ∈ flat cs := by
      intro k; simp [flat, or_assoc]
    obtain ⟨⟨a, b, h1, h2, h3⟩, h4⟩ := h
    refine ⟨⟨a, b, ?_, ?_, ?_⟩, ih (fun k hk => hl k ((hfl k).2 (by tauto))) h4⟩
    · have := walk_oel hE (l := front.reverse ++ x :: back) (fun k hk => hl k ((hfl k).2 (by simp at hk; tauto))) h1
      simpa using this
    · intro y hy
      rw [← flat_map, ← List.map_append, List.mem_map] at hy
      obtain ⟨k, hk, rfl⟩ := hy
      exact oel_away hE (hl k ((hfl k).2 (by simp at hk; tauto))) (h2 k hk)
    · intro y hy
      rw [← flat_map, List.mem_map] at hy
      obtain ⟨k, hk, rfl⟩ := hy
      exact oel_away hE (hl k ((hfl k).2 (by tauto))) (h3 k hk)

/-- `SortAndOrientLoop` ends and puts out the edges, some of them turned, in chunks that are walks and cannot be extended -/
theorem sort_chunked (hE : ByEnds src tgt flip orient loop) :
    ∃ out nch cs, sortLoop flip orient loop = some (out, nch) ∧ nch = cs.length ∧ out = flat cs ∧ Chunked src tgt cs ∧ Turned flip loop out := by
  cases hl : loop with
  | nil =>
    refine ⟨[], 0, [], ?_, rfl, rfl, trivial, [], List.Forall₂.nil, .refl _⟩
    rfl
  | cons d tl =>
    rw [← hl]
    have hO : Ok loop.length (⟨[], fun _ => 0⟩ : St) := ⟨by simp, by simp, by simp, by simp⟩
    obtain ⟨s, cs, h1, h2, h3, h4, -, h6⟩ := chunks_spec hE d (loop.length + 1) 0 _ hO (by simp)
    rw [List.nil_append] at h3
    have hlt : ∀ k ∈ flat cs, k < loop.length := fun k hk => h2.lt k (by rw [h3]; exact hk)
    have hb : ∀ k : Fin loop.length, s.inds.getD k 0 < loop.length := by
      intro k
      have : (k : ℕ) < s.inds.length := by omega
      rw [List.getD_eq_getElem _ _ this]
      exact h2.lt _ (List.getElem_mem this)
    have hinj : Function.Injective fun k : Fin loop.length => (⟨s.inds.getD k 0, hb k⟩ : Fin loop.length) := by
      intro k k' hkk
      have hkk := congrArg Fin.val hkk
      simp only at hkk
      have u1 : (k : ℕ) < s.inds.length := by omega
      have u2 : (k' : ℕ) < s.inds.length := by omega
      rw [List.getD_eq_getElem _ _ u1, List.getD_eq_getElem _ _ u2] at hkk
      exact Fin.ext ((List.Nodup.getElem_inj_iff h2.nodup).1 hkk)
    let σ : Equiv.Perm (Fin loop.length) := Equiv.ofBijective _ (Finite.injective_iff_bijective.1 hinj)
    have hσ : ∀ k, ((σ k : Fin loop.length) : ℕ) = s.inds.getD k 0 := fun k => rfl
    have hap := Permutation.applyInPlace_correct σ (flipped flip loop s.used) loop.length (by omega)
    have hso : sortLoop flip orient loop = some (List.ofFn fun k => flipped flip loop s.used (σ k), cs.length) := by
      unfold sortLoop
      rw [h1, Option.bind_some]
      have : (fun k : Fin loop.length => ((s.inds.getD k 0 : ℕ) : ℤ)) = Permutation.asInts σ := rfl
      simp only [this, hap, Option.map_some]
      simp
    have hout : (List.ofFn fun k => flipped flip loop s.used (σ k)) = s.inds.map (oel flip loop d s.used) := by
      apply List.ext_getElem
      · simp [h4]
      · intro i hi hi'
        simp only [List.length_ofFn] at hi
        have u1 : i < s.inds.length := by omega
        have u2 : s.inds[i] < loop.length := h2.lt _ (List.getElem_mem u1)
        rw [List.getElem_ofFn, List.getElem_map]
        have : σ ⟨i, hi⟩ = ⟨s.inds[i], u2⟩ := by
          apply Fin.ext
          rw [hσ, List.getD_eq_getElem _ _ u1]
        rw [this, flipped, oel, List.getD_eq_getElem _ _ u2]
        rfl
    refine ⟨_, _, cs.map fun c => (oel flip loop d s.used c.1, c.2.1.map (oel flip loop d s.used), c.2.2.map (oel flip loop d s.used)),
      hso, by simp, ?_, chunked_oel hE cs hlt h6, (List.range loop.length).map (oel flip loop d s.used), ?_, ?_⟩
    · rw [hout, h3, flat_map]
    · rw [List.forall₂_iff_get]
      refine ⟨by simp, fun i hi hi' => ?_⟩
      simp only [List.get_eq_getElem, List.getElem_map, List.getElem_range]
      unfold oel
      rw [List.getD_eq_getElem _ _ hi]
      split
      · exact Or.inr rfl
      · exact Or.inl rfl
    · rw [hout]
      refine List.Perm.map _ ?_
      refine (h2.nodup.subperm (fun k hk => List.mem_range.2 (h2.lt k hk))).perm_of_length_le ?_
      simp [h4]

end NgsAMG.LSort
