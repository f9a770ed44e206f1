import Verif.Model.Curl
import Verif.Props.SparseMM
import Verif.Props.Loops3
import Mathlib.Data.List.Basic

/-!
# C100 (helpers): edges with degrees of freedom
-/

namespace NgsAMG.Curl

/-! ### numbering of the edges with degrees of freedom -/

/-- the edges that have a degree of freedom, in increasing order, counted from `i` -/
def dofedFrom (gv : ℕ → Bool) : ℕ → List (ℕ × ℕ) → List ℕ
  | _, [] => []
  | i, e :: t => if gv e.1 && gv e.2 then dofedFrom gv (i + 1) t else i :: dofedFrom gv (i + 1) t

theorem e2dofGo_count (gv : ℕ → Bool) (cnt i : ℕ) (edges : List (ℕ × ℕ)) : dofCount (e2dofGo gv cnt edges) = (dofedFrom gv i edges).length := by
  induction edges generalizing cnt i with
  | nil => rfl
  | cons e t ih =>
    rw [e2dofGo, dofedFrom]
    split
    · simpa [dofCount] using ih cnt (i + 1)
    · simpa [dofCount] using ih (cnt + 1) (i + 1)

theorem dof2e_fold (gv : ℕ → Bool) (edges : List (ℕ × ℕ)) (i : ℕ) (done rest : List ℕ) (hr : rest.length = (dofedFrom gv i edges).length) :
    ((e2dofGo gv done.length edges).zipIdx i).foldlM (fun (l : List ℕ) x => match x.1 with
      | none => some l
      | some d => if d < l.length then some (l.set d x.2) else none) (done ++ rest) = some (done ++ dofedFrom gv i edges) := by
  induction edges generalizing i done rest with
  | nil =>
    have : rest = [] := List.length_eq_zero_iff.1 hr
    simp [e2dofGo, dofedFrom, this]
  | cons e t ih =>
    rw [e2dofGo]
    rw [dofedFrom] at hr ⊢
    split
    · rename_i h
      rw [if_pos h] at hr
      rw [List.zipIdx_cons, List.foldlM_cons]
      exact ih (i + 1) done rest hr
    · rename_i h
      rw [if_neg h, List.length_cons] at hr
      cases rest with
      | nil => simp at hr
      | cons x xs =>
        rw [List.zipIdx_cons, List.foldlM_cons]
        have hlt : done.length < (done ++ x :: xs).length := by simp
        simp only [hlt, if_true]
        have hset : (done ++ x :: xs).set done.length i = (done ++ [i]) ++ xs := by simp
        have hlen : done.length + 1 = (done ++ [i]).length := by simp
        rw [hset, hlen]
        refine Eq.trans (ih (i + 1) (done ++ [i]) xs (by simpa using hr)) ?_
        simp

theorem mem_dofedFrom (gv : ℕ → Bool) (i : ℕ) (edges : List (ℕ × ℕ)) (x : ℕ) :
    x ∈ dofedFrom gv i edges ↔ i ≤ x ∧ ∃ e, edges[x - i]? = some e ∧ ¬ (gv e.1 = true ∧ gv e.2 = true) := by
  induction edges generalizing i with
  | nil => simp [dofedFrom]
  | cons e t ih =>
    have key : x ∈ dofedFrom gv (i + 1) t ↔ i + 1 ≤ x ∧ ∃ e', (e :: t)[x - i]? = some e' ∧ ¬ (gv e'.1 = true ∧ gv e'.2 = true) := by
      rw [ih]
      constructor
      · rintro ⟨h1, h2⟩
        refine ⟨h1, ?_⟩
        have : x - i = (x - (i + 1)) + 1 := by omega
        rw [this, List.getElem?_cons_succ]
        exact h2
      · rintro ⟨h1, h2⟩
        refine ⟨h1, ?_⟩
        have : x - i = (x - (i + 1)) + 1 := by omega
        rw [this, List.getElem?_cons_succ] at h2
        exact h2
    rw [dofedFrom]
    split
    · rename_i h
      rw [Bool.and_eq_true] at h
      rw [key]
      constructor
      · rintro ⟨h1, h2⟩
        exact ⟨by omega, h2⟩
      · rintro ⟨h1, e', h2, h3⟩
        refine ⟨?_, e', h2, h3⟩
        by_contra hc
        have : x - i = 0 := by omega
        rw [this, List.getElem?_cons_zero] at h2
        cases h2
        exact h3 h
    · rename_i h
      rw [Bool.and_eq_true] at h
      rw [List.mem_cons, key]
      constructor
      · rintro (rfl | ⟨h1, h2⟩)
        · exact ⟨le_rfl, e, by simp, h⟩
        · exact ⟨by omega, h2⟩
      · rintro ⟨h1, h2⟩
        by_cases hx : x = i
        · exact Or.inl hx
        · exact Or.inr ⟨by omega, h2⟩

theorem dofedFrom_sorted (gv : ℕ → Bool) (i : ℕ) (edges : List (ℕ × ℕ)) : (dofedFrom gv i edges).Pairwise (· < ·) := by
  induction edges generalizing i with
  | nil => exact List.Pairwise.nil
  | cons e t ih =>
    rw [dofedFrom]
    split
    · exact ih _
    · refine List.Pairwise.cons (fun x hx => ?_) (ih _)
      have := ((mem_dofedFrom gv (i + 1) t x).1 hx).1
      omega

theorem e2dofGo_get (gv : ℕ → Bool) (edges : List (ℕ × ℕ)) (cnt i : ℕ) (e d : ℕ) :
    (e2dofGo gv cnt edges)[e]? = some (some d) ↔ cnt ≤ d ∧ (dofedFrom gv i edges)[d - cnt]? = some (i + e) := by
  induction edges generalizing cnt i e with
  | nil => simp [e2dofGo, dofedFrom]
  | cons x t ih =>
    have hlow : ∀ k y, (dofedFrom gv (i + 1) t)[k]? = some y → i + 1 ≤ y := fun k y h =>
      ((mem_dofedFrom gv (i + 1) t y).1 (List.mem_of_getElem? h)).1
    rw [e2dofGo, dofedFrom]
    split
    · cases e with
      | zero =>
        rw [List.getElem?_cons_zero]
        constructor
        · intro h; cases h
        · rintro ⟨-, h⟩
          have := hlow _ _ h
          omega
      | succ e =>
        rw [List.getElem?_cons_succ, ih cnt (i + 1)]
        have : i + 1 + e = i + (e + 1) := by omega
        rw [this]
    · cases e with
      | zero =>
        rw [List.getElem?_cons_zero]
        constructor
        · intro h
          cases h
          simp
        · rintro ⟨h1, h2⟩
          by_cases hd : d = cnt
          · rw [hd]
          · exfalso
            have : d - cnt = (d - cnt - 1) + 1 := by omega
            rw [this, List.getElem?_cons_succ] at h2
            have := hlow _ _ h2
            omega
      | succ e =>
        rw [List.getElem?_cons_succ, ih (cnt + 1) (i + 1)]
        have e1 : i + 1 + e = i + (e + 1) := by omega
        rw [e1]
        constructor
        · rintro ⟨h1, h2⟩
          refine ⟨by omega, ?_⟩
          have : d - cnt = (d - (cnt + 1)) + 1 := by omega
          rw [this, List.getElem?_cons_succ]
          exact h2
        · rintro ⟨h1, h2⟩
          by_cases hd : d = cnt
          · subst hd
            rw [Nat.sub_self, List.getElem?_cons_zero] at h2
            injection h2 with h2
            omega
          · refine ⟨by omega, ?_⟩
            have : d - cnt = (d - (cnt + 1)) + 1 := by omega
            rw [this, List.getElem?_cons_succ] at h2
            exact h2

/-- the same, without ghost vertices -/
theorem e2dof_none (edges : List (ℕ × ℕ)) : e2dof none edges = e2dofGo (fun _ => false) 0 edges := by
  have key : ∀ (edges : List (ℕ × ℕ)) (c : ℕ), e2dofGo (fun _ => false) c edges = (List.range' c edges.length).map some := by
    intro edges
    induction edges with
    | nil => intro c; rfl
    | cons e t ih =>
      intro c
      simp only [e2dofGo, List.length_cons, List.range'_succ, List.map_cons]
      rw [ih (c + 1)]
      rfl
  rw [key, e2dof, List.range_eq_range']

/-- **C100** (numbering). The edges that have a degree of freedom are those not between two ghost vertices; they are numbered in their order, and the maps from
edges to degrees of freedom and back are inverse to each other. Nothing is written out of range. -/
theorem dofed_correct (gv : Option (ℕ → Bool)) (edges : List (ℕ × ℕ)) : ∃ d2e, dof2e (e2dof gv edges) = some d2e ∧ d2e.Pairwise (· < ·) ∧
    (∀ e d : ℕ, (e2dof gv edges)[e]? = some (some d) ↔ d2e[d]? = some e) ∧ (e2dof gv edges).length = edges.length ∧
    ∀ e : ℕ, e ∈ d2e ↔ ∃ x, edges[e]? = some x ∧ ∀ g ∈ gv, ¬ (g x.1 = true ∧ g x.2 = true) := by
  have main : ∀ g : ℕ → Bool, ∃ d2e, dof2e (e2dofGo g 0 edges) = some d2e ∧ d2e.Pairwise (· < ·) ∧
      (∀ e d : ℕ, (e2dofGo g 0 edges)[e]? = some (some d) ↔ d2e[d]? = some e) ∧ (e2dofGo g 0 edges).length = edges.length ∧
      ∀ e : ℕ, e ∈ d2e ↔ ∃ x, edges[e]? = some x ∧ ¬ (g x.1 = true ∧ g x.2 = true) := by
    intro g
    refine ⟨dofedFrom g 0 edges, ?_, dofedFrom_sorted g 0 edges, fun e d => ?_, ?_, fun e => ?_⟩
    · exact dof2e_fold g edges 0 [] _ (by rw [List.length_replicate]; exact e2dofGo_count g 0 0 edges)
    · rw [e2dofGo_get g edges 0 0 e d]
      simp
    · have : ∀ (l : List (ℕ × ℕ)) c, (e2dofGo g c l).length = l.length := by
        intro l
        induction l with
        | nil => intro c; rfl
        | cons x t ih =>
          intro c
          rw [e2dofGo]
          split <;> simp [ih]
      exact this _ _
    · rw [mem_dofedFrom]
      simp
  cases gv with
  | none =>
    rw [e2dof_none]
    obtain ⟨d2e, h1, h2, h3, h4, h5⟩ := main fun _ => false
    exact ⟨d2e, h1, h2, h3, h4, fun e => by rw [h5]; simp⟩
  | some g =>
    obtain ⟨d2e, h1, h2, h3, h4, h5⟩ := main g
    exact ⟨d2e, h1, h2, h3, h4, fun e => by rw [h5]; simp⟩

example : e2dof (some fun v => decide (2 ≤ v)) [(0, 1), (2, 3), (1, 2)] = [some 0, none, some 1] ∧
    dof2e (e2dof (some fun v => decide (2 ≤ v)) [(0, 1), (2, 3), (1, 2)]) = some [0, 2] := by decide

end NgsAMG.Curl
