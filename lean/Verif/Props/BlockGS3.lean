import Verif.Model.BlockPar
import Verif.Props.BlockGS2
import Verif.Props.SortedArray

/-!
# C78: the shared memory parallel block Gauss-Seidel smoother - the tasks alone
-/

namespace NgsAMG.BlkGS
open Matrix Par

variable {k : ℕ}

theorem runOps_append {C V L : Type*} [DecidableEq C] (p q : List (Op C V L)) (s : (C → V) × L) : runOps (p ++ q) s = runOps q (runOps p s) := by
  unfold runOps; rw [List.foldl_append]

/-- a sequence of additions -/
theorem run_adds {C : Type} [DecidableEq C] {ι : Type*} (L : List ι) (cell : ι → C) (w : ι → (ℕ → Fin k → ℝ) → Fin k → ℝ) (m : C → Fin k → ℝ) (l : Buf k) :
    (runOps (L.flatMap fun i => addOps (cell i) fun l => w i l.hr) (m, l)).1 = L.foldl (fun m i => Function.update m (cell i) (m (cell i) + w i l.hr)) m ∧
    (runOps (L.flatMap fun i => addOps (cell i) fun l => w i l.hr) (m, l)).2.hr = l.hr := by
  induction L generalizing m l with
  | nil => exact ⟨rfl, rfl⟩
  | cons i L ih =>
    rw [List.flatMap_cons, runOps_append]
    have h : runOps (addOps (cell i) fun l : Buf k => w i l.hr) (m, l) = (Function.update m (cell i) (m (cell i) + w i l.hr), { l with acc := m (cell i) }) := rfl
    rw [h]
    exact ih _ _

theorem run_row (A : CSR (Blk k)) (es : List (ℕ × Blk k)) (x : BVec k) (l : Buf k) :
    runOps (es.map fun e => (.rd e.1 fun l v => { l with acc := l.acc + e.2 *ᵥ v } : Op ℕ (Fin k → ℝ) (Buf k))) (x, l) =
      (x, { l with acc := es.foldl (fun s e => s + e.2 *ᵥ x e.1) l.acc }) := by
  induction es generalizing l with
  | nil => rfl
  | cons e es ih =>
    rw [List.map_cons]
    show runOps _ (x, ({ l with acc := l.acc + e.2 *ᵥ x e.1 } : Buf k)) = _
    rw [ih]
    rfl

theorem run_readRHS (A : CSR (Blk k)) (b : BVec k) (B : BBlock k) (j : Fin B.dofs.length) (x : BVec k) (l : Buf k) :
    runOps (readRHS A b B j) (x, l) =
      (x, ⟨rowTimesVector A B.dofs[j] x, Function.update l.hr j (b B.dofs[j] - rowTimesVector A B.dofs[j] x)⟩) := by
  unfold readRHS
  rw [runOps_append]
  show runOps _ (runOps _ (x, ({ l with acc := 0 } : Buf k))) = _
  rw [run_row A]
  rfl

/-- the first part of the callback computes `hr` -/
theorem run_reads (A : CSR (Blk k)) (b : BVec k) (B : BBlock k) (js : List (Fin B.dofs.length)) (x : BVec k) (l : Buf k) :
    (runOps (js.flatMap (readRHS A b B)) (x, l)).1 = x ∧
    ∀ q : Fin B.dofs.length, (runOps (js.flatMap (readRHS A b B)) (x, l)).2.hr q = if q ∈ js then b B.dofs[q] - rowTimesVector A B.dofs[q] x else l.hr q := by
  induction js generalizing l with
  | nil => exact ⟨rfl, fun q => by simp [runOps]⟩
  | cons j js ih =>
    rw [List.flatMap_cons, runOps_append, run_readRHS]
    obtain ⟨h1, h2⟩ := ih ⟨rowTimesVector A B.dofs[j] x, Function.update l.hr j (b B.dofs[j] - rowTimesVector A B.dofs[j] x)⟩
    refine ⟨h1, fun q => ?_⟩
    rw [h2]
    by_cases hq : q ∈ js
    · simp [hq]
    · rw [if_neg hq]
      by_cases he : q = j
      · subst he; simp
      · have : (q : ℕ) ≠ j := fun h => he (Fin.ext h)
        show Function.update l.hr j _ q = _
        rw [Function.update_of_ne this, if_neg (by simp [he, hq])]

/-- **C78 (a task alone).** The callback of `Smooth_impl`, run alone, is the correction of the block, whatever was in the buffers. -/
theorem run_progRHS (A : CSR (Blk k)) (b : BVec k) (B : BBlock k) (x : BVec k) (l : Buf k) : (runOps (progRHS A b B) (x, l)).1 = stepRHS A b x B := by
  unfold progRHS
  rw [runOps_append]
  obtain ⟨h1, h2⟩ := run_reads A b B (List.finRange _) x l
  generalize hs : runOps ((List.finRange B.dofs.length).flatMap (readRHS A b B)) (x, l) = s at h1 h2
  obtain ⟨m, l'⟩ := s
  dsimp only at h1 h2
  rw [show m = x from h1]
  rw [show (runOps ((List.finRange B.dofs.length).flatMap fun j => addOps B.dofs[j] fun l => l.hup B j) (x, l')).1 = _ from
    (run_adds (List.finRange B.dofs.length) (fun j => B.dofs[j]) (fun j hr => fun c => (B.dinv *ᵥ fun p => hr p.1 p.2) (j, c)) x l').1]
  unfold stepRHS addAt
  have e : (fun p : Fin B.dofs.length × Fin k => l'.hr p.1 p.2) = fun p => (b B.dofs[p.1] - rowTimesVector A B.dofs[p.1] x) p.2 := by
    funext p
    rw [h2 p.1, if_pos (List.mem_finRange _)]
  rw [e]
  rfl

theorem run_readsRES (B : BBlock k) (js : List (Fin B.dofs.length)) (m : ℕ ⊕ ℕ → Fin k → ℝ) (l : Buf k) :
    (runOps (js.map fun j : Fin B.dofs.length => (.rd (.inr B.dofs[j]) fun l v => { l with hr := Function.update l.hr j v } : Op (ℕ ⊕ ℕ) (Fin k → ℝ) (Buf k))) (m, l)).1 = m ∧
    ∀ q : Fin B.dofs.length, (runOps (js.map fun j : Fin B.dofs.length => (.rd (.inr B.dofs[j]) fun l v => { l with hr := Function.update l.hr j v } : Op (ℕ ⊕ ℕ) (Fin k → ℝ) (Buf k))) (m, l)).2.hr q =
      if q ∈ js then m (.inr B.dofs[q]) else l.hr q := by
  induction js generalizing l with
  | nil => exact ⟨rfl, fun q => by simp [runOps]⟩
  | cons j js ih =>
    rw [List.map_cons]
    obtain ⟨h1, h2⟩ := ih ({ l with hr := Function.update l.hr j (m (.inr B.dofs[j])) } : Buf k)
    refine ⟨h1, fun q => ?_⟩
    refine (h2 q).trans ?_
    by_cases hq : q ∈ js
    · simp [hq]
    · rw [if_neg hq]
      by_cases he : q = j
      · subst he; simp
      · have : (q : ℕ) ≠ j := fun h => he (Fin.ext h)
        show Function.update l.hr j _ q = _
        rw [Function.update_of_ne this, if_neg (by simp [he, hq])]

theorem foldl_inr {ι : Type*} (L : List ι) (cell : ι → ℕ) (w : ι → Fin k → ℝ) (x r : BVec k) :
    L.foldl (fun (m : ℕ ⊕ ℕ → Fin k → ℝ) i => Function.update m (.inr (cell i)) (m (.inr (cell i)) + w i)) (Sum.elim x r) =
      Sum.elim x (L.foldl (fun r i => Function.update r (cell i) (r (cell i) + w i)) r) := by
  induction L generalizing r with
  | nil => rfl
  | cons i L ih =>
    rw [List.foldl_cons, List.foldl_cons, ← ih]
    congr 1
    funext c
    cases c with
    | inl c => rw [Function.update_of_ne (by simp)]; rfl
    | inr c =>
      by_cases h : c = cell i
      · subst h; simp
      · rw [Function.update_of_ne (by simpa using h)]
        show r c = Function.update r (cell i) _ c
        rw [Function.update_of_ne h]

theorem foldl_inl {ι : Type*} (L : List ι) (cell : ι → ℕ) (w : ι → Fin k → ℝ) (x r : BVec k) :
    L.foldl (fun (m : ℕ ⊕ ℕ → Fin k → ℝ) i => Function.update m (.inl (cell i)) (m (.inl (cell i)) + w i)) (Sum.elim x r) =
      Sum.elim (L.foldl (fun x i => Function.update x (cell i) (x (cell i) + w i)) x) r := by
  induction L generalizing x with
  | nil => rfl
  | cons i L ih =>
    rw [List.foldl_cons, List.foldl_cons, ← ih]
    congr 1
    funext c
    cases c with
    | inr c => rw [Function.update_of_ne (by simp)]; rfl
    | inl c =>
      by_cases h : c = cell i
      · subst h; simp
      · rw [Function.update_of_ne (by simpa using h)]
        show x c = Function.update x (cell i) _ c
        rw [Function.update_of_ne h]

/-- the additions to the residual, as one list -/
def resAdds (A : CSR (Blk k)) (B : BBlock k) : List (Fin B.dofs.length × (ℕ × Blk k)) :=
  (List.finRange B.dofs.length).flatMap fun j => (A.row B.dofs[j]).map fun e => (j, e)

theorem resAdds_foldl (A : CSR (Blk k)) (B : BBlock k) (u : Fin B.dofs.length → Fin k → ℝ) (r : BVec k) :
    (resAdds A B).foldl (fun r p => Function.update r p.2.1 (r p.2.1 + p.2.2ᵀ *ᵥ u p.1)) r =
      (List.finRange B.dofs.length).foldl (fun r j => addRowTransToVector A B.dofs[j] (u j) r) r := by
  unfold resAdds
  induction (List.finRange B.dofs.length) generalizing r with
  | nil => rfl
  | cons j js ih =>
    rw [List.flatMap_cons, List.foldl_append, ih, List.foldl_cons, List.foldl_map]
    rfl

/-- **C78 (a task alone).** The callback of `SmoothRES_impl`, run alone, is the correction of the block and the update of the residual. -/
theorem run_progRES (A : CSR (Blk k)) (B : BBlock k) (x r : BVec k) (l : Buf k) :
    (runOps (progRES A B) (Sum.elim x r, l)).1 = Sum.elim (stepRES A (x, r) B).1 (stepRES A (x, r) B).2 := by
  unfold progRES
  rw [runOps_append, runOps_append]
  obtain ⟨h1, h2⟩ := run_readsRES B (List.finRange _) (Sum.elim x r) l
  generalize hs : runOps ((List.finRange B.dofs.length).map fun j : Fin B.dofs.length =>
    (.rd (.inr B.dofs[j]) fun l v => { l with hr := Function.update l.hr j v } : Op (ℕ ⊕ ℕ) (Fin k → ℝ) (Buf k))) (Sum.elim x r, l) = s at h1 h2
  obtain ⟨m, l'⟩ := s
  dsimp only at h1 h2
  rw [show m = Sum.elim x r from h1]
  have e : (fun p : Fin B.dofs.length × Fin k => l'.hr p.1 p.2) = fun p => r B.dofs[p.1] p.2 := by
    funext p
    rw [h2 p.1, if_pos (List.mem_finRange _)]
    rfl
  have hflat : ((List.finRange B.dofs.length).flatMap fun j => (A.row B.dofs[j]).flatMap fun e =>
      addOps (C := ℕ ⊕ ℕ) (.inr e.1) fun l : Buf k => e.2ᵀ *ᵥ (-l.hup B j)) =
      (resAdds A B).flatMap fun p => addOps (C := ℕ ⊕ ℕ) (.inr p.2.1) fun l : Buf k => (fun hr => p.2.2ᵀ *ᵥ (-(fun c => (B.dinv *ᵥ fun q => hr q.1 q.2) (p.1, c)))) l.hr := by
    unfold resAdds
    rw [List.flatMap_assoc]
    congr 1
    funext j
    rw [List.flatMap_map]
    rfl
  rw [hflat]
  obtain ⟨h3, h4⟩ := run_adds (C := ℕ ⊕ ℕ) (resAdds A B) (fun p => .inr p.2.1)
    (fun p hr => p.2.2ᵀ *ᵥ (-(fun c => (B.dinv *ᵥ fun q => hr q.1 q.2) (p.1, c)))) (Sum.elim x r) l'
  generalize hs : runOps ((resAdds A B).flatMap fun p => addOps (C := ℕ ⊕ ℕ) (.inr p.2.1) fun l : Buf k =>
    (fun hr => p.2.2ᵀ *ᵥ (-(fun c => (B.dinv *ᵥ fun q => hr q.1 q.2) (p.1, c)))) l.hr) (Sum.elim x r, l') = s at h3 h4
  obtain ⟨m', l''⟩ := s
  dsimp only at h3 h4
  rw [foldl_inr (resAdds A B) (fun p => p.2.1), resAdds_foldl A B (fun j => -(fun c => (B.dinv *ᵥ fun q => l'.hr q.1 q.2) (j, c)))] at h3
  rw [h3]
  rw [show (runOps ((List.finRange B.dofs.length).flatMap fun j => addOps (C := ℕ ⊕ ℕ) (.inl B.dofs[j]) fun l : Buf k => l.hup B j) (_, l'')).1 = _ from
    (run_adds (C := ℕ ⊕ ℕ) (List.finRange B.dofs.length) (fun j => .inl B.dofs[j]) (fun j hr => fun c => (B.dinv *ᵥ fun p => hr p.1 p.2) (j, c)) _ l'').1]
  rw [foldl_inl (List.finRange B.dofs.length) (fun j => B.dofs[j]), h4, e]
  rfl

theorem run_lcs (b : BVec k) (B : BBlock k) (js : List (Fin B.dofs.length)) (m : BVec k) (l : Buf k) :
    (runOps (js.map fun j : Fin B.dofs.length => (.lc fun l => { l with hr := Function.update l.hr j (b B.dofs[j]) } : Op ℕ (Fin k → ℝ) (Buf k))) (m, l)).1 = m ∧
    ∀ q : Fin B.dofs.length, (runOps (js.map fun j : Fin B.dofs.length => (.lc fun l => { l with hr := Function.update l.hr j (b B.dofs[j]) } : Op ℕ (Fin k → ℝ) (Buf k))) (m, l)).2.hr q =
      if q ∈ js then b B.dofs[q] else l.hr q := by
  induction js generalizing l with
  | nil => exact ⟨rfl, fun q => by simp [runOps]⟩
  | cons j js ih =>
    rw [List.map_cons]
    obtain ⟨h1, h2⟩ := ih ({ l with hr := Function.update l.hr j (b B.dofs[j]) } : Buf k)
    refine ⟨h1, fun q => ?_⟩
    refine (h2 q).trans ?_
    by_cases hq : q ∈ js
    · simp [hq]
    · rw [if_neg hq]
      by_cases he : q = j
      · subst he; simp
      · have : (q : ℕ) ≠ j := fun h => he (Fin.ext h)
        show Function.update l.hr j _ q = _
        rw [Function.update_of_ne this, if_neg (by simp [he, hq])]

/-- the body of the loop of `MultAdd`, run alone -/
theorem run_progMult (s : ℝ) (b : BVec k) (B : BBlock k) (x : BVec k) (l : Buf k) :
    (runOps (progMult s b B) (x, l)).1 = addAt B.dofs (s • (B.dinv *ᵥ fun p => b B.dofs[p.1] p.2)) x := by
  unfold progMult
  rw [runOps_append]
  obtain ⟨h1, h2⟩ := run_lcs b B (List.finRange _) x l
  generalize hs : runOps ((List.finRange B.dofs.length).map fun j : Fin B.dofs.length =>
    (.lc fun l => { l with hr := Function.update l.hr j (b B.dofs[j]) } : Op ℕ (Fin k → ℝ) (Buf k))) (x, l) = t at h1 h2
  obtain ⟨m, l'⟩ := t
  dsimp only at h1 h2
  rw [show m = x from h1]
  have e : (fun p : Fin B.dofs.length × Fin k => l'.hr p.1 p.2) = fun p => b B.dofs[p.1] p.2 := by
    funext p
    rw [h2 p.1, if_pos (List.mem_finRange _)]
  rw [show (runOps ((List.finRange B.dofs.length).flatMap fun j => addOps B.dofs[j] fun l : Buf k => s • l.hup B j) (x, l')).1 = _ from
    (run_adds (List.finRange B.dofs.length) (fun j => B.dofs[j]) (fun j hr => s • fun c => (B.dinv *ᵥ fun p => hr p.1 p.2) (j, c)) x l').1]
  rw [e]
  rfl

end NgsAMG.BlkGS
