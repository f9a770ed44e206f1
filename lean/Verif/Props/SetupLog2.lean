import Verif.Props.SetupLog1
import Mathlib.Tactic.Linarith
import Mathlib.Data.List.Nodup

/-! What the logger collects. -/

namespace NgsAMG.SLog

open Relation (ReflTransGen)

variable {α β : Type} {J : ℕ → List ℕ → ℕ → ℕ}

/-- what `Reduce` returns -/
def redVal (J : ℕ → List ℕ → ℕ → ℕ) (c : List ℕ) (x : ℕ → ℕ) (p : ℕ) : ℕ := if c.head? = some p then (c.map x).sum else J p c (x p)

theorem step_red (c : List ℕ) (x : ℕ → ℕ) (k : ℕ → ℕ → Prog α) (h : ℕ → Prog α) (hc : c ≠ []) :
    Step J (fun p => if p ∈ c then .red c (x p) (k p) else h p) fun p => if p ∈ c then k p (redVal J c x p) else h p := by
  refine ⟨c, _, .red c x k hc fun p hp => if_pos hp, funext fun p => ?_⟩
  by_cases m : p ∈ c <;> simp [m, redVal]

theorem step_amin (c : List ℕ) (x : ℕ → ℕ) (k : ℕ → ℕ → Prog α) (h : ℕ → Prog α) (hc : c ≠ []) :
    Step J (fun p => if p ∈ c then .amin c (x p) (k p) else h p) fun p => if p ∈ c then k p (lmin (c.map x)) else h p := by
  refine ⟨c, _, .amin c x k hc fun p hp => if_pos hp, funext fun p => ?_⟩
  by_cases m : p ∈ c <;> simp [m]

/-- the log after one more level -/
def addLev (J : ℕ → List ℕ → ℕ → ℕ) (p : ℕ) (lev : LogLev) (L : Level) (g : Log) : Log :=
  if lev = .none then g else logRest p lev L (logMid p L g (redVal J L.procs (fun p => L.nze p * L.bs) p)) (redVal J L.procs L.nze p)

/-- the log after all levels -/
def logged (J : ℕ → List ℕ → ℕ → ℕ) (p : ℕ) (lev : LogLev) : List Level → Log → Log
  | [], g => g
  | L :: Ls, g => if p ∈ L.procs then logged J p lev Ls (addLev J p lev L g) else g

theorem level_steps (lev : LogLev) (L : Level) (hL : L.procs ≠ []) (g : ℕ → Log) (K : ℕ → Log → Prog α) (h : ℕ → Prog α) :
    ReflTransGen (Step J) (fun p => if p ∈ L.procs then (logLevel p lev L (g p)).bind (K p) else h p)
      fun p => if p ∈ L.procs then K p (addLev J p lev L (g p)) else h p := by
  by_cases hl : lev = .none
  · have e : (fun p => if p ∈ L.procs then (logLevel p lev L (g p)).bind (K p) else h p) = fun p => if p ∈ L.procs then K p (addLev J p lev L (g p)) else h p := by
      funext p
      simp only [logLevel, addLev, if_pos hl]
      rfl
    rw [e]
  · have e : (fun p => if p ∈ L.procs then (logLevel p lev L (g p)).bind (K p) else h p) = fun p => if p ∈ L.procs then
        .red L.procs (L.nze p * L.bs) (fun o => .red L.procs (L.nze p) fun z => K p (logRest p lev L (logMid p L (g p) o) z)) else h p := by
      funext p
      simp only [logLevel, if_neg hl]
      rfl
    rw [e]
    refine (ReflTransGen.single (step_red L.procs (fun p => L.nze p * L.bs)
      (fun p o => .red L.procs (L.nze p) fun z => K p (logRest p lev L (logMid p L (g p) o) z)) h hL)).tail ?_
    have := step_red (J := J) L.procs L.nze (fun p z => K p (logRest p lev L (logMid p L (g p) (redVal J L.procs (fun p => L.nze p * L.bs) p)) z)) h hL
    convert this using 1
    funext p
    simp only [addLev, if_neg hl]

theorem bind_assoc (f : Prog α) {γ : Type} (g : α → Prog β) (k : β → Prog γ) : (f.bind g).bind k = f.bind fun a => (g a).bind k := by
  induction f with
  | ret a => rfl
  | red c x f ih => exact congrArg (Prog.red c x) (funext fun y => ih y)
  | amin c x f ih => exact congrArg (Prog.amin c x) (funext fun y => ih y)
  | send q d f ih => exact congrArg (Prog.send q d) ih
  | recv q f ih => exact congrArg (Prog.recv q) (funext fun y => ih y)

theorem all_steps (lev : LogLev) (Ls : List Level) (hne : ∀ L ∈ Ls, L.procs ≠ []) (hn : Ls.Pairwise fun L M => ∀ p ∈ M.procs, p ∈ L.procs) (D : List ℕ)
    (hD : ∀ L ∈ Ls, ∀ p ∈ L.procs, p ∈ D) (g : ℕ → Log) (K : ℕ → Log → Prog α) (h : ℕ → Prog α) :
    ReflTransGen (Step J) (fun p => if p ∈ D then (logAll p lev Ls (g p)).bind (K p) else h p)
      fun p => if p ∈ D then K p (logged J p lev Ls (g p)) else h p := by
  induction Ls generalizing D g h with
  | nil => exact .refl
  | cons L Ls ih =>
    have e : (fun p => if p ∈ D then (logAll p lev (L :: Ls) (g p)).bind (K p) else h p) = fun p => if p ∈ L.procs then
        (logLevel p lev L (g p)).bind (fun g => (logAll p lev Ls g).bind (K p)) else if p ∈ D then K p (g p) else h p := by
      funext p
      by_cases m : p ∈ L.procs
      · simp only [logAll, if_pos m, if_pos (hD L List.mem_cons_self p m), bind_assoc]
      · simp only [logAll, if_neg m]
        rfl
    rw [e]
    have hn' := List.pairwise_cons.1 hn
    refine (level_steps lev L (hne L List.mem_cons_self) g _ _).trans ?_
    refine (ih (fun M hM => hne M (List.mem_cons_of_mem _ hM)) hn'.2 L.procs (fun M hM => hn'.1 M hM) (fun p => addLev J p lev L (g p)) _).trans ?_
    refine Eq.subst (motive := fun x => ReflTransGen (Step J) _ x) ?_ ReflTransGen.refl
    funext p
    by_cases m : p ∈ L.procs
    · simp only [if_pos m, if_pos (hD L List.mem_cons_self p m), logged]
    · simp only [if_neg m, logged]

theorem own_cons_pos {p : ℕ} {L : Level} {Ls} (h : p ∈ L.procs) : own p (L :: Ls) = L :: own p Ls := by simp [own, h]

theorem own_nil {p : ℕ} {L : Level} {Ls : List Level} (hn : (L :: Ls).Pairwise fun L M => ∀ p ∈ M.procs, p ∈ L.procs) (h : p ∉ L.procs) : own p (L :: Ls) = [] := by
  simp only [own, List.filter_eq_nil_iff, List.mem_cons, decide_eq_true_eq]
  rintro M (rfl | hM)
  · exact h
  · exact fun hp => h ((List.pairwise_cons.1 hn).1 M hM p hp)

/-- what the logger of process `p` contains -/
theorem logged_fields (lev : LogLev) (hl : lev ≠ .none) (p : ℕ) (Ls : List Level) (hn : Ls.Pairwise fun L M => ∀ p ∈ M.procs, p ∈ L.procs) (g : Log) :
    (logged J p lev Ls g).vcc = g.vcc ++ (own p Ls).map (fun L => (L.nv : ℚ)) ∧
    (logged J p lev Ls g).nvs = g.nvs ++ (own p Ls).map Level.nv ∧
    (logged J p lev Ls g).nes = g.nes ++ (own p Ls).map Level.ne ∧
    (logged J p lev Ls g).nps = g.nps ++ (own p Ls).map (fun L => L.procs.length) ∧
    ((∀ L ∈ Ls, L.procs.head? = some p) → (logged J p lev Ls g).occ = g.occ ++ (own p Ls).map (fun L => (L.size : ℚ)) ∧
      (logged J p lev Ls g).nzes = g.nzes ++ (own p Ls).map (fun L => (L.procs.map L.nze).sum)) ∧
    (lev.small = false → (logged J p lev Ls g).vccl = g.vccl ++ (own p Ls).map (fun L => (L.nvl p : ℚ)) ∧
      (logged J p lev Ls g).occl = g.occl ++ (own p Ls).map (fun L => ((L.nze p * L.bs : ℕ) : ℚ))) := by
  induction Ls generalizing g with
  | nil => simp [logged, own]
  | cons L Ls ih =>
    by_cases m : p ∈ L.procs
    · have h := ih (List.pairwise_cons.1 hn).2 (addLev J p lev L g)
      simp only [logged, if_pos m, own_cons_pos m]
      obtain ⟨h1, h2, h3, h4, h5, h6⟩ := h
      have a1 : (addLev J p lev L g).vcc = g.vcc ++ [(L.nv : ℚ)] := by simp only [addLev, if_neg hl, logRest]; split <;> rfl
      have a2 : (addLev J p lev L g).nvs = g.nvs ++ [L.nv] := by simp only [addLev, if_neg hl, logRest]; split <;> rfl
      have a3 : (addLev J p lev L g).nes = g.nes ++ [L.ne] := by simp only [addLev, if_neg hl, logRest]; split <;> rfl
      have a4 : (addLev J p lev L g).nps = g.nps ++ [L.procs.length] := by simp only [addLev, if_neg hl, logRest]; split <;> rfl
      refine ⟨by rw [h1, a1]; simp, by rw [h2, a2]; simp, by rw [h3, a3]; simp, by rw [h4, a4]; simp, fun h0 => ?_, fun hs => ?_⟩
      · have hL := h0 L List.mem_cons_self
        have b := h5 fun M hM => h0 M (List.mem_cons_of_mem _ hM)
        have a5 : (addLev J p lev L g).occ = g.occ ++ [(L.size : ℚ)] := by
          simp only [addLev, if_neg hl, logRest]; split <;> simp [logMid, hL, redVal, Level.size]
        have a6 : (addLev J p lev L g).nzes = g.nzes ++ [(L.procs.map L.nze).sum] := by
          simp only [addLev, if_neg hl, logRest]; split <;> simp [logMid, hL, redVal]
        exact ⟨by rw [b.1, a5]; simp, by rw [b.2, a6]; simp⟩
      · have b := h6 hs
        have a7 : (addLev J p lev L g).vccl = g.vccl ++ [(L.nvl p : ℚ)] ∧ (addLev J p lev L g).occl = g.occl ++ [((L.nze p * L.bs : ℕ) : ℚ)] := by
          simp [addLev, if_neg hl, logRest, hs, logMid]
        exact ⟨by rw [b.1, a7.1]; simp, by rw [b.2, a7.2]; simp⟩
    · simp [logged, m, own_nil hn m]

theorem scaled_sum (l : List ℚ) (x : ℚ) : (scaled l x).sum = l.sum / x := by
  induction l with
  | nil => simp [scaled]
  | cons a l ih =>
    have : (scaled (a :: l) x).sum = a / x + (scaled l x).sum := by simp [scaled]
    rw [this, ih, List.sum_cons, add_div]

theorem lmin_le (l : List ℕ) (x : ℕ) (h : x ∈ l) : lmin l ≤ x := by
  have aux : ∀ (l : List ℕ) (a : ℕ), l.foldl min a ≤ a ∧ ∀ x ∈ l, l.foldl min a ≤ x := by
    intro l
    induction l with
    | nil => intro a; simp
    | cons y ys ih =>
      intro a
      have := ih (min a y)
      refine ⟨this.1.trans (min_le_left _ _), fun x hx => ?_⟩
      rcases List.mem_cons.1 hx with rfl | hx
      · exact this.1.trans (min_le_right _ _)
      · exact this.2 x hx
  cases l with
  | nil => cases h
  | cons a l =>
    rcases List.mem_cons.1 h with rfl | h
    · exact (aux l x).1
    · exact (aux l a).2 x h

end NgsAMG.SLog
