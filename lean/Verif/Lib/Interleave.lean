import Mathlib.Logic.Function.Basic
import Mathlib.Data.List.Basic
import Mathlib.Data.List.Nodup
import Mathlib.Logic.Relation

/-! Tasks that run at the same time on a shared memory. A task is a list of reads of one cell, writes of one cell, and local computations;
an execution performs one of them after the other, always the next one of some task. -/

namespace NgsAMG.Par

variable {C V L : Type*}

/-- what a task does next -/
inductive Op (C V L : Type*) where
  | rd (c : C) (f : L → V → L)
  | wr (c : C) (g : L → V)
  | lc (f : L → L)

section
variable [DecidableEq C]

/-- effect on memory and local state -/
def Op.exec : Op C V L → (C → V) × L → (C → V) × L
  | .rd c f, s => (s.1, f s.2 (s.1 c))
  | .wr c g, s => (Function.update s.1 c (g s.2), s.2)
  | .lc f, s => (s.1, f s.2)

/-- only cells of `F` are read or written -/
def Op.Within (F : C → Prop) : Op C V L → Prop
  | .rd c _ => F c
  | .wr c _ => F c
  | .lc _ => True

/-- a task alone -/
def runOps (p : List (Op C V L)) (s : (C → V) × L) : (C → V) × L := p.foldl (fun s o => o.exec s) s

/-- memory, local states, and what the tasks still have to do -/
structure St (C V L : Type*) where
  mem : C → V
  loc : ℕ → L
  rest : ℕ → List (Op C V L)

/-- the next thing that task `i` does -/
inductive Step : St C V L → St C V L → Prop
  | mk (s : St C V L) (i : ℕ) (o : Op C V L) (p : List (Op C V L)) (h : s.rest i = o :: p) :
      Step s ⟨(o.exec (s.mem, s.loc i)).1, Function.update s.loc i (o.exec (s.mem, s.loc i)).2, Function.update s.rest i p⟩

/-- all tasks are done -/
def St.Done (s : St C V L) : Prop := ∀ i, s.rest i = []

/-- one after the other -/
def runSeq (prog : ℕ → List (Op C V L)) (l0 : ℕ → L) (ids : List ℕ) (m : C → V) : C → V :=
  ids.foldl (fun m i => (runOps (prog i) (m, l0 i)).1) m

theorem exec_outside {F : C → Prop} {o : Op C V L} (h : o.Within F) (s : (C → V) × L) {c : C} (hc : ¬ F c) : (o.exec s).1 c = s.1 c := by
  cases o with
  | rd c' f => rfl
  | wr c' g =>
    show Function.update s.1 c' _ c = s.1 c
    rw [Function.update_of_ne]
    intro he
    exact hc (he ▸ h)
  | lc f => rfl

theorem exec_agree {F : C → Prop} {o : Op C V L} (h : o.Within F) {m m' : C → V} (l : L) (hm : ∀ c, F c → m c = m' c) :
    (∀ c, F c → (o.exec (m, l)).1 c = (o.exec (m', l)).1 c) ∧ (o.exec (m, l)).2 = (o.exec (m', l)).2 := by
  cases o with
  | rd c' f => exact ⟨hm, by show f l (m c') = f l (m' c'); rw [hm c' h]⟩
  | wr c' g =>
    refine ⟨fun c hc => ?_, rfl⟩
    show Function.update m c' _ c = Function.update m' c' _ c
    by_cases he : c = c'
    · subst he; simp
    · rw [Function.update_of_ne he, Function.update_of_ne he, hm c hc]
  | lc f => exact ⟨hm, rfl⟩

theorem run_outside {F : C → Prop} (p : List (Op C V L)) (h : ∀ o ∈ p, o.Within F) (s : (C → V) × L) {c : C} (hc : ¬ F c) : (runOps p s).1 c = s.1 c := by
  induction p generalizing s with
  | nil => rfl
  | cons o p ih =>
    show (runOps p (o.exec s)).1 c = _
    rw [ih (fun o' h' => h o' (by simp [h'])), exec_outside (h o (by simp)) s hc]

theorem run_agree {F : C → Prop} (p : List (Op C V L)) (h : ∀ o ∈ p, o.Within F) {m m' : C → V} (l : L) (hm : ∀ c, F c → m c = m' c) :
    (∀ c, F c → (runOps p (m, l)).1 c = (runOps p (m', l)).1 c) ∧ (runOps p (m, l)).2 = (runOps p (m', l)).2 := by
  induction p generalizing m m' l with
  | nil => exact ⟨hm, rfl⟩
  | cons o p ih =>
    obtain ⟨h1, h2⟩ := exec_agree (h o (by simp)) l hm
    have := ih (fun o' h' => h o' (by simp [h'])) (m := (o.exec (m, l)).1) (m' := (o.exec (m', l)).1) (o.exec (m, l)).2 h1
    refine ⟨fun c hc => ?_, ?_⟩
    · show (runOps p (o.exec (m, l))).1 c = (runOps p (o.exec (m', l))).1 c
      rw [this.1 c hc, h2]
    · show (runOps p (o.exec (m, l))).2 = (runOps p (o.exec (m', l))).2
      rw [this.2, h2]

/-- the tasks use disjoint parts of the memory -/
structure Indep (prog : ℕ → List (Op C V L)) (F : ℕ → C → Prop) : Prop where
  within : ∀ i, ∀ o ∈ prog i, o.Within (F i)
  disj : ∀ i j, i ≠ j → ∀ c, F i c → ¬ F j c

/-- what holds during the execution: every task is on its way to the result that it has alone -/
structure OnTrack (prog : ℕ → List (Op C V L)) (F : ℕ → C → Prop) (l0 : ℕ → L) (m0 : C → V) (s : St C V L) : Prop where
  within : ∀ i, ∀ o ∈ s.rest i, o.Within (F i)
  mem : ∀ i c, F i c → (runOps (s.rest i) (s.mem, s.loc i)).1 c = (runOps (prog i) (m0, l0 i)).1 c
  loc : ∀ i, (runOps (s.rest i) (s.mem, s.loc i)).2 = (runOps (prog i) (m0, l0 i)).2
  out : ∀ c, (∀ i, ¬ F i c) → s.mem c = m0 c

theorem onTrack_step {prog : ℕ → List (Op C V L)} {F : ℕ → C → Prop} (hI : Indep prog F) {l0 : ℕ → L} {m0 : C → V} {s t : St C V L}
    (h : OnTrack prog F l0 m0 s) (hst : Step s t) : OnTrack prog F l0 m0 t := by
  obtain ⟨j, o, p, hr⟩ := hst
  have ho : o.Within (F j) := h.within j o (by rw [hr]; simp)
  have key : ∀ i, (∀ c, F i c → (runOps (Function.update s.rest j p i) ((o.exec (s.mem, s.loc j)).1, Function.update s.loc j (o.exec (s.mem, s.loc j)).2 i)).1 c =
      (runOps (s.rest i) (s.mem, s.loc i)).1 c) ∧
      (runOps (Function.update s.rest j p i) ((o.exec (s.mem, s.loc j)).1, Function.update s.loc j (o.exec (s.mem, s.loc j)).2 i)).2 =
      (runOps (s.rest i) (s.mem, s.loc i)).2 := by
    intro i
    by_cases hij : i = j
    · subst hij
      rw [Function.update_self, Function.update_self, hr]
      exact ⟨fun _ _ => rfl, rfl⟩
    · rw [Function.update_of_ne hij, Function.update_of_ne hij]
      exact run_agree _ (h.within i) _ fun c hc => exec_outside ho _ (hI.disj i j hij c hc)
  refine ⟨fun i o' ho' => ?_, fun i c hc => ?_, fun i => ?_, fun c hc => ?_⟩
  · by_cases hij : i = j
    · subst hij
      have : o' ∈ p := by simpa using ho'
      exact h.within i o' (by rw [hr]; simp [this])
    · have : o' ∈ s.rest i := by simpa [Function.update_of_ne hij] using ho'
      exact h.within i o' this
  · exact ((key i).1 c hc).trans (h.mem i c hc)
  · exact (key i).2.trans (h.loc i)
  · exact (exec_outside ho _ (hc j)).trans (h.out c hc)

/-- **Independence.** However the tasks are interleaved: at the end every cell has the value that its task gives it when it runs alone, all other cells are unchanged. -/
theorem interleave {prog : ℕ → List (Op C V L)} {F : ℕ → C → Prop} (hI : Indep prog F) {l0 : ℕ → L} {m0 : C → V} {t : St C V L}
    (hst : Relation.ReflTransGen Step ⟨m0, l0, prog⟩ t) (hd : t.Done) :
    (∀ i c, F i c → t.mem c = (runOps (prog i) (m0, l0 i)).1 c) ∧ (∀ c, (∀ i, ¬ F i c) → t.mem c = m0 c) := by
  have h : OnTrack prog F l0 m0 t := by
    clear hd
    induction hst with
    | refl => exact ⟨hI.within, fun _ _ _ => rfl, fun _ => rfl, fun _ _ => rfl⟩
    | tail _ hs ih => exact onTrack_step hI ih hs
  refine ⟨fun i c hc => ?_, h.out⟩
  have := h.mem i c hc
  rw [hd i] at this
  exact this

theorem runSeq_spec {prog : ℕ → List (Op C V L)} {F : ℕ → C → Prop} (hI : Indep prog F) (l0 : ℕ → L) {ids : List ℕ} (hn : ids.Nodup) (m : C → V) :
    (∀ i ∈ ids, ∀ c, F i c → runSeq prog l0 ids m c = (runOps (prog i) (m, l0 i)).1 c) ∧ (∀ c, (∀ i ∈ ids, ¬ F i c) → runSeq prog l0 ids m c = m c) := by
  induction ids generalizing m with
  | nil => exact ⟨by simp, fun _ _ => rfl⟩
  | cons j ids ih =>
    obtain ⟨h1, h2⟩ := ih (List.nodup_cons.mp hn).2 (runOps (prog j) (m, l0 j)).1
    have hj := (List.nodup_cons.mp hn).1
    refine ⟨fun i hi c hc => ?_, fun c hc => ?_⟩
    · show runSeq prog l0 ids (runOps (prog j) (m, l0 j)).1 c = _
      rcases List.mem_cons.mp hi with rfl | hi
      · exact h2 c fun i' hi' => hI.disj i i' (fun he => hj (he ▸ hi')) c hc
      · have hij : i ≠ j := fun he => hj (he ▸ hi)
        rw [h1 i hi c hc]
        exact (run_agree _ (hI.within i) _ fun c' hc' => run_outside _ (hI.within j) _ (hI.disj i j hij c' hc')).1 c hc
    · show runSeq prog l0 ids (runOps (prog j) (m, l0 j)).1 c = _
      rw [h2 c fun i hi => hc i (by simp [hi])]
      exact run_outside _ (hI.within j) _ (hc j (by simp))

/-- every interleaving has the result of the tasks one after the other, in any order -/
theorem interleave_seq {prog : ℕ → List (Op C V L)} {F : ℕ → C → Prop} (hI : Indep prog F) {l0 : ℕ → L} {m0 : C → V} {t : St C V L}
    (hst : Relation.ReflTransGen Step ⟨m0, l0, prog⟩ t) (hd : t.Done) {ids : List ℕ} (hn : ids.Nodup) (hids : ∀ i, i ∉ ids → prog i = []) :
    t.mem = runSeq prog l0 ids m0 := by
  obtain ⟨h1, h2⟩ := interleave hI hst hd
  obtain ⟨h3, h4⟩ := runSeq_spec hI l0 hn m0
  funext c
  by_cases h : ∃ i, F i c
  · obtain ⟨i, hi⟩ := h
    by_cases hm : i ∈ ids
    · rw [h1 i c hi, h3 i hm c hi]
    · rw [h1 i c hi, hids i hm, h4 c fun j hj => hI.disj i j (fun he => hm (he ▸ hj)) c hi]
      rfl
  · have h' : ∀ i, ¬ F i c := fun i hi => h ⟨i, hi⟩
    rw [h2 c h', h4 c fun i _ => h' i]

theorem seq_perm {prog : ℕ → List (Op C V L)} {F : ℕ → C → Prop} (hI : Indep prog F) (l0 : ℕ → L) {ids ids' : List ℕ} (hn : ids.Nodup) (hp : ids.Perm ids') (m : C → V) :
    runSeq prog l0 ids m = runSeq prog l0 ids' m := by
  obtain ⟨h1, h2⟩ := runSeq_spec hI l0 hn m
  obtain ⟨h3, h4⟩ := runSeq_spec hI l0 (hp.nodup_iff.mp hn) m
  funext c
  by_cases h : ∃ i ∈ ids, F i c
  · obtain ⟨i, hi, hc⟩ := h
    rw [h1 i hi c hc, h3 i (hp.mem_iff.mp hi) c hc]
  · push Not at h
    rw [h2 c h, h4 c fun i hi => h i (hp.mem_iff.mpr hi)]

/-- the tasks of one after the other are an execution -/
theorem exists_run (prog : ℕ → List (Op C V L)) (l0 : ℕ → L) (m0 : C → V) {ids : List ℕ} (hn : ids.Nodup) (hids : ∀ i, i ∉ ids → prog i = []) :
    ∃ t, Relation.ReflTransGen Step ⟨m0, l0, prog⟩ t ∧ t.Done ∧ t.mem = runSeq prog l0 ids m0 := by
  have one : ∀ (p : List (Op C V L)) (m : C → V) (l : ℕ → L) (r : ℕ → List (Op C V L)) (i : ℕ), r i = p →
      Relation.ReflTransGen Step ⟨m, l, r⟩ ⟨(runOps p (m, l i)).1, Function.update l i (runOps p (m, l i)).2, Function.update r i []⟩ := by
    intro p
    induction p with
    | nil =>
      intro m l r i hr
      have e1 : Function.update l i (l i) = l := Function.update_eq_self i l
      have e2 : Function.update r i [] = r := by rw [← hr]; exact Function.update_eq_self i r
      show Relation.ReflTransGen Step _ ⟨m, Function.update l i (l i), Function.update r i []⟩
      rw [e1, e2]
    | cons o p ih =>
      intro m l r i hr
      refine Relation.ReflTransGen.head (Step.mk ⟨m, l, r⟩ i o p hr) ?_
      have := ih (o.exec (m, l i)).1 (Function.update l i (o.exec (m, l i)).2) (Function.update r i p) i (Function.update_self ..)
      simp only [Function.update_self, Function.update_idem] at this
      exact this
  suffices h : ∀ (ids : List ℕ) (m : C → V) (l : ℕ → L) (r : ℕ → List (Op C V L)), ids.Nodup → (∀ i ∈ ids, l i = l0 i ∧ r i = prog i) → (∀ i, i ∉ ids → r i = []) →
      ∃ t, Relation.ReflTransGen Step ⟨m, l, r⟩ t ∧ t.Done ∧ t.mem = runSeq prog l0 ids m from
    h ids m0 l0 prog hn (fun _ _ => ⟨rfl, rfl⟩) hids
  clear hn hids ids
  intro ids
  induction ids with
  | nil => exact fun m l r _ _ h => ⟨_, .refl, fun i => h i (by simp), rfl⟩
  | cons j ids ih =>
    intro m l r hn h1 h2
    have hj := (List.nodup_cons.mp hn).1
    obtain ⟨a, b⟩ := h1 j (by simp)
    obtain ⟨t, ht, hd, hm⟩ := ih (runOps (prog j) (m, l j)).1 (Function.update l j (runOps (prog j) (m, l j)).2) (Function.update r j [])
      (List.nodup_cons.mp hn).2
      (fun i hi => by
        have hij : i ≠ j := fun he => hj (he ▸ hi)
        rw [Function.update_of_ne hij, Function.update_of_ne hij]
        exact h1 i (by simp [hi]))
      (fun i hi => by
        by_cases hij : i = j
        · subst hij; simp
        · rw [Function.update_of_ne hij]; exact h2 i (by simp [hij, hi]))
    refine ⟨t, (one _ m l r j b).trans ht, hd, ?_⟩
    rw [hm, a]
    rfl

end

end NgsAMG.Par
