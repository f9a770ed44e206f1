import Verif.Model.DOFMap

/-! C26, C27: grid transfer steps and their concatenation. -/

namespace NgsAMG.DM

open Spec

variable {K : Type*} [CommRing K]

/-! ### specification: what a step stands for -/

mutual
/-- the intended action of a step: that of its prolongation matrix, of its components one after the other, or of its
primary map -/
def Step.act : Step K → Act K
  | .prol _ _ P _ => Act.ofProl P
  | .dyn P _ => { Act.ofProl P with A := fun _ => none }
  | .other _ _ a => a
  | .conc subs _ => Act.chain (acts subs)
  | .multi p _ => p.act
/-- the actions of several steps -/
def acts : List (Step K) → List (Act K)
  | [] => []
  | s :: ss => s.act :: acts ss
end

mutual
/-- consistent internal state: a cached transpose is the transpose, concatenated steps are not empty and have either no work
vectors or all of them; dynamic block maps carry their transpose -/
def Step.ok : Step K → Prop
  | .prol _ _ P PT => PT = none ∨ PT = some P.tr
  | .dyn P PT => PT = some P.tr
  | .other _ _ _ => True
  | .conc subs vecs => subs ≠ [] ∧ (vecs = [] ∨ vecs = List.replicate (subs.length - 1) true) ∧ oks subs
  | .multi p sec => p.ok ∧ oks sec
/-- all steps are consistent -/
def oks : List (Step K) → Prop
  | [] => True
  | s :: ss => s.ok ∧ oks ss
end

mutual
/-- the step has been finalized -/
def Step.ready : Step K → Prop
  | .prol _ _ P PT => PT = some P.tr
  | .dyn P PT => PT = some P.tr
  | .other _ _ _ => True
  | .conc subs vecs => subs ≠ [] ∧ vecs = List.replicate (subs.length - 1) true ∧ readys subs
  | .multi p _ => p.ready
/-- all steps have been finalized -/
def readys : List (Step K) → Prop
  | [] => True
  | s :: ss => s.ready ∧ readys ss
end

mutual
/-- fine dimension -/
def Step.hgt : Step K → ℕ
  | .prol _ _ P _ => P.h
  | .dyn P _ => P.h
  | .other h _ _ => h
  | .conc subs _ => hgts subs
  | .multi p _ => p.hgt
/-- fine dimension of the first step -/
def hgts : List (Step K) → ℕ
  | [] => 0
  | s :: _ => s.hgt
end

mutual
/-- coarse dimension -/
def Step.wid : Step K → ℕ
  | .prol _ _ P _ => P.w
  | .dyn P _ => P.w
  | .other _ w _ => w
  | .conc subs _ => wids subs
  | .multi p _ => p.wid
/-- coarse dimension of the last step -/
def wids : List (Step K) → ℕ
  | [] => 0
  | [s] => s.wid
  | _ :: s :: ss => wids (s :: ss)
end

mutual
/-- dimensions fit together inside a step -/
def Step.fit : Step K → Prop
  | .conc subs _ => subs ≠ [] ∧ fits subs
  | .multi p _ => p.fit
  | _ => True
/-- each step starts where the last one left off -/
def fits : List (Step K) → Prop
  | [] => True
  | [s] => s.fit
  | s :: t :: ss => s.fit ∧ s.wid = t.hgt ∧ fits (t :: ss)
end

/-! ### chains -/

omit [CommRing K] in
theorem chain_R (as : List (Act K)) (x : Vec K) : (Act.chain as).R x = as.foldl (fun v a => a.R v) x := by
  induction as generalizing x with
  | nil => rfl
  | cons a as ih => simp [Act.chain, Act.comp, ih]

omit [CommRing K] in
theorem chain_P (as : List (Act K)) (x : Vec K) : (Act.chain as).P x = as.foldr (fun a v => a.P v) x := by
  induction as with
  | nil => rfl
  | cons a as ih => simp [Act.chain, Act.comp, ih]

omit [CommRing K] in
theorem comp_assoc (a b c : Act K) : (a.comp b).comp c = a.comp (b.comp c) := by
  simp [Act.comp, Option.bind_assoc]

omit [CommRing K] in
theorem id_comp (a : Act K) : (Act.id K).comp a = a := by simp [Act.comp, Act.id]

omit [CommRing K] in
theorem comp_id (a : Act K) : a.comp (Act.id K) = a := by
  simp [Act.comp, Act.id]

omit [CommRing K] in
theorem chain_append (as bs : List (Act K)) : Act.chain (as ++ bs) = (Act.chain as).comp (Act.chain bs) := by
  induction as with
  | nil => simp [Act.chain, id_comp]
  | cons a as ih => simp [Act.chain, ih, comp_assoc]

theorem acts_eq_map (ss : List (Step K)) : acts ss = ss.map Step.act := by
  induction ss with
  | nil => rfl
  | cons s ss ih => simp [acts, ih]

theorem acts_append (ss ts : List (Step K)) : acts (ss ++ ts) = acts ss ++ acts ts := by
  simp [acts_eq_map]

/-! ### the loops of `ConcDMS` compute the chain -/

theorem loopUp_eq (gs : List (Vec K → Vec K)) (n rem l : ℕ) (ws : ℕ → Vec K) (hl : 1 ≤ l) (hn : l + rem ≤ n)
    (hg : l + rem ≤ gs.length) :
    ∃ ws', loopUp (gs.map fun g x => some (g x)) (List.replicate n true) rem l ws = some ws' ∧
      ws' (l + rem - 1) = ((gs.drop l).take rem).foldl (fun v g => g v) (ws (l - 1)) := by
  induction rem generalizing l ws with
  | zero => exact ⟨ws, rfl, by simp⟩
  | succ rem ih =>
    have h1 : l - 1 < n := by omega
    have h2 : l < n := by omega
    have h3 : l < gs.length := by omega
    obtain ⟨ws', e, hw⟩ := ih (l + 1) (Function.update ws l (gs[l] (ws (l - 1)))) (by omega) (by omega) (by omega)
    refine ⟨ws', ?_, ?_⟩
    · unfold loopUp
      simp [List.getElem?_replicate, h1, h2, h3, e]
    · have : l + (rem + 1) - 1 = l + 1 + rem - 1 := by omega
      rw [this, hw]
      have hd : gs.drop l = gs[l] :: gs.drop (l + 1) := List.drop_eq_getElem_cons h3
      rw [hd, List.take_succ_cons, List.foldl_cons]
      simp

theorem loopDown_eq (gs : List (Vec K → Vec K)) (n l : ℕ) (ws : ℕ → Vec K) (hn : l + 1 ≤ n) (hg : l < gs.length) :
    ∃ ws', loopDown (gs.map fun g x => some (g x)) (List.replicate n true) l ws = some ws' ∧
      ws' 0 = ((gs.drop 1).take l).foldr (fun g v => g v) (ws l) := by
  induction l generalizing ws with
  | zero => exact ⟨ws, rfl, by simp⟩
  | succ l ih =>
    have h1 : l < n := by omega
    have h2 : l + 1 < n := by omega
    obtain ⟨ws', e, hw⟩ := ih (Function.update ws l (gs[l + 1] (ws (l + 1)))) (by omega) (by omega)
    refine ⟨ws', ?_, ?_⟩
    · unfold loopDown
      simp [List.getElem?_replicate, h1, h2, hg, e]
    · rw [hw]
      have hk : l < (gs.drop 1).length := by simp; omega
      rw [List.take_succ_eq_append_getElem hk]
      simp [List.foldr_append]

theorem runF2C_eq (gs : List (Vec K → Vec K)) (last : Vec K → Option (Vec K)) (ws : ℕ → Vec K) (x : Vec K)
    (hn : gs ≠ []) :
    runF2C (gs.map fun g x => some (g x)) last (List.replicate (gs.length - 1) true) ws x =
      last ((gs.take (gs.length - 1)).foldl (fun v g => g v) x) := by
  unfold runF2C
  have hpos : 0 < gs.length := List.length_pos_iff.mpr hn
  split
  · rename_i h
    have : gs.length = 1 := by simpa using h
    simp [this]
  · rename_i h
    have hlen : 2 ≤ gs.length := by
      have : gs.length ≠ 1 := by simpa using h
      omega
    have h0 : 0 < gs.length - 1 := by omega
    obtain ⟨ws', e, hw⟩ := loopUp_eq gs (gs.length - 1) (gs.length - 2) 1 (Function.update ws 0 (gs[0] x)) le_rfl
      (by omega) (by omega)
    have hl : gs.length - 1 - 1 < gs.length - 1 := by omega
    simp only [List.getElem?_replicate, h0, if_true, List.getElem?_map, List.getElem?_eq_getElem hpos, Option.map_some,
      Option.bind_some, List.length_map, e, List.length_replicate, hl]
    congr 1
    have h4 : 1 + (gs.length - 2) - 1 = gs.length - 1 - 1 := by omega
    rw [h4] at hw
    rw [hw]
    have h5 : gs.length - 1 = gs.length - 2 + 1 := by omega
    conv_rhs => rw [h5]
    obtain ⟨g, gs', rfl⟩ := List.exists_cons_of_ne_nil hn
    simp

theorem runC2F_eq (gs : List (Vec K → Vec K)) (first : Vec K → Option (Vec K)) (ws : ℕ → Vec K) (x : Vec K)
    (hn : gs ≠ []) :
    runC2F (gs.map fun g x => some (g x)) first (List.replicate (gs.length - 1) true) ws x =
      first ((gs.drop 1).foldr (fun g v => g v) x) := by
  unfold runC2F
  have hpos : 0 < gs.length := List.length_pos_iff.mpr hn
  split
  · rename_i h
    have : gs.length = 1 := by simpa using h
    have hd : gs.drop 1 = [] := List.drop_eq_nil_of_le (by omega)
    simp [hd]
  · rename_i h
    have hlen : 2 ≤ gs.length := by
      have : gs.length ≠ 1 := by simpa using h
      omega
    have h0 : 0 < gs.length - 1 := by omega
    have hlast : gs.length - 1 < gs.length := by omega
    have h6 : gs.length - 1 - 1 = gs.length - 2 := by omega
    obtain ⟨ws', e, hw⟩ := loopDown_eq gs (gs.length - 1) (gs.length - 2)
      (Function.update ws (gs.length - 2) (gs[gs.length - 1] x)) (by omega) (by omega)
    have hl : gs.length - 2 < gs.length - 1 := by omega
    simp only [List.length_replicate, h6, List.getElem?_replicate, hl, if_true, List.length_map, List.getElem?_map,
      List.getElem?_eq_getElem hlast, Option.map_some, Option.bind_some, e, h0]
    congr 1
    rw [hw]
    simp only [Function.update_self]
    have hk : gs.length - 2 < (gs.drop 1).length := by simp; omega
    have : gs.drop 1 = (gs.drop 1).take (gs.length - 2) ++ [gs[gs.length - 1]] := by
      conv_lhs => rw [← List.take_append_drop (gs.length - 2) (gs.drop 1)]
      congr 1
      rw [List.drop_drop, show 1 + (gs.length - 2) = gs.length - 1 by omega,
        List.drop_eq_getElem_cons hlast, List.drop_eq_nil_of_le (by omega)]
    conv_rhs => rw [this]
    simp

/-- the initial contents of the work vectors do not matter -/
theorem runF2C_ws (gs : List (Vec K → Vec K)) (last : Vec K → Option (Vec K)) (ws ws' : ℕ → Vec K) (x : Vec K)
    (hn : gs ≠ []) :
    runF2C (gs.map fun g x => some (g x)) last (List.replicate (gs.length - 1) true) ws x =
    runF2C (gs.map fun g x => some (g x)) last (List.replicate (gs.length - 1) true) ws' x := by
  rw [runF2C_eq gs last ws x hn, runF2C_eq gs last ws' x hn]

theorem foldl_last (as : List (Act K)) (x : Vec K) (hn : as ≠ []) :
    (as[as.length - 1]'(by have := List.length_pos_iff.mpr hn; omega)).R
      (((as.map Act.R).take ((as.map Act.R).length - 1)).foldl (fun v g => g v) x) = (Act.chain as).R x := by
  rw [chain_R]
  obtain ⟨as', a, rfl⟩ := List.eq_nil_or_concat as |>.resolve_left hn
  simp [List.foldl_map]

mutual
theorem f2c_ready (s : Step K) (h : s.ready) (x : Vec K) : s.f2c x = some (s.act.R x) := by
  match s with
  | .prol bh bw P PT => simp only [Step.ready] at h; subst h; rfl
  | .dyn P PT => simp only [Step.ready] at h; subst h; rfl
  | .other _ _ a => rfl
  | .conc subs vecs =>
    simp only [Step.ready] at h
    obtain ⟨h1, h2, h3⟩ := h
    subst h2
    have hf := f2cs_ready subs h3
    have hlen : (acts subs).length = subs.length := by simp [acts_eq_map]
    have hne : acts subs ≠ [] := by
      intro h; rw [h] at hlen; simp at hlen; exact h1 (List.length_eq_zero_iff.mp hlen.symm)
    have hne' : (acts subs).map Act.R ≠ [] := by simpa using hne
    have hmm : ((acts subs).map fun a x => some (a.R x)) = ((acts subs).map Act.R).map fun g x => some (g x) := by
      simp [Function.comp_def]
    simp only [Step.f2c, hf, hmm]
    have hl2 : subs.length - 1 = ((acts subs).map Act.R).length - 1 := by simp [hlen]
    rw [hl2, runF2C_eq _ _ _ _ hne']
    have hpos : 0 < (acts subs).length := List.length_pos_iff.mpr hne
    have hlt : (acts subs).length - 1 < (acts subs).length := by omega
    simp only [List.length_map, List.getElem?_map, List.getElem?_eq_getElem hlt, Option.map_some, Option.bind_some,
      Step.act]
    rw [← foldl_last _ _ hne]
    simp
  | .multi p _ =>
    simp only [Step.ready] at h
    simpa [Step.f2c, Step.act] using f2c_ready p h x
theorem f2cs_ready (ss : List (Step K)) (h : readys ss) : f2cs ss = (acts ss).map fun a x => some (a.R x) := by
  match ss with
  | [] => rfl
  | s :: ss =>
    simp only [readys] at h
    simp only [f2cs, acts, List.map_cons]
    rw [f2cs_ready ss h.2]
    congr 1
    funext x
    exact f2c_ready s h.1 x
end

mutual
theorem c2f_ready (s : Step K) (h : s.ready) (x : Vec K) : s.c2f x = some (s.act.P x) := by
  match s with
  | .prol bh bw P PT => rfl
  | .dyn P PT => rfl
  | .other _ _ a => rfl
  | .conc subs vecs =>
    simp only [Step.ready] at h
    obtain ⟨h1, h2, h3⟩ := h
    subst h2
    have hf := c2fs_ready subs h3
    have hlen : (acts subs).length = subs.length := by simp [acts_eq_map]
    have hne : acts subs ≠ [] := by
      intro h; rw [h] at hlen; simp at hlen; exact h1 (List.length_eq_zero_iff.mp hlen.symm)
    have hne' : (acts subs).map Act.P ≠ [] := by simpa using hne
    have hmm : ((acts subs).map fun a x => some (a.P x)) = ((acts subs).map Act.P).map fun g x => some (g x) := by
      simp [Function.comp_def]
    simp only [Step.c2f, hf, hmm]
    have hl2 : subs.length - 1 = ((acts subs).map Act.P).length - 1 := by simp [hlen]
    rw [hl2, runC2F_eq _ _ _ _ hne']
    obtain ⟨a, as, ha⟩ := List.exists_cons_of_ne_nil hne
    simp [Step.act, ha, Act.chain, Act.comp, chain_P, List.foldr_map]
  | .multi p _ =>
    simp only [Step.ready] at h
    simpa [Step.c2f, Step.act] using c2f_ready p h x
theorem c2fs_ready (ss : List (Step K)) (h : readys ss) : c2fs ss = (acts ss).map fun a x => some (a.P x) := by
  match ss with
  | [] => rfl
  | s :: ss =>
    simp only [readys] at h
    simp only [c2fs, acts, List.map_cons]
    rw [c2fs_ready ss h.2]
    congr 1
    funext x
    exact c2f_ready s h.1 x
end

/-! ### adding versions -/

mutual
theorem addF2C_ready (s : Step K) (h : s.ready) (fac : K) (x y : Vec K) :
    s.addF2C fac x y = some fun i => y i + fac * s.act.R x i := by
  match s with
  | .prol bh bw P PT => simp only [Step.ready] at h; subst h; rfl
  | .dyn P PT => simp only [Step.ready] at h; subst h; rfl
  | .other _ _ a => rfl
  | .conc subs vecs =>
    simp only [Step.ready] at h
    obtain ⟨h1, h2, h3⟩ := h
    subst h2
    have hf := f2cs_ready subs h3
    have hlen : (acts subs).length = subs.length := by simp [acts_eq_map]
    have hne : acts subs ≠ [] := by
      intro h; rw [h] at hlen; simp at hlen; exact h1 (List.length_eq_zero_iff.mp hlen.symm)
    have hne' : (acts subs).map Act.R ≠ [] := by simpa using hne
    have hmm : ((acts subs).map fun a x => some (a.R x)) = ((acts subs).map Act.R).map fun g x => some (g x) := by
      simp [Function.comp_def]
    simp only [Step.addF2C, hf, hmm]
    have hl2 : subs.length - 1 = ((acts subs).map Act.R).length - 1 := by simp [hlen]
    rw [hl2, runF2C_eq _ _ _ _ hne']
    rw [addF2Clast_ready subs h1 h3 hne]
    simp only [Step.act]
    rw [← foldl_last _ _ hne]
  | .multi p _ =>
    simp only [Step.ready] at h
    simpa [Step.addF2C, Step.act] using addF2C_ready p h fac x y
theorem addF2Clast_ready (ss : List (Step K)) (h : ss ≠ []) (hr : readys ss) (hne : acts ss ≠ []) (fac : K) (x y : Vec K) :
    addF2Clast ss fac x y =
      some fun i => y i + fac * ((acts ss)[(acts ss).length - 1]'(by
        have := List.length_pos_iff.mpr hne; omega)).R x i := by
  match ss with
  | [] => exact absurd rfl h
  | [s] =>
    simp only [readys] at hr
    simpa [addF2Clast, acts] using addF2C_ready s hr.1 fac x y
  | s :: t :: ss =>
    simp only [readys] at hr
    have := addF2Clast_ready (t :: ss) (by simp) (by simpa only [readys] using hr.2) (by simp [acts]) fac x y
    simp only [addF2Clast]
    rw [this]
    simp [acts]
end

theorem addC2F_ready (s : Step K) (h : s.ready) (fac : K) (x y : Vec K) :
    s.addC2F fac x y = some fun i => y i + fac * s.act.P x i := by
  match s with
  | .prol bh bw P PT => rfl
  | .dyn P PT => rfl
  | .other _ _ a => rfl
  | .conc [] vecs => simp [Step.ready] at h
  | .conc (s :: subs) vecs =>
    simp only [Step.ready] at h
    obtain ⟨h1, h2, h3⟩ := h
    subst h2
    have hf := c2fs_ready (s :: subs) h3
    have hlen : (acts (s :: subs)).length = (s :: subs).length := by simp [acts_eq_map]
    have hne : acts (s :: subs) ≠ [] := by simp [acts]
    have hne' : (acts (s :: subs)).map Act.P ≠ [] := by simpa using hne
    have hmm : ((acts (s :: subs)).map fun a x => some (a.P x)) =
        ((acts (s :: subs)).map Act.P).map fun g x => some (g x) := by
      simp [Function.comp_def]
    simp only [Step.addC2F, hf, hmm]
    have hl2 : (s :: subs).length - 1 = ((acts (s :: subs)).map Act.P).length - 1 := by simp [hlen]
    rw [hl2, runC2F_eq _ _ _ _ hne']
    simp only [readys] at h3
    simp only [addC2Ffirst]
    rw [addC2F_ready s h3.1]
    simp [Step.act, acts, Act.chain, Act.comp, chain_P, List.foldr_map]
  | .multi p _ =>
    simp only [Step.ready] at h
    simpa [Step.addC2F, Step.act] using addC2F_ready p h fac x y

mutual
theorem assemble_ok (s : Step K) (h : s.ok) (A : DMat K) : s.assemble A = s.act.A A := by
  match s with
  | .prol bh bw P PT =>
    simp only [Step.ok] at h
    obtain rfl | rfl := h <;> rfl
  | .dyn P PT => rfl
  | .other _ _ a => rfl
  | .conc subs vecs =>
    simp only [Step.ok] at h
    simpa [Step.assemble, Step.act] using assembles_ok subs h.2.2 A
  | .multi p _ =>
    simp only [Step.ok] at h
    simpa [Step.assemble, Step.act] using assemble_ok p h.1 A
theorem assembles_ok (ss : List (Step K)) (h : oks ss) (A : DMat K) : assembles ss A = (Act.chain (acts ss)).A A := by
  match ss with
  | [] => rfl
  | s :: ss =>
    simp only [oks] at h
    simp only [assembles, acts, Act.chain, Act.comp]
    rw [assemble_ok s h.1]
    congr 1
    funext B
    exact assembles_ok ss h.2 B
end

/-! ### finalization -/

theorem finalizes_length (ss : List (Step K)) : (finalizes ss).length = ss.length := by
  induction ss with
  | nil => rfl
  | cons s ss ih => simp [finalizes, ih]

mutual
theorem finalize_ready (s : Step K) (h : s.ok) : s.finalize.ready := by
  match s with
  | .prol bh bw P PT =>
    simp only [Step.ok] at h
    obtain rfl | rfl := h <;> simp [Step.finalize, Step.ready]
  | .dyn P PT => simpa [Step.finalize, Step.ready, Step.ok] using h
  | .other _ _ a => trivial
  | .conc subs vecs =>
    simp only [Step.ok] at h
    obtain ⟨h1, h2, h3⟩ := h
    have hl := finalizes_length subs
    simp only [Step.finalize, Step.ready, hl]
    refine ⟨?_, ?_, finalizes_ready subs h3⟩
    · intro h; rw [h] at hl; simp at hl; exact h1 (List.length_eq_zero_iff.mp hl.symm)
    · have hpos : 0 < subs.length := List.length_pos_iff.mpr h1
      obtain rfl | rfl := h2
      · by_cases hh : 1 < subs.length
        · simp [hh]
        · have : subs.length - 1 = 0 := by omega
          simp [hh, this]
      · simp only [List.length_replicate]
        by_cases hh : 1 < subs.length
        · have : subs.length - 1 ≠ 0 := by omega
          simp [this]
        · simp [hh]
  | .multi p sec =>
    simp only [Step.ok] at h
    simpa [Step.finalize, Step.ready] using finalize_ready p h.1
theorem finalizes_ready (ss : List (Step K)) (h : oks ss) : readys (finalizes ss) := by
  match ss with
  | [] => trivial
  | s :: ss =>
    simp only [oks] at h
    exact ⟨finalize_ready s h.1, finalizes_ready ss h.2⟩
end

mutual
theorem finalize_act (s : Step K) : s.finalize.act = s.act := by
  match s with
  | .prol bh bw P PT => rfl
  | .dyn P PT => rfl
  | .other _ _ a => rfl
  | .conc subs vecs => simp [Step.finalize, Step.act, finalizes_act subs]
  | .multi p sec => simpa [Step.finalize, Step.act] using finalize_act p
theorem finalizes_act (ss : List (Step K)) : acts (finalizes ss) = acts ss := by
  match ss with
  | [] => rfl
  | s :: ss => simp [finalizes, acts, finalize_act s, finalizes_act ss]
end

mutual
theorem ready_ok_prim (s : Step K) (h : s.ready) : ∀ A, s.assemble A = s.act.A A := by
  intro A
  match s with
  | .prol bh bw P PT => simp only [Step.ready] at h; subst h; rfl
  | .dyn P PT => rfl
  | .other _ _ a => rfl
  | .conc subs vecs =>
    simp only [Step.ready] at h
    simpa [Step.assemble, Step.act] using readys_ok_prim subs h.2.2 A
  | .multi p _ =>
    simp only [Step.ready] at h
    simpa [Step.assemble, Step.act] using ready_ok_prim p h A
theorem readys_ok_prim (ss : List (Step K)) (h : readys ss) : ∀ A, assembles ss A = (Act.chain (acts ss)).A A := by
  intro A
  match ss with
  | [] => rfl
  | s :: ss =>
    simp only [readys] at h
    simp only [assembles, acts, Act.chain, Act.comp]
    rw [ready_ok_prim s h.1]
    congr 1
    funext B
    exact readys_ok_prim ss h.2 B
end

/-! ### `Concatenate` -/

mutual
/-- no pair of steps ever claims that it can be concatenated, so `MultiDofMapStep::Concatenate` always returns null -/
theorem canConc_false (s t : Step K) : s.canConc t = false := by
  match s, t with
  | .multi p sec, .multi q tec => simp [Step.canConc, canConc_false p q]
  | .multi p [], .prol .. => simpa [Step.canConc] using canConc_false p _
  | .multi p [], .dyn .. => simpa [Step.canConc] using canConc_false p _
  | .multi p [], .other .. => simpa [Step.canConc] using canConc_false p _
  | .multi p [], .conc .. => simpa [Step.canConc] using canConc_false p _
  | .multi p (_ :: _), .prol .. => simp [Step.canConc]
  | .multi p (_ :: _), .dyn .. => simp [Step.canConc]
  | .multi p (_ :: _), .other .. => simp [Step.canConc]
  | .multi p (_ :: _), .conc .. => simp [Step.canConc]
  | .prol .., _ => simp [Step.canConc]
  | .dyn .., _ => simp [Step.canConc]
  | .other .., _ => simp [Step.canConc]
  | .conc .., _ => simp [Step.canConc]
end

theorem ofProl_mul (P Q : DMat K) (h : P.w = Q.h) : Act.ofProl (P.mul Q) = (Act.ofProl P).comp (Act.ofProl Q) := by
  simp only [Act.ofProl, Act.comp, Act.mk.injEq]
  refine ⟨?_, ?_, ?_⟩
  · rw [DMat.tr_mul P Q h]
    funext x
    rw [DMat.mulVec_mul]
  · funext x; rw [DMat.mulVec_mul]
  · funext A
    simp [DMat.galerkin_mul P Q A h]

theorem concat_spec (compiled : ℕ → ℕ → Bool) (s t r : Step K) (h : Step.concat compiled s t = some r)
    (hd : s.wid = t.hgt) : r.act = s.act.comp t.act ∧ r.ok ∧ r.hgt = s.hgt ∧ r.wid = t.wid ∧ r.fit := by
  unfold Step.concat at h
  split at h
  · rename_i bh bw P PT oh ow Q QT
    simp only [Step.wid, Step.hgt] at hd
    split at h
    · cases h
      exact ⟨ofProl_mul P Q hd, Or.inl rfl, rfl, rfl, trivial⟩
    · split at h
      · cases h
        exact ⟨ofProl_mul P Q hd, Or.inr rfl, rfl, rfl, trivial⟩
      · cases h
  · cases h

theorem afterConcat_spec (s t : Step K) (ht : t.ok) :
    (s.afterConcat t).act = t.act ∧ (s.afterConcat t).ok ∧ (s.afterConcat t).hgt = t.hgt ∧
      (s.afterConcat t).wid = t.wid ∧ (t.fit → (s.afterConcat t).fit) := by
  unfold Step.afterConcat
  split
  · simp only [Step.ok] at ht
    refine ⟨rfl, Or.inr ?_, rfl, rfl, fun _ => trivial⟩
    obtain rfl | rfl := ht <;> rfl
  · exact ⟨rfl, ht, rfl, rfl, id⟩

theorem fits_cons (s : Step K) (ss : List (Step K)) :
    fits (s :: ss) ↔ s.fit ∧ (∀ t ∈ ss.head?, s.wid = t.hgt) ∧ fits ss := by
  cases ss with
  | nil => simp [fits]
  | cons t ss => simp [fits]

theorem innerLoop_spec (compiled : ℕ → ℕ → Bool) (rest : List (Step K)) (c : Step K) (hc : c.ok) (hr : oks rest)
    (hf : fits (c :: rest)) :
    let r := innerLoop compiled c rest
    Act.chain (r.1.act :: acts r.2) = Act.chain (c.act :: acts rest) ∧ r.1.ok ∧ oks r.2 ∧ fits (r.1 :: r.2) ∧
      r.1.hgt = c.hgt := by
  induction rest generalizing c with
  | nil => exact ⟨rfl, hc, trivial, hf, rfl⟩
  | cons t rest ih =>
    simp only [oks] at hr
    simp only [fits] at hf
    unfold innerLoop
    split
    · rename_i x hx
      obtain ⟨h1, h2, h3, h4, h5⟩ := concat_spec compiled c t x hx hf.2.1
      have hfx : fits (x :: rest) := by
        rw [fits_cons] at hf ⊢
        rw [h4]
        exact ⟨h5, hf.2.2.2⟩
      obtain ⟨g1, g2, g3, g4, g5⟩ := ih x h2 hr.2 hfx
      refine ⟨?_, g2, g3, g4, g5.trans h3⟩
      rw [g1, h1]
      simp [acts, Act.chain, comp_assoc]
    · obtain ⟨h1, h2, h3, h4, h5⟩ := afterConcat_spec c t hr.1
      refine ⟨?_, hc, ⟨h2, hr.2⟩, ?_, rfl⟩
      · simp [acts, h1]
      · simp only [fits]
        rw [fits_cons] at hf
        rw [fits_cons, h3, h4]
        exact ⟨hf.1, hf.2.1, h5 hf.2.2.1, hf.2.2.2⟩

theorem outerLoop_spec (compiled : ℕ → ℕ → Bool) (steps : List (Step K)) (hs : oks steps) (hf : fits steps) :
    Act.chain (acts (outerLoop compiled steps)) = Act.chain (acts steps) ∧ oks (outerLoop compiled steps) ∧
      fits (outerLoop compiled steps) ∧ hgts (outerLoop compiled steps) = hgts steps ∧
      (outerLoop compiled steps = [] ↔ steps = []) := by
  fun_induction outerLoop compiled steps with
  | case1 => exact ⟨rfl, trivial, trivial, rfl, Iff.rfl⟩
  | case2 s rest hlen ih =>
    simp only [oks] at hs
    obtain ⟨h1, h2, h3, h4, h5⟩ := innerLoop_spec compiled rest s hs.1 hs.2 hf
    rw [fits_cons] at h4
    obtain ⟨g1, g2, g3, g4, g5⟩ := ih h3 h4.2.2
    refine ⟨?_, ⟨h2, g2⟩, ?_, ?_, by simp⟩
    · rw [acts, Act.chain, g1, ← Act.chain, h1]; rfl
    · rw [fits_cons]
      refine ⟨h4.1, ?_, g3⟩
      intro t ht
      cases hr : (innerLoop compiled s rest).2 with
      | nil => rw [g5.mpr hr] at ht; simp at ht
      | cons u us =>
        cases ho : outerLoop compiled (innerLoop compiled s rest).2 with
        | nil => rw [ho] at ht; simp at ht
        | cons v vs =>
          rw [ho] at ht g4
          rw [hr] at g4 h4
          simp only [List.head?_cons, Option.mem_def, Option.some.injEq] at ht
          subst ht
          simp only [hgts] at g4
          rw [g4]
          exact h4.2.1 u rfl
    · simpa [hgts] using h5

/-! ### C26 -/

/-- C26. Merging a chain of consistent, fitting steps (any length, any mixture of step classes): the result exists (unless
the chain is empty), its assembled coarse matrix is that of the chain, and once finalized it restricts and prolongates like
the chain -/
theorem makeSingleStep2_spec (compiled : ℕ → ℕ → Bool) (steps : List (Step K)) (hne : steps ≠ []) (hs : oks steps)
    (hf : fits steps) :
    ∃ s, makeSingleStep2 compiled steps = some s ∧ s.ok ∧ s.act = Act.chain (steps.map Step.act) ∧
      s.hgt = hgts steps := by
  obtain ⟨h1, h2, h3, h4, h5⟩ := outerLoop_spec compiled steps hs hf
  have hpos : 0 < steps.length := List.length_pos_iff.mpr hne
  have hno : outerLoop compiled steps ≠ [] := fun h => hne (h5.mp h)
  rw [← acts_eq_map, ← h1]
  unfold makeSingleStep2
  rw [if_neg (by omega)]
  simp only
  split
  · rename_i h
    obtain ⟨a, ha⟩ := List.length_eq_one_iff.mp h
    rw [ha] at h2 h4 ⊢
    refine ⟨a, rfl, h2.1, ?_, h4⟩
    simp [acts, Act.chain, comp_id]
  · have hl : (outerLoop compiled steps).length ≠ 0 := by simpa using hno
    refine ⟨.conc (outerLoop compiled steps) [], ?_, ⟨hno, Or.inl rfl, h2⟩, rfl, by simpa [Step.hgt] using h4⟩
    simp [mkConc, hl]

/-- the observable behaviour of a step -/
structure Behaves (s : Step K) (a : Act K) : Prop where
  f2c : ∀ x, s.f2c x = some (a.R x)
  addF2C : ∀ fac x y, s.addF2C fac x y = some fun i => y i + fac * a.R x i
  c2f : ∀ x, s.c2f x = some (a.P x)
  addC2F : ∀ fac x y, s.addC2F fac x y = some fun i => y i + fac * a.P x i
  assemble : ∀ A, s.assemble A = a.A A

theorem behaves_of_ready (s : Step K) (h : s.ready) : Behaves s s.act :=
  ⟨f2c_ready s h, addF2C_ready s h, c2f_ready s h, addC2F_ready s h, ready_ok_prim s h⟩

theorem behaves_finalize (s : Step K) (h : s.ok) : Behaves s.finalize s.act := by
  have := behaves_of_ready s.finalize (finalize_ready s h)
  rwa [finalize_act] at this

/-- C26: the merged step, finalized, behaves like the chain in every operation -/
theorem makeSingleStep2_behaves (compiled : ℕ → ℕ → Bool) (steps : List (Step K)) (hne : steps ≠ []) (hs : oks steps)
    (hf : fits steps) :
    ∃ s, makeSingleStep2 compiled steps = some s ∧ Behaves s.finalize (Act.chain (steps.map Step.act)) := by
  obtain ⟨s, h1, h2, h3, -⟩ := makeSingleStep2_spec compiled steps hne hs hf
  exact ⟨s, h1, h3 ▸ behaves_finalize s h2⟩

mutual
theorem simpleSteps_spec (s : Step K) (h : s.ok) (hf : s.fit) :
    Act.chain (acts (simpleSteps s)) = s.act ∧ oks (simpleSteps s) ∧ fits (simpleSteps s) ∧ simpleSteps s ≠ [] ∧
      hgts (simpleSteps s) = s.hgt ∧ wids (simpleSteps s) = s.wid := by
  match s with
  | .prol bh bw P PT => exact ⟨comp_id _, ⟨h, trivial⟩, hf, by simp [simpleSteps], rfl, rfl⟩
  | .dyn P PT => exact ⟨comp_id _, ⟨h, trivial⟩, hf, by simp [simpleSteps], rfl, rfl⟩
  | .other _ _ a => exact ⟨comp_id _, ⟨h, trivial⟩, hf, by simp [simpleSteps], rfl, rfl⟩
  | .conc subs vecs =>
    simp only [Step.ok] at h
    simp only [Step.fit] at hf
    obtain ⟨h1, h2, h3, h4⟩ := simpleStepss_spec subs h.2.2 hf.2
    obtain ⟨h5, h6, h7⟩ := h4 hf.1
    exact ⟨h1, h2, h3, h5, h6, h7⟩
  | .multi p sec =>
    simp only [Step.ok] at h
    simp only [Step.fit] at hf
    exact simpleSteps_spec p h.1 hf
theorem simpleStepss_spec (ss : List (Step K)) (h : oks ss) (hf : fits ss) :
    Act.chain (acts (simpleStepss ss)) = Act.chain (acts ss) ∧ oks (simpleStepss ss) ∧ fits (simpleStepss ss) ∧
      (ss ≠ [] → simpleStepss ss ≠ [] ∧ hgts (simpleStepss ss) = hgts ss ∧ wids (simpleStepss ss) = wids ss) := by
  match ss with
  | [] => exact ⟨rfl, trivial, trivial, fun h => absurd rfl h⟩
  | s :: ss =>
    simp only [oks] at h
    rw [fits_cons] at hf
    obtain ⟨a1, a2, a3, a4, a5, a6⟩ := simpleSteps_spec s h.1 hf.1
    obtain ⟨b1, b2, b3, b4⟩ := simpleStepss_spec ss h.2 hf.2.2
    have hoks : ∀ l1 l2 : List (Step K), oks l1 → oks l2 → oks (l1 ++ l2) := by
      intro l1
      induction l1 with
      | nil => intro l2 _ h; exact h
      | cons a l ih => intro l2 h h'; exact ⟨h.1, ih l2 h.2 h'⟩
    have hh : ∀ l1 l2 : List (Step K), l1 ≠ [] → hgts (l1 ++ l2) = hgts l1 := by
      intro l1 l2 h
      obtain ⟨a, l, rfl⟩ := List.exists_cons_of_ne_nil h
      rfl
    have hw : ∀ l1 l2 : List (Step K), l2 ≠ [] → wids (l1 ++ l2) = wids l2 := by
      intro l1 l2 h2
      induction l1 with
      | nil => rfl
      | cons a l ih =>
        cases l with
        | nil => obtain ⟨b, l', rfl⟩ := List.exists_cons_of_ne_nil h2; rfl
        | cons b l => simpa [wids] using ih
    have hfit : ∀ l1 l2 : List (Step K), fits l1 → fits l2 → (l1 ≠ [] → l2 ≠ [] → wids l1 = hgts l2) →
        fits (l1 ++ l2) := by
      intro l1
      induction l1 with
      | nil => intro l2 _ h _; exact h
      | cons a l ih =>
        intro l2 h1 h2 h3
        cases l with
        | nil =>
          cases l2 with
          | nil => exact h1
          | cons b l2 => exact ⟨h1, h3 (by simp) (by simp), h2⟩
        | cons b l => exact ⟨h1.1, h1.2.1, ih l2 h1.2.2 h2 (fun _ h => h3 (by simp) h)⟩
    simp only [simpleStepss]
    have hsw : ss ≠ [] → s.wid = hgts ss := by
      intro h
      obtain ⟨b, l, rfl⟩ := List.exists_cons_of_ne_nil h
      exact hf.2.1 b rfl
    refine ⟨?_, hoks _ _ a2 b2, hfit _ _ a3 b3 ?_, fun _ => ⟨by simp [a4], ?_, ?_⟩⟩
    · rw [acts_append, chain_append, a1, b1]; rfl
    · intro _ hne
      have hss : ss ≠ [] := by rintro rfl; exact hne rfl
      rw [a6, (b4 hss).2.1]; exact hsw hss
    · rw [hh _ _ a4, a5]; rfl
    · cases ss with
      | nil => simp [simpleStepss, a6, wids]
      | cons t ss =>
        rw [hw _ _ (b4 (by simp)).1, (b4 (by simp)).2.2]; rfl
end

/-- C26: flattening nested concatenated/multi steps before merging does not change the (primary) action either -/
theorem makeSingleStep3_spec (compiled : ℕ → ℕ → Bool) (steps : List (Step K)) (hne : steps ≠ []) (hs : oks steps)
    (hf : fits steps) :
    ∃ s, makeSingleStep3 compiled steps = some s ∧ s.ok ∧ s.act = Act.chain (steps.map Step.act) ∧
      s.hgt = hgts steps := by
  obtain ⟨h1, h2, h3, h4⟩ := simpleStepss_spec steps hs hf
  obtain ⟨s, e, ho, ha, hh⟩ := makeSingleStep2_spec compiled (simpleStepss steps) (h4 hne).1 h2 h3
  refine ⟨s, e, ho, ?_, hh.trans (h4 hne).2.1⟩
  rw [ha, ← acts_eq_map, h1, acts_eq_map]

theorem makeSingleStep3_behaves (compiled : ℕ → ℕ → Bool) (steps : List (Step K)) (hne : steps ≠ []) (hs : oks steps)
    (hf : fits steps) :
    ∃ s, makeSingleStep3 compiled steps = some s ∧ Behaves s.finalize (Act.chain (steps.map Step.act)) := by
  obtain ⟨s, h1, h2, h3, -⟩ := makeSingleStep3_spec compiled steps hne hs hf
  exact ⟨s, h1, h3 ▸ behaves_finalize s h2⟩

/-- grouping: cut the chain into groups, merge every group into a single step; the new chain acts like the old one -/
theorem grouping_spec (compiled : ℕ → ℕ → Bool) (groups : List (List (Step K)))
    (hg : ∀ g ∈ groups, g ≠ [] ∧ oks g ∧ fits g) :
    ∃ ss : List (Step K), groups.map (makeSingleStep3 compiled) = ss.map some ∧
      Act.chain (ss.map Step.act) = Act.chain (groups.flatten.map Step.act) := by
  induction groups with
  | nil => exact ⟨[], rfl, rfl⟩
  | cons g gs ih =>
    obtain ⟨ss, e, h⟩ := ih fun g' hg' => hg g' (List.mem_cons_of_mem _ hg')
    obtain ⟨h1, h2, h3⟩ := hg g List.mem_cons_self
    obtain ⟨s, es, -, ha, -⟩ := makeSingleStep3_spec compiled g h1 h2 h3
    refine ⟨s :: ss, by simp [e, es], ?_⟩
    simp only [List.map_cons, Act.chain, h, ha, List.flatten_cons, List.map_append, chain_append]

/-- NOT guaranteed: the merged step cannot be used for restriction right away. Merging two finalized prolongations with 1x1
blocks gives a step whose restriction dereferences a null pointer until `Finalize` is called -/
theorem makeSingleStep2_not_finalized :
    ∃ (steps : List (Step ℤ)) (s : Step ℤ), readys steps ∧ fits steps ∧
      makeSingleStep2 (fun _ _ => true) steps = some s ∧ ∀ x, s.f2c x = none := by
  let P : DMat ℤ := ⟨2, 2, fun i j => if i = j then 1 else 0⟩
  refine ⟨[.prol 1 1 P (some P.tr), .prol 1 1 P (some P.tr)], .prol 1 1 (P.mul P) none, ⟨rfl, rfl, trivial⟩,
    ⟨trivial, rfl, trivial⟩, ?_, fun x => rfl⟩
  simp [makeSingleStep2, outerLoop, innerLoop, Step.concat]

/-- the same holds if the steps cannot be merged: the concatenated step has no work vectors before `Finalize` -/
theorem makeSingleStep2_no_vecs :
    ∃ (steps : List (Step ℤ)) (s : Step ℤ), readys steps ∧ fits steps ∧
      makeSingleStep2 (fun _ _ => true) steps = some s ∧ ∀ x, s.f2c x = none ∧ s.c2f x = none := by
  let P : DMat ℤ := ⟨2, 2, fun i j => if i = j then 1 else 0⟩
  refine ⟨[.dyn P (some P.tr), .dyn P (some P.tr)], .conc [.dyn P (some P.tr), .dyn P (some P.tr)] [],
    ⟨rfl, rfl, trivial⟩, ⟨trivial, rfl, trivial⟩, ?_, fun x => ⟨?_, ?_⟩⟩
  · simp [makeSingleStep2, outerLoop, innerLoop, Step.concat, mkConc, Step.afterConcat]
  · simp [Step.f2c, f2cs, runF2C]
  · simp [Step.c2f, c2fs, runC2F]

/-- a prolongation converted to the dynamic block format is built without transpose (dof_map.cpp:989-1003) and cannot
restrict: the fallback throws -/
theorem dyn_without_transpose (P : DMat K) (x : Vec K) : (Step.dyn P none : Step K).f2c x = none := rfl

/-! ### C26: coarse levels built from merged steps -/

/-- `MapLevel`, no embedding done before: the level's step is ready to use, behaves like the whole chain, and the coarse
matrix is the one the chain assembles (step by step Galerkin products) -/
theorem mapLevel_spec (compiled : ℕ → ℕ → Bool) (steps : List (Step K)) (hne : steps ≠ []) (hs : oks steps)
    (hf : fits steps) (A B : DMat K) (hA : (Act.chain (steps.map Step.act)).A A = some B) :
    ∃ s, mapLevel compiled steps false A = some (some (s, B)) ∧ Behaves s (Act.chain (steps.map Step.act)) := by
  obtain ⟨s, h1, h2, h3, -⟩ := makeSingleStep3_spec compiled steps hne hs hf
  refine ⟨s.finalize, ?_, h3 ▸ behaves_finalize s h2⟩
  simp [mapLevel, h1, assemble_ok s h2, h3, hA]

/-- `MapLevel` if the fine matrix is already embedded: the level's step contains the embedding, the coarse matrix is
assembled from the other steps only -/
theorem mapLevel_embDone_spec (compiled : ℕ → ℕ → Bool) (s0 : Step K) (steps : List (Step K)) (hne : steps ≠ [])
    (hs : oks (s0 :: steps)) (hf : fits (s0 :: steps)) (A B : DMat K)
    (hA : (Act.chain (steps.map Step.act)).A A = some B) :
    ∃ s, mapLevel compiled (s0 :: steps) true A = some (some (s, B)) ∧
      Behaves s (Act.chain ((s0 :: steps).map Step.act)) := by
  simp only [oks] at hs
  rw [fits_cons] at hf
  obtain ⟨afs, h1, h2, h3, h4⟩ := makeSingleStep3_spec compiled steps hne hs.2 hf.2.2
  -- the merged rest is fitting because all its components are simple
  have hfit : afs.fit := by
    unfold makeSingleStep3 makeSingleStep2 at h1
    obtain ⟨-, g2, g3, g4⟩ := simpleStepss_spec steps hs.2 hf.2.2
    obtain ⟨-, -, k3, -, k5⟩ := outerLoop_spec compiled _ g2 g3
    split at h1
    · cases h1
    · simp only at h1
      split at h1
      · rename_i h
        obtain ⟨a, ha⟩ := List.length_eq_one_iff.mp h
        rw [ha] at h1 k3
        simp only [List.length_cons, List.length_nil, Nat.zero_add, Nat.lt_add_one, List.getElem?_eq_getElem,
          List.getElem_cons_zero, Option.some.injEq] at h1
        subst h1
        exact k3
      · unfold mkConc at h1
        split at h1
        · cases h1
        · rename_i h0
          simp at h1
          subst h1
          refine ⟨?_, k3⟩
          intro h; rw [h] at h0; simp at h0
  have hw : s0.wid = afs.hgt := by
    rw [h4]
    obtain ⟨b, l, rfl⟩ := List.exists_cons_of_ne_nil hne
    exact hf.2.1 b rfl
  obtain ⟨f, e1, e2, e3, -⟩ := makeSingleStep3_spec compiled [s0, afs] (by simp) ⟨hs.1, h2, trivial⟩ ⟨hf.1, hw, hfit⟩
  refine ⟨f.finalize, ?_, ?_⟩
  · have hl : 1 < (s0 :: steps).length := by
      have := List.length_pos_iff.mpr hne
      simpa using this
    simp only [mapLevel, hl, true_and, if_true, List.drop_succ_cons, List.drop_zero, h1]
    rw [assemble_ok afs h2, h3, hA]
    simp [e1]
  · have : (Act.chain ((s0 :: steps).map Step.act)) = f.act := by
      rw [e3]; simp [Act.chain, h3, comp_id]
    rw [this]
    exact behaves_finalize f e2

/-! ### C27: the map of all levels -/

theorem readys_iff (ss : List (Step K)) : readys ss ↔ ∀ s ∈ ss, s.ready := by
  induction ss with
  | nil => simp [readys]
  | cons s ss ih => simp [readys, ih]

theorem finalize_steps (lastOk : Bool) (m : DOFMap K) : (m.finalize lastOk).steps = m.steps := by
  unfold DOFMap.finalize; split <;> rfl

/-- reachable maps: the level vectors are allocated exactly when the map is finalized, one per level -/
def DOFMap.wf (m : DOFMap K) : Prop :=
  m.finalized = true → ∃ b, m.vecs = List.replicate m.steps.length true ++ [b]

omit [CommRing K] in
theorem wf_new : (DOFMap.new K).wf := by intro h; cases h

theorem wf_addStep (m m' : DOFMap K) (s : Step K) (h : m.addStep s = some m') : m'.wf := by
  unfold DOFMap.addStep at h
  split at h
  · cases h
  · cases h; intro h; simp_all

theorem wf_prependStep (m m' : DOFMap K) (s : Step K) (h : m.prependStep s = some m') : m'.wf := by
  unfold DOFMap.prependStep at h
  split at h
  · cases h
  · cases h; intro h; simp_all

theorem wf_replaceStep (m m' : DOFMap K) (k : ℕ) (s : Step K) (hm : m.wf) (h : m.replaceStep k s = some m') : m'.wf := by
  unfold DOFMap.replaceStep at h
  split at h
  · cases h
    intro hf
    simpa using hm hf
  · cases h

theorem wf_finalize (lastOk : Bool) (m : DOFMap K) (hm : m.wf) : (m.finalize lastOk).wf := by
  unfold DOFMap.finalize
  split
  · exact hm
  · intro _; exact ⟨lastOk, rfl⟩

/-- the steps `la .. lb-1`, merged symbolically, behave like the chain of these steps -/
theorem concStep_spec (compiled : ℕ → ℕ → Bool) (lastOk : Bool) (m : DOFMap K) (hm : m.wf) (hr : readys m.steps)
    (la lb : ℕ) (h1 : la < lb) (h2 : lb ≤ m.steps.length) :
    ∃ s, m.concStep compiled lastOk la lb true = some s ∧
      Behaves s (Act.chain (((m.steps.take lb).drop la).map Step.act)) := by
  have hne : m.steps.length ≠ 0 := by omega
  have hvec : ∃ b, (m.finalize lastOk).vecs = List.replicate m.steps.length true ++ [b] := by
    have h := wf_finalize lastOk m hm
    have hfin : (m.finalize lastOk).finalized = true := by
      unfold DOFMap.finalize
      split
      · rename_i h; simpa [hne] using h
      · rfl
    have h' := h hfin
    rwa [finalize_steps] at h'
  obtain ⟨b, hb⟩ := hvec
  unfold DOFMap.concStep
  simp only [finalize_steps, hb, min_eq_left h1.le, max_eq_right h1.le, if_neg (not_lt.mpr h2)]
  split
  · rename_i h
    subst h
    have hlt : la < m.steps.length := by omega
    refine ⟨m.steps[la], List.getElem?_eq_getElem hlt, ?_⟩
    have hd : (m.steps.take (la + 1)).drop la = [m.steps[la]] := by
      rw [List.take_succ_eq_append_getElem hlt, List.drop_append_of_le_length (by simp; omega)]
      simp
    rw [hd]
    simp only [List.map_cons, List.map_nil, Act.chain, comp_id]
    exact behaves_of_ready _ ((readys_iff _).mp hr _ (List.getElem_mem hlt))
  · rename_i h
    have hv : ((List.replicate m.steps.length true ++ [b]).take lb).drop (la + 1) =
        List.replicate (lb - (la + 1)) true := by
      rw [List.take_append_of_le_length (by simpa using h2)]
      simp [List.take_replicate, List.drop_replicate, min_eq_left h2]
    have hlen : ((m.steps.take lb).drop la).length = lb - la := by simp; omega
    rw [hv]
    refine ⟨.conc ((m.steps.take lb).drop la) (List.replicate (lb - la - 1) true), ?_, ?_⟩
    · rw [if_pos trivial]
      unfold mkConc
      rw [hlen, if_neg (by omega), if_pos ⟨by omega, by simp; omega⟩, if_pos (by simp; omega)]
      simp [List.take_replicate]
      omega
    · have hready : (Step.conc ((m.steps.take lb).drop la) (List.replicate (lb - la - 1) true)).ready := by
        simp only [Step.ready]
        refine ⟨?_, by rw [hlen], ?_⟩
        · intro h; rw [h] at hlen; simp at hlen; omega
        · rw [readys_iff] at hr ⊢
          intro s hs
          exact hr s (List.mem_of_mem_take (List.mem_of_mem_drop hs))
      have := behaves_of_ready _ hready
      simpa [Step.act, acts_eq_map] using this

theorem oks_part (ss : List (Step K)) : ∀ (a b : ℕ), oks ss → fits ss → oks ((ss.take b).drop a) ∧
    fits ((ss.take b).drop a) := by
  induction ss with
  | nil => intro a b _ _; simp [oks, fits]
  | cons s ss ih =>
    intro a b ho hf
    have hf' := (fits_cons s ss).mp hf
    cases b with
    | zero => simp [oks, fits]
    | succ b =>
      cases a with
      | succ a => simpa using ih a b ho.2 hf'.2.2
      | zero =>
        have h0 := ih 0 b ho.2 hf'.2.2
        simp only [List.drop_zero] at h0
        simp only [List.take_succ_cons, List.drop_zero]
        refine ⟨⟨ho.1, h0.1⟩, (fits_cons _ _).mpr ⟨hf'.1, ?_, h0.2⟩⟩
        intro t ht
        refine hf'.2.1 t ?_
        cases ss with
        | nil => simp at ht
        | cons u ss =>
          cases b with
          | zero => simp at ht
          | succ b => simpa using ht

/-- C27: `ConcStep(la, lb, symbolic = false)` is ONE step that (once finalized) transfers like the chain of the steps
`la .. lb-1` -/
theorem concStep_merged_spec (compiled : ℕ → ℕ → Bool) (lastOk : Bool) (m : DOFMap K) (ho : oks m.steps)
    (hf : fits m.steps) (la lb : ℕ) (h1 : la < lb) (h2 : lb ≤ m.steps.length) :
    ∃ s, m.concStep compiled lastOk la lb false = some s ∧
      Behaves s.finalize (Act.chain (((m.steps.take lb).drop la).map Step.act)) := by
  obtain ⟨ho', hf'⟩ := oks_part m.steps la lb ho hf
  unfold DOFMap.concStep
  simp only [finalize_steps, min_eq_left h1.le, max_eq_right h1.le, if_neg (not_lt.mpr h2)]
  split
  · rename_i h
    subst h
    have hlt : la < m.steps.length := by omega
    refine ⟨m.steps[la], List.getElem?_eq_getElem hlt, ?_⟩
    have hd : (m.steps.take (la + 1)).drop la = [m.steps[la]] := by
      rw [List.take_succ_eq_append_getElem hlt, List.drop_append_of_le_length (by simp; omega)]
      simp
    rw [hd] at ho' ⊢
    simp only [List.map_cons, List.map_nil, Act.chain, comp_id]
    exact behaves_finalize _ ho'.1
  · have hne : (m.steps.take lb).drop la ≠ [] := by
      intro h
      have := congrArg List.length h
      simp at this
      omega
    obtain ⟨s, e1, e2⟩ := makeSingleStep3_behaves compiled _ hne ho' hf'
    exact ⟨s, by simpa using e1, e2⟩

/-- a map with two unfinalized prolongations -/
def exMap2 : DOFMap ℤ :=
  ⟨[.prol 1 1 ⟨3, 2, fun i j => if i = j then 1 else 0⟩ none, .prol 1 1 ⟨2, 1, fun _ _ => 1⟩ none], false, []⟩

example : ∃ s, exMap2.concStep (fun _ _ => true) false 0 2 false = some s ∧
    Behaves s.finalize (Act.chain (((exMap2.steps.take 2).drop 0).map Step.act)) :=
  concStep_merged_spec _ _ exMap2 ⟨Or.inl rfl, Or.inl rfl, trivial⟩ ⟨trivial, rfl, trivial⟩ 0 2 (by omega) (by decide)

/-- C27: transfer to a coarser level = the restrictions of the levels in between, one after the other -/
theorem transferAtoB_down (compiled : ℕ → ℕ → Bool) (lastOk : Bool) (m : DOFMap K) (hm : m.wf) (hr : readys m.steps)
    (la lb : ℕ) (h1 : la < lb) (h2 : lb ≤ m.steps.length) (vin vout : Vec K) :
    m.transferAtoB compiled lastOk la lb vin vout =
      some (((m.steps.take lb).drop la).foldl (fun v s => s.act.R v) vin) := by
  obtain ⟨s, hs, hb⟩ := concStep_spec compiled lastOk m hm hr la lb h1 h2
  unfold DOFMap.transferAtoB
  have e1 : min la m.steps.length = la := min_eq_left (by omega)
  have e2 : min lb m.steps.length = lb := min_eq_left h2
  simp only [e1, e2, if_neg h1.ne, if_neg (not_lt.mpr h1.le), hs, Option.bind_some, hb.f2c]
  rw [chain_R, List.foldl_map]

/-- C27: transfer to a finer level = the prolongations of the levels in between, from coarse to fine -/
theorem transferAtoB_up (compiled : ℕ → ℕ → Bool) (lastOk : Bool) (m : DOFMap K) (hm : m.wf) (hr : readys m.steps)
    (la lb : ℕ) (h1 : lb < la) (h2 : la ≤ m.steps.length) (vin vout : Vec K) :
    m.transferAtoB compiled lastOk la lb vin vout =
      some (((m.steps.take la).drop lb).foldr (fun s v => s.act.P v) vin) := by
  obtain ⟨s, hs, hb⟩ := concStep_spec compiled lastOk m hm hr lb la h1 h2
  unfold DOFMap.transferAtoB
  have e1 : min la m.steps.length = la := min_eq_left h2
  have e2 : min lb m.steps.length = lb := min_eq_left (by omega)
  simp only [e1, e2, if_neg h1.ne', h1, if_neg h1.ne, if_true, hs, Option.bind_some, hb.c2f]
  rw [chain_P, List.foldr_map]

/-- C27: going via an intermediate level makes no difference -/
theorem transferAtoB_via (compiled : ℕ → ℕ → Bool) (lastOk : Bool) (m : DOFMap K) (hm : m.wf) (hr : readys m.steps)
    (la lm lb : ℕ) (h2 : lb ≤ m.steps.length) (h1 : la ≤ m.steps.length)
    (hmid : (la ≤ lm ∧ lm ≤ lb) ∨ (lb ≤ lm ∧ lm ≤ la)) (vin v1 v2 : Vec K) :
    (m.transferAtoB compiled lastOk la lm vin v1).bind (fun v => m.transferAtoB compiled lastOk lm lb v v2) =
      m.transferAtoB compiled lastOk la lb vin v2 := by
  have heq : ∀ l (x y : Vec K), m.transferAtoB compiled lastOk l l x y = some x := by
    intro l x y; simp [DOFMap.transferAtoB]
  rcases eq_or_ne la lm with rfl | hne1
  · rw [heq]; simp
  rcases eq_or_ne lm lb with rfl | hne2
  · simp only [heq]
    rcases hmid with ⟨h, -⟩ | ⟨-, h⟩
    · rw [transferAtoB_down compiled lastOk m hm hr la lm (by omega) (by omega),
        transferAtoB_down compiled lastOk m hm hr la lm (by omega) (by omega)]
      rfl
    · rw [transferAtoB_up compiled lastOk m hm hr la lm (by omega) (by omega),
        transferAtoB_up compiled lastOk m hm hr la lm (by omega) (by omega)]
      rfl
  have hsplit : ∀ a b c : ℕ, a ≤ b → b ≤ c → (m.steps.take c).drop a =
      (m.steps.take b).drop a ++ (m.steps.take c).drop b := by
    intro a b c hab hbc
    have : m.steps.take c = m.steps.take b ++ (m.steps.take c).drop b := by
      conv_lhs => rw [← List.take_append_drop b (m.steps.take c)]
      rw [List.take_take, min_eq_left hbc]
    by_cases hl : b ≤ m.steps.length
    · conv_lhs => rw [this]
      rw [List.drop_append_of_le_length (by simp [hab]; omega)]
    · have e1 : m.steps.take c = m.steps := List.take_of_length_le (by omega)
      have e2 : m.steps.take b = m.steps := List.take_of_length_le (by omega)
      rw [e1, e2, List.drop_eq_nil_of_le (as := m.steps) (i := b) (by omega)]; simp
  rcases hmid with ⟨ha, hb⟩ | ⟨hb, ha⟩
  · rw [transferAtoB_down compiled lastOk m hm hr la lm (by omega) (by omega),
      transferAtoB_down compiled lastOk m hm hr la lb (by omega) (by omega)]
    simp only [Option.bind_some]
    rw [transferAtoB_down compiled lastOk m hm hr lm lb (by omega) (by omega), hsplit la lm lb ha hb]
    simp
  · rw [transferAtoB_up compiled lastOk m hm hr la lm (by omega) (by omega),
      transferAtoB_up compiled lastOk m hm hr la lb (by omega) (by omega)]
    simp only [Option.bind_some]
    rw [transferAtoB_up compiled lastOk m hm hr lm lb (by omega) (by omega), hsplit lb lm la hb ha]
    simp

/-- C27: a finalized map with steps rejects further steps -/
theorem finalize_rejects (lastOk : Bool) (m : DOFMap K) (h : m.steps ≠ []) (s : Step K) :
    (m.finalize lastOk).addStep s = none ∧ (m.finalize lastOk).prependStep s = none := by
  have hl : m.steps.length ≠ 0 := by simpa using h
  have : (m.finalize lastOk).finalized = true := by
    unfold DOFMap.finalize
    split
    · rename_i h'; simpa [hl] using h'
    · rfl
  simp [DOFMap.addStep, DOFMap.prependStep, this]

/-- NOT guaranteed for an empty map: finalizing it has no effect, steps can still be added -/
theorem finalize_empty_accepts (lastOk : Bool) (s : Step K) :
    ((DOFMap.new K).finalize lastOk).addStep s = some ⟨[s], false, []⟩ := by
  simp [DOFMap.finalize, DOFMap.new, DOFMap.addStep]

/-- C27: `AssembleMatrices` returns the fine matrix followed by the level matrices; matrix `k` is what the first `k` steps
assemble from the fine matrix -/
theorem assembleMatrices_spec (m : DOFMap K) (hs : oks m.steps) (A : DMat K) (mats : List (DMat K))
    (h : m.assembleMatrices A = some mats) :
    mats.length = m.steps.length + 1 ∧
    ∀ k, k ≤ m.steps.length → mats[k]? = (Act.chain ((m.steps.take k).map Step.act)).A A := by
  unfold DOFMap.assembleMatrices at h
  simp only [Option.map_eq_some_iff] at h
  obtain ⟨l, hl, rfl⟩ := h
  have key : ∀ (ss : List (Step K)) (B : DMat K) (l : List (DMat K)), oks ss → assembleLoop ss B = some l →
      l.length = ss.length ∧ ∀ k, k ≤ ss.length → (B :: l)[k]? = (Act.chain ((ss.take k).map Step.act)).A B := by
    intro ss
    induction ss with
    | nil =>
      intro B l _ h
      cases h
      refine ⟨rfl, ?_⟩
      intro k hk
      have : k = 0 := by simpa using hk
      subst this; rfl
    | cons s ss ih =>
      intro B l hok h
      simp only [oks] at hok
      simp only [assembleLoop, Option.bind_eq_some_iff, Option.map_eq_some_iff] at h
      obtain ⟨C, hC, l', hl', rfl⟩ := h
      obtain ⟨g1, g2⟩ := ih C l' hok.2 hl'
      refine ⟨by simp [g1], ?_⟩
      intro k hk
      cases k with
      | zero => rfl
      | succ k =>
        have hCC : s.act.A B = some C := by rw [← assemble_ok s hok.1]; exact hC
        have := g2 k (by simpa using hk)
        simp only [List.getElem?_cons_succ, List.take_succ_cons, List.map_cons, Act.chain, Act.comp, hCC,
          Option.bind_some]
        exact this
  obtain ⟨g1, g2⟩ := key m.steps A l hs hl
  exact ⟨by simp [g1], g2⟩

/-- `SubMap` transfers like the corresponding part of the big map -/
theorem subMap_steps (m : DOFMap K) (a b : ℕ) (lastOk : Bool) :
    ((m.subMap a b).finalize lastOk).steps = (m.steps.take b).drop a ∧ (m.subMap a b).wf := by
  refine ⟨by rw [finalize_steps]; rfl, by intro h; cases h⟩

/-! ### a concrete instance: three steps of different classes -/

/-- a 3x2 prolongation -/
def exP : DMat ℤ := ⟨3, 2, fun i j => if i = j then 1 else if i = 2 then 2 else 0⟩
/-- a 2x1 prolongation -/
def exQ : DMat ℤ := ⟨2, 1, fun _ _ => 1⟩
/-- unfinalized chain of a prolongation, a multi step, and a step with dynamic blocks -/
def exSteps : List (Step ℤ) :=
  [.prol 1 1 exP none, .multi (.prol 1 1 exQ none) [.prol 1 1 exP none], .dyn ⟨1, 1, fun _ _ => 3⟩ (some ⟨1, 1, fun _ _ => 3⟩)]

theorem exSteps_ok : exSteps ≠ [] ∧ oks exSteps ∧ fits exSteps := by
  refine ⟨by simp [exSteps], ?_, ?_⟩
  · exact ⟨Or.inl rfl, ⟨Or.inl rfl, Or.inl rfl, trivial⟩, rfl, trivial⟩
  · exact ⟨trivial, rfl, trivial, rfl, trivial⟩

example : ∃ s, makeSingleStep3 (fun _ _ => true) exSteps = some s ∧
    Behaves s.finalize (Act.chain (exSteps.map Step.act)) ∧ (Act.chain (exSteps.map Step.act)).P (fun _ => 1) 2 = 12 := by
  obtain ⟨s, h1, h2⟩ := makeSingleStep3_behaves (fun _ _ => true) exSteps exSteps_ok.1 exSteps_ok.2.1 exSteps_ok.2.2
  refine ⟨s, h1, h2, by decide⟩

/-- a finalized map whose transfers are covered by the theorems -/
def exMap : DOFMap ℤ := ⟨finalizes exSteps, false, []⟩

example : exMap.wf ∧ readys exMap.steps ∧ exMap.steps.length = 3 :=
  ⟨(fun h => by cases h), finalizes_ready _ exSteps_ok.2.1, rfl⟩

example : exMap.transferAtoB (fun _ _ => true) false 0 3 (fun _ => 1) (fun _ => 0) =
    some ((exMap.steps).foldl (fun v s => s.act.R v) fun _ => 1) :=
  transferAtoB_down _ _ exMap (fun h => by cases h) (finalizes_ready _ exSteps_ok.2.1) 0 3 (by omega)
    (by simp [exMap, exSteps, finalizes]) _ _

example : ∃ mats, (⟨[.prol 1 1 exP none, .prol 1 1 exQ none], false, []⟩ : DOFMap ℤ).assembleMatrices
    ⟨3, 3, fun i j => if i = j then 1 else 0⟩ = some mats := ⟨_, rfl⟩

end NgsAMG.DM
