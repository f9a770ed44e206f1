import Verif.Props.SetupLog3

/-! # C104: the summary of the setup -/

namespace NgsAMG.SLog

open Relation (ReflTransGen)

variable {J : ℕ → List ℕ → ℕ → ℕ} {n : ℕ} {Ls : List Level} {O : Opts}

/-- what process `p` writes -/
def written (J : ℕ → List ℕ → ℕ → ℕ) (O : Opts) (Ls : List Level) (p : ℕ) : List (Dest × Item) :=
  if O.print = false ∨ p ≠ 0 ∨ O.lev = .none then [] else lines O.lev (if O.toFile then .file else .console) (finDone 0 O.lev (logged J 0 O.lev Ls {}))

theorem fin_nonempty {L0 : Level} (hL : LevelsOK n (L0 :: Ls)) (lev : LogLev) :
    (lev ≠ .none → (logged J 0 lev (L0 :: Ls) {}).vcc ≠ [] ∧ (logged J 0 lev (L0 :: Ls) {}).occ ≠ []) ∧
    (lev.small = false → ∀ p < n, (logged J p lev (L0 :: Ls) {}).vccl ≠ [] ∧ (logged J p lev (L0 :: Ls) {}).occl ≠ []) := by
  refine ⟨fun hl => ?_, fun hs p hp => ?_⟩
  · obtain ⟨h1, h2, -⟩ := logged_zero (J := J) hL hl
    rw [h1, h2]
    exact ⟨by simp, by simp⟩
  · obtain ⟨h1, h2⟩ := logged_loc (J := J) hL hs p
    have hm : p ∈ L0.procs := by rw [hL.pos.1]; exact List.mem_range.2 hp
    rw [h1, h2, own_cons_pos hm]
    exact ⟨by simp, by simp⟩

theorem print_steps {L0 : Level} (hL : LevelsOK n (L0 :: Ls)) (lev : LogLev) (out : Dest) :
    ReflTransGen (Step J) (fun p => if p ∈ List.range n then printLog (List.range n) p lev out (logged J p lev (L0 :: Ls) {}) else .ret (some []))
      fun p => .ret (some (if p ≠ 0 ∨ lev = .none then [] else lines lev out (finDone 0 lev (logged J 0 lev (L0 :: Ls) {})))) := by
  have h := fin_nonempty (J := J) hL lev
  refine (finalize_steps n hL.pos.2 lev (fun p => logged J p lev (L0 :: Ls) {}) h.1 h.2
    (fun p r => .ret (r.map fun g => if (List.range n).idxOf p ≠ 0 ∨ lev = .none then [] else lines lev out g)) fun _ => .ret (some [])).trans ?_
  refine Eq.subst (motive := fun x => ReflTransGen (Step J) _ x) ?_ ReflTransGen.refl
  funext p
  by_cases m : p ∈ List.range n
  · rw [if_pos m, idx_range (List.mem_range.1 m)]
    by_cases h0 : p = 0
    · subst h0; rfl
    · simp [h0]
  · have : p ≠ 0 := by rintro rfl; exact m (List.mem_range.2 hL.pos.2)
    simp [m, this]

/-- logging of the levels, the summary on the console or nothing: all executions finish -/
theorem finish_written {L0 : Level} (hL : LevelsOK n (L0 :: Ls)) (hh : ¬(O.print = true ∧ O.toFile = true ∧ O.lev.small = false ∧ 1 < n)) :
    AllFinish J (setup O (L0 :: Ls)) fun p => some (written J O (L0 :: Ls) p) := by
  refine (endsIn_self (no_step_ret _)).backs ((setup_steps hL O).trans ?_)
  by_cases hp : O.print = true
  · by_cases hf : O.toFile = true
    · by_cases hs : O.lev.small = true
      · refine Eq.subst (motive := fun x => ReflTransGen (Step J) _ x) ?_ ReflTransGen.refl
        funext p
        by_cases m : p ∈ List.range n
        · rw [if_pos m]
          have hpn := List.mem_range.1 m
          by_cases h0 : p = 0
          · subst h0
            by_cases hl : O.lev = .none
            · simp [summary, hp, hf, printToFile, printLog, finalize, hl, written, Prog.bind, idx_range hpn]
            · obtain ⟨h1, h2⟩ := (fin_nonempty (J := J) hL O.lev).1 hl
              have hg := global_eq hpn (logged J 0 O.lev (L0 :: Ls) {}) fun _ => ⟨h1, h2⟩
              simp only [summary, hp, hf, if_true, printToFile, idx_range hpn, printLog, finalize, if_neg hl, hg, hs]
              simp [Prog.bind, hl, written, finDone, hs, hp, hf]
          · simp [summary, hp, hf, printToFile, idx_range hpn, h0, written]
        · have : p ≠ 0 := by rintro rfl; exact m (List.mem_range.2 hL.pos.2)
          simp [m, this, written]
      · have h1 : n = 1 := by
          have := hL.pos.2
          have : ¬1 < n := fun h => hh ⟨hp, hf, by simpa using hs, h⟩
          omega
        subst h1
        refine Eq.subst (motive := fun x => ReflTransGen (Step J) x _) ?_ ((print_steps (J := J) hL O.lev .file).trans ?_)
        · funext p
          by_cases m : p ∈ List.range 1
          · have h0 : p = 0 := by simpa using m
            subst h0
            have : (List.range 1).idxOf 0 = 0 := idx_range one_pos
            simp only [if_pos m, summary, hp, hf, if_true, printToFile, this]
          · simp only [if_neg m]
        · refine Eq.subst (motive := fun x => ReflTransGen (Step J) _ x) ?_ ReflTransGen.refl
          funext p
          simp [written, hp, hf]
    · refine Eq.subst (motive := fun x => ReflTransGen (Step J) x _) ?_ ((print_steps (J := J) hL O.lev .console).trans ?_)
      · funext p
        simp only [summary, hp, if_true, if_neg hf]
      · refine Eq.subst (motive := fun x => ReflTransGen (Step J) _ x) ?_ ReflTransGen.refl
        funext p
        simp [written, hp, hf]
  · refine Eq.subst (motive := fun x => ReflTransGen (Step J) _ x) ?_ ReflTransGen.refl
    funext p
    simp [summary, written, hp]

theorem items_global {L0 : Level} (hL : LevelsOK n (L0 :: Ls)) (hq : ¬O.quiet) :
    ((written J O (L0 :: Ls) 0).map Prod.snd).take 8 = globalItems (L0 :: Ls) := by
  have hp : O.print = true := by by_contra h; exact hq (Or.inl (by simpa using h))
  have hl : O.lev ≠ .none := fun h => hq (Or.inr h)
  obtain ⟨h1, h2, h3, h4, h5, h6⟩ := logged_zero (J := J) hL hl
  have key : ∀ (s : List (Dest × Item)) (out : Dest) (g : Log), (([(out, .vComp g.vComp), (out, .opComp g.opComp), (out, .vcc g.vcc), (out, .occ g.occ),
      (.console, .nvs g.nvs), (.console, .nes g.nes), (.console, .nps g.nps), (.console, .nzes g.nzes)] ++ s : List (Dest × Item)).map Prod.snd).take 8 =
      [.vComp g.vComp, .opComp g.opComp, .vcc g.vcc, .occ g.occ, .nvs g.nvs, .nes g.nes, .nps g.nps, .nzes g.nzes] := fun s out g => by simp
  have hw : written J O (L0 :: Ls) 0 = lines O.lev (if O.toFile then .file else .console) (finDone 0 O.lev (logged J 0 O.lev (L0 :: Ls) {})) := by
    simp [written, hp, hl]
  rw [hw, lines, key]
  have hf : ∀ g : Log, (finDone 0 O.lev g).vComp = (scaled g.vcc (g.vcc.headD 0)).sum ∧ (finDone 0 O.lev g).opComp = (scaled g.occ (g.occ.headD 0)).sum ∧
      (finDone 0 O.lev g).vcc = scaled g.vcc (g.vcc.headD 0) ∧ (finDone 0 O.lev g).occ = scaled g.occ (g.occ.headD 0) ∧ (finDone 0 O.lev g).nvs = g.nvs ∧
      (finDone 0 O.lev g).nes = g.nes ∧ (finDone 0 O.lev g).nps = g.nps ∧ (finDone 0 O.lev g).nzes = g.nzes := fun g => by
    simp only [finDone, if_neg hl]
    split <;> simp [globalDone, locDone]
  obtain ⟨f1, f2, f3, f4, f5, f6, f7, f8⟩ := hf (logged J 0 O.lev (L0 :: Ls) {})
  rw [f1, f2, f3, f4, f5, f6, f7, f8, h1, h2, h3, h4, h5, h6, scaled_sum, scaled_sum]
  simp [globalItems, vertexComplexity, operatorComplexity, scaled]

/-- C104: unless the summary with local information goes to a file, every execution finishes; process zero, and only that, writes the summary, with the
complexities and the sizes of all levels -/
theorem summary_written (hL : LevelsOK n Ls) (hne : Ls ≠ []) (hh : ¬(O.print = true ∧ O.toFile = true ∧ O.lev.small = false ∧ 1 < n)) :
    ∃ a : ℕ → List (Dest × Item), AllFinish J (setup O Ls) (fun p => some (a p)) ∧ (∀ p ≠ 0, a p = []) ∧ (O.quiet → a 0 = []) ∧
      (¬O.quiet → ((a 0).map Prod.snd).take 8 = globalItems Ls) := by
  obtain ⟨L0, Ls, rfl⟩ := List.exists_cons_of_ne_nil hne
  refine ⟨written J O (L0 :: Ls), finish_written hL hh, fun p hp => by simp [written, hp], fun hq => ?_, fun hq => items_global hL hq⟩
  rcases hq with hq | hq <;> simp [written, hq]

theorem local_val (p : ℕ) (Ls : List Level) (m : Level → ℕ) :
    (scaled ((own p Ls).map fun L => (m L : ℚ)) (max (((own p Ls).map fun L => (m L : ℚ)).headD 0) 1)).sum = localComplexity p Ls m := scaled_sum _ _

/-- C104: the lines about local complexities are those of process zero. The full claim is that they are right (`LocalRight`). -/
theorem local_partial (hL : LevelsOK n Ls) (hne : Ls ≠ []) (hp : O.print = true) (hs : O.lev.small = false) (hf : O.toFile = false ∨ n = 1) :
    ∃ a : ℕ → List (Dest × Item), AllFinish J (setup O Ls) (fun p => some (a p)) ∧
      ((a 0).map Prod.snd).drop 8 = [.locV (localComplexity 0 Ls (ownVerts 0)) 0 (localComponents 0 Ls (ownVerts 0)),
        .locOp (localComplexity 0 Ls (ownSize 0)) 0 (localComponents 0 Ls (ownSize 0))] ∧
      (n = 1 → LocalRight n Ls ownVerts (localComplexity 0 Ls (ownVerts 0)) 0 ∧ LocalRight n Ls ownSize (localComplexity 0 Ls (ownSize 0)) 0) := by
  obtain ⟨L0, Ls, rfl⟩ := List.exists_cons_of_ne_nil hne
  have hl : O.lev ≠ .none := by intro e; rw [e] at hs; cases hs
  refine ⟨written J O (L0 :: Ls), finish_written hL ?_, ?_⟩
  · rintro ⟨-, h1, -, h2⟩
    rcases hf with hf | hf
    · rw [hf] at h1; cases h1
    · omega
  · obtain ⟨h1, h2⟩ := logged_loc (J := J) hL hs 0
    have hw : written J O (L0 :: Ls) 0 = lines O.lev (if O.toFile then .file else .console) (finDone 0 O.lev (logged J 0 O.lev (L0 :: Ls) {})) := by
      simp [written, hp, hl]
    refine ⟨?_, ?_⟩
    · rw [hw]
      have hg : finDone 0 O.lev (logged J 0 O.lev (L0 :: Ls) {}) = locDone (globalDone 0 (logged J 0 O.lev (L0 :: Ls) {})) := by simp [finDone, hl, hs]
      have e1 : (globalDone 0 (logged J 0 O.lev (L0 :: Ls) {})).vccl = (own 0 (L0 :: Ls)).map fun L => (ownVerts 0 L : ℚ) := h1
      have e2 : (globalDone 0 (logged J 0 O.lev (L0 :: Ls) {})).occl = (own 0 (L0 :: Ls)).map fun L => (ownSize 0 L : ℚ) := h2
      rw [hg]
      simp only [lines, hs, locDone, e1, e2, local_val]
      simp [localComponents, scaled]
    · rintro rfl
      refine ⟨⟨one_pos, rfl, fun p hp => ?_⟩, one_pos, rfl, fun p hp => ?_⟩ <;>
      · obtain rfl : p = 0 := by omega
        exact le_rfl

/-- C104 is violated: with a file and local information, on more than one process, no execution finishes; process zero waits for the others -/
theorem file_hang (hL : LevelsOK n Ls) (hne : Ls ≠ []) (hp : O.print = true) (hf : O.toFile = true) (hs : O.lev.small = false) (hn : 1 < n) :
    AllHang J (setup O Ls) 0 := by
  obtain ⟨L0, Ls, rfl⟩ := List.exists_cons_of_ne_nil hne
  have hl : O.lev ≠ .none := by intro e; rw [e] at hs; cases hs
  have h0 : (0 : ℕ) < n := by omega
  obtain ⟨h1, h2⟩ := (fin_nonempty (J := J) hL O.lev).1 hl
  have hg := global_eq h0 (logged J 0 O.lev (L0 :: Ls) {}) fun _ => ⟨h1, h2⟩
  obtain ⟨h3, h4⟩ := (fin_nonempty (J := J) hL O.lev).2 hs 0 h0
  have e3 : (globalDone 0 (logged J 0 O.lev (L0 :: Ls) {})).vccl ≠ [] := h3
  have e4 : (globalDone 0 (logged J 0 O.lev (L0 :: Ls) {})).occl ≠ [] := h4
  obtain ⟨v0, vs, e3⟩ := List.exists_cons_of_ne_nil e3
  obtain ⟨o0, os, e4⟩ := List.exists_cons_of_ne_nil e4
  have hst : ∃ x k, summary (List.range n) 0 O (logged J 0 O.lev (L0 :: Ls) {}) = .amin (List.range n) x k := by
    simp only [summary, hp, hf, if_true, printToFile, idx_range h0, printLog, finalize, if_neg hl, hg, hs, loc, e3, e4, alam, List.length_range, if_pos hn]
    exact ⟨_, _, rfl⟩
  obtain ⟨x, k, hst⟩ := hst
  refine ⟨_, (endsIn_self ?_).backs (setup_steps hL O), ?_⟩
  · have hoth : ∀ p, p ≠ 0 → (if p ∈ List.range n then summary (List.range n) p O (logged J p O.lev (L0 :: Ls) {}) else .ret (some [])) = Prog.ret (some []) := by
      intro p h
      by_cases m : p ∈ List.range n
      · rw [if_pos m]
        simp [summary, hp, hf, printToFile, idx_range (List.mem_range.1 m), h]
      · rw [if_neg m]
    have hz : (if 0 ∈ List.range n then summary (List.range n) 0 O (logged J 0 O.lev (L0 :: Ls) {}) else .ret (some [])) = Prog.amin (List.range n) x k := by
      rw [if_pos (List.mem_range.2 h0), hst]
    rintro ⟨_, c, m, hr, -⟩
    cases hr with
    | red _ x' k' hc h =>
      obtain ⟨p, hpc⟩ := List.exists_mem_of_ne_nil c hc
      have := h p hpc
      by_cases e : p = 0
      · subst e; rw [hz] at this; cases this
      · rw [hoth p e] at this; cases this
    | amin _ x' k' hc h =>
      obtain ⟨p, hpc⟩ := List.exists_mem_of_ne_nil c hc
      have := h p hpc
      by_cases e : p = 0
      · subst e
        rw [hz] at this
        injection this with ec
        have h1c : 1 ∈ c := ec ▸ List.mem_range.2 hn
        have := h 1 h1c
        rw [hoth 1 one_ne_zero] at this
        cases this
      · rw [hoth p e] at this; cases this
    | msg p q d k1 k2 hpq hp' hq' =>
      by_cases e : p = 0
      · subst e; rw [hz] at hp'; cases hp'
      · rw [hoth p e] at hp'; cases hp'
  · intro a
    rw [if_pos (List.mem_range.2 h0), hst]
    exact fun h => by cases h

/-- C104 is violated: of a summary that goes to a file, the numbers of vertices, edges, processes and entries are written to the console -/
theorem file_incomplete (hL : LevelsOK n Ls) (hne : Ls ≠ []) (hq : ¬O.quiet) (hf : O.toFile = true) (hs : O.lev.small = true) :
    ∃ a : ℕ → List (Dest × Item), AllFinish J (setup O Ls) (fun p => some (a p)) ∧
      ((a 0).filter fun x => decide (x.1 = .console)).map Prod.snd = ((globalItems Ls).drop 4) := by
  obtain ⟨L0, Ls, rfl⟩ := List.exists_cons_of_ne_nil hne
  refine ⟨written J O (L0 :: Ls), finish_written hL (by rintro ⟨-, -, h, -⟩; rw [hs] at h; cases h), ?_⟩
  have hp : O.print = true := by by_contra h; exact hq (Or.inl (by simpa using h))
  have hl : O.lev ≠ .none := fun h => hq (Or.inr h)
  rw [← items_global (J := J) hL hq]
  have hw : written J O (L0 :: Ls) 0 = lines O.lev .file (finDone 0 O.lev (logged J 0 O.lev (L0 :: Ls) {})) := by
    simp [written, hp, hl, hf]
  rw [hw]
  simp [lines, hs]

/-! ### concrete cases -/

/-- two levels on two processes, and one on one process -/
def exLevels : List Level :=
  [⟨[0, 1], 190, 400, fun p => if p = 0 then 100 else 90, fun p => if p = 0 then 500 else 450, 4⟩,
   ⟨[0, 1], 70, 150, fun p => if p = 0 then 10 else 60, fun p => if p = 0 then 60 else 300, 9⟩,
   ⟨[0], 5, 10, fun p => if p = 0 then 5 else 0, fun p => if p = 0 then 25 else 0, 9⟩]

theorem exLevels_ok : LevelsOK 2 exLevels where
  first L h := by
    simp only [exLevels, List.head?_cons, Option.some.injEq] at h
    subst h; rfl
  nodup L h := by
    simp only [exLevels, List.mem_cons, List.not_mem_nil, or_false] at h
    rcases h with rfl | rfl | rfl <;> decide
  nested := by
    simp [exLevels]
  zero L h := by
    simp only [exLevels, List.mem_cons, List.not_mem_nil, or_false] at h
    rcases h with rfl | rfl | rfl <;> rfl

/-- the hypotheses of `summary_written` hold, and the complexities are not trivial -/
example (J : ℕ → List ℕ → ℕ → ℕ) : (∃ a : ℕ → List (Dest × Item), AllFinish J (setup { lev := .dbg } exLevels) (fun p => some (a p)) ∧ (∀ p ≠ 0, a p = []) ∧
    ((a 0).map Prod.snd).take 8 = globalItems exLevels) ∧ vertexComplexity exLevels = 265 / 190 ∧ operatorComplexity exLevels = 7265 / 3800 := by
  obtain ⟨a, h1, h2, -, h3⟩ := summary_written (J := J) (O := { lev := .dbg }) exLevels_ok (by simp [exLevels]) (by simp)
  refine ⟨⟨a, h1, h2, h3 ?_⟩, by decide +kernel, by decide +kernel⟩
  rintro (h | h) <;> cases h

/-- C104 is violated: the line about the largest local complexity names the wrong process and a complexity that is not the largest one -/
theorem local_wrong (J : ℕ → List ℕ → ℕ → ℕ) : LevelsOK 2 exLevels ∧ ∃ a : ℕ → List (Dest × Item),
    AllFinish J (setup { lev := .extra } exLevels) (fun p => some (a p)) ∧
      (∃ x r c, .locV x r c ∈ (a 0).map Prod.snd ∧ ¬LocalRight 2 exLevels ownVerts x r) ∧
      ∃ x r c, .locOp x r c ∈ (a 0).map Prod.snd ∧ ¬LocalRight 2 exLevels ownSize x r := by
  obtain ⟨a, h1, h2, -⟩ := local_partial (J := J) (O := { lev := .extra }) exLevels_ok (by simp [exLevels]) rfl rfl (Or.inl rfl)
  refine ⟨exLevels_ok, a, h1, ⟨_, _, _, List.mem_of_mem_drop (i := 8) (by rw [h2]; exact List.mem_cons_self), fun h => ?_⟩,
    _, _, _, List.mem_of_mem_drop (i := 8) (by rw [h2]; exact List.mem_cons_of_mem _ List.mem_cons_self), fun h => ?_⟩
  · exact absurd (h.2.2 1 one_lt_two) (by decide +kernel)
  · exact absurd (h.2.2 1 one_lt_two) (by decide +kernel)

/-- the hypotheses of `local_partial` with one process hold -/
example : LevelsOK 1 [⟨[0], 5, 10, fun _ => 5, fun _ => 25, 9⟩] where
  first L h := by
    simp only [List.head?_cons, Option.some.injEq] at h
    subst h; rfl
  nodup L h := by obtain rfl := List.mem_singleton.1 h; decide
  nested := by simp
  zero L h := by obtain rfl := List.mem_singleton.1 h; rfl

/-- the hypotheses of `file_hang` hold -/
example (J : ℕ → List ℕ → ℕ → ℕ) : AllHang J (setup { lev := .extra, toFile := true } exLevels) 0 :=
  file_hang exLevels_ok (by simp [exLevels]) rfl rfl rfl one_lt_two

/-- the hypotheses of `file_incomplete` hold -/
example (J : ℕ → List ℕ → ℕ → ℕ) : ∃ a : ℕ → List (Dest × Item), AllFinish J (setup { toFile := true } exLevels) (fun p => some (a p)) ∧
    (Dest.console, Item.nvs [190, 70, 5]) ∈ a 0 := by
  obtain ⟨a, h1, h2⟩ := file_incomplete (J := J) (O := { toFile := true }) exLevels_ok (by simp [exLevels]) (by rintro (h | h) <;> cases h) rfl rfl
  refine ⟨a, h1, ?_⟩
  have : Item.nvs [190, 70, 5] ∈ ((a 0).filter fun x => decide (x.1 = .console)).map Prod.snd := by
    rw [h2]; decide +kernel
  obtain ⟨x, hx, he⟩ := List.mem_map.1 this
  obtain ⟨h3, h4⟩ := List.mem_filter.1 hx
  have h4 := of_decide_eq_true h4
  have : x = (Dest.console, Item.nvs [190, 70, 5]) := Prod.ext h4 he
  exact this ▸ h3

end NgsAMG.SLog
