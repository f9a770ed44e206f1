import Verif.Props.HybridDyn3
import Verif.Props.ModDiag3

/-! C84, fourth part: the modified diagonal of `HybridDynBlockSmoother`. -/

namespace NgsAMG.HybDyn
open NgsAMG.DCC NgsAMG.Hybrid NgsAMG.HybSm NgsAMG.DynBlock NgsAMG.GS NgsAMG.Spec NgsAMG.BlkGS Matrix

theorem iterateD_ok {A : CSR ℝ} (hA : A.WF) (hd : HasDiag A) {D : Dyn ℝ} (bs : List (RowBlock ℝ)) (hb : ∀ b ∈ bs, BlockOK A D b) (dp : ℕ → ℕ) :
    ∃ calls, iterateD D dp bs = some calls ∧ (∀ e ∈ calls, e.2 = A.entry e.1 e.1) ∧ ∀ b ∈ bs, D.scols b ≠ [] → ∀ r ∈ D.srows b, ∃ e ∈ calls, e.1 = r := by
  induction bs generalizing dp with
  | nil => exact ⟨[], rfl, by simp, by simp⟩
  | cons b bs ih =>
    have hok := hb b List.mem_cons_self
    have hsz : ¬ (D.maxRows < (D.srows b).length ∨ D.maxCols < (D.scols b).length) := by
      have h1 := hok.mr
      have h2 := hok.mc
      rintro (h | h)
      · exact absurd h1 (by rw [not_le]; exact h)
      · exact absurd h2 (by rw [not_le]; exact h)
    rw [iterateD]
    dsimp only
    rw [if_neg hsz]
    by_cases hc : (D.scols b).length = 0
    · obtain ⟨calls, h1, h2, h3⟩ := ih (fun c hc => hb c (List.mem_cons_of_mem _ hc)) dp
      refine ⟨calls, by rw [if_pos hc, h1], h2, fun c hcm hne r hr => ?_⟩
      rcases List.mem_cons.1 hcm with rfl | hcm
      · exact absurd (List.length_eq_zero_iff.1 hc) hne
      · exact h3 c hcm hne r hr
    · have hne : D.scols b ≠ [] := fun h => hc (by rw [h]; rfl)
      rw [if_neg hc]
      have hany : ¬ ((List.range (D.srows b).length).any fun j => decide ((D.scols b).length ≤ diagPos dp (D.srows b) (D.scols b) j)) = true := by
        rw [List.any_eq_true]
        rintro ⟨j, hj, h⟩
        rw [List.mem_range] at hj
        have := (hok.diagAt hA hd hne (List.getElem?_eq_getElem hj) dp).1
        rw [decide_eq_true_eq] at h
        omega
      rw [if_neg hany]
      obtain ⟨calls, h1, h2, h3⟩ := ih (fun c hc => hb c (List.mem_cons_of_mem _ hc)) (diagPos dp (D.srows b) (D.scols b))
      rw [h1]
      refine ⟨_, rfl, ?_, ?_⟩
      · intro e he
        rcases List.mem_append.1 he with he | he
        · obtain ⟨x, hx, rfl⟩ := List.mem_map.1 he
          have hx' := List.mem_zipIdx_iff_getElem?.1 hx
          exact hok.value hA hx' (hok.diagAt hA hd hne hx' dp).2
        · exact h2 e he
      · intro c hcm hcne r hr
        rcases List.mem_cons.1 hcm with rfl | hcm
        · obtain ⟨l, hl, rfl⟩ := List.getElem_of_mem hr
          refine ⟨_, List.mem_append_left _ (List.mem_map.2 ⟨((D.srows c)[l], l), List.mem_zipIdx_iff_getElem?.2 (List.getElem?_eq_getElem hl), rfl⟩), rfl⟩
        · obtain ⟨e, he, h⟩ := h3 c hcm hcne r hr
          exact ⟨e, List.mem_append_right _ he, h⟩

theorem scalOrig_eq {f : ℕ → ℝ} (calls : List (ℕ × ℝ)) (h : ∀ e ∈ calls, e.2 = f e.1) (h0 : ∀ d, (∀ e ∈ calls, e.1 ≠ d) → f d = 0) : scalOrig calls = f := by
  have key : ∀ (calls : List (ℕ × ℝ)) (o : ℕ → ℝ), (∀ e ∈ calls, e.2 = f e.1) → ∀ d, (calls.foldl (fun o e => Function.update o e.1 e.2) o) d = if ∃ e ∈ calls, e.1 = d then f d else o d := by
    intro calls
    induction calls with
    | nil => intro o _ d; simp
    | cons e calls ih =>
      intro o h d
      rw [List.foldl_cons, ih _ fun e he => h e (List.mem_cons_of_mem _ he)]
      by_cases h1 : ∃ e ∈ calls, e.1 = d
      · rw [if_pos h1, if_pos ⟨h1.choose, List.mem_cons_of_mem _ h1.choose_spec.1, h1.choose_spec.2⟩]
      · rw [if_neg h1]
        by_cases h2 : e.1 = d
        · rw [if_pos ⟨e, List.mem_cons_self, h2⟩, ← h2, Function.update_self, h e List.mem_cons_self]
        · rw [if_neg, Function.update_of_ne (Ne.symm h2)]
          rintro ⟨x, hx, rfl⟩
          rcases List.mem_cons.1 hx with rfl | hx
          · exact h2 rfl
          · exact h1 ⟨x, hx, rfl⟩
  funext d
  rw [scalOrig, key calls _ h]
  by_cases h1 : ∃ e ∈ calls, e.1 = d
  · rw [if_pos h1]
  · rw [if_neg h1, h0 d fun e he hed => h1 ⟨e, he, hed⟩]
    rfl

/-- the first loop collects the diagonal -/
theorem iterateD_diag {A : CSR ℝ} (hA : A.WF) (hd : HasDiag A) {D : Dyn ℝ} (hD : DynOK A D) (dp : ℕ → ℕ) :
    ∃ calls, iterateD D dp D.blocks = some calls ∧ scalOrig calls = fun d => A.entry d d := by
  obtain ⟨calls, h1, h2, h3⟩ := iterateD_ok hA hd D.blocks hD.blocks dp
  refine ⟨calls, h1, scalOrig_eq calls h2 fun d hnot => entry_notmem A fun hm => ?_⟩
  have hl := cols_lt hA hm
  obtain ⟨b, hb, hr⟩ := hD.cover d hl.1
  have hs := (hD.blocks b hb).same d hr
  obtain ⟨e, he, hed⟩ := h3 b hb (fun h0 => by rw [show D.colB.scalNums b.cols = D.scols b from rfl, h0] at hs; rw [hs] at hm; cases hm) d hr
  exact hnot e he hed

/-- the second loop hands over the rows with entries, each once -/
theorem iterateOD_ok {A : CSR ℝ} (hA : A.WF) {D : Dyn ℝ} (hD : DynOK A D) :
    ((iterateOD D D.blocks).map Prod.fst).Nodup ∧ (∀ e ∈ iterateOD D D.blocks, e.2 = A.row e.1) ∧ ∀ d, A.row d ≠ [] → d ∈ (iterateOD D D.blocks).map Prod.fst := by
  have hkeys : (iterateOD D D.blocks).map Prod.fst = D.blocks.flatMap fun b => if D.scols b = [] then [] else D.srows b := by
    rw [iterateOD, List.map_flatMap]
    congr 1
    funext b
    by_cases hc : D.scols b = []
    · simp [hc]
    · have : 0 < (D.scols b).length := List.length_pos_iff.2 hc
      rw [if_neg hc]
      simp only [gt_iff_lt, this, if_true, List.map_map]
      exact List.zipIdx_map_fst 0 _
  refine ⟨?_, ?_, ?_⟩
  · rw [hkeys, List.nodup_flatMap]
    constructor
    · intro b hb
      split
      · exact List.nodup_nil
      · exact (hD.blocks b hb).sorted.imp fun h => Nat.ne_of_lt h
    · have : D.blocks.Pairwise fun a b => lexiLess (D.scols a) (D.scols b) = true ∧ a ∈ D.blocks ∧ b ∈ D.blocks := by
        rw [List.pairwise_iff_forall_sublist] at *
        intro a b hs
        exact ⟨(List.pairwise_iff_forall_sublist.1 hD.order) hs, hs.subset (by simp), hs.subset (by simp)⟩
      refine this.imp fun {a b} ⟨h1, ha, hb⟩ => ?_
      show List.Disjoint (if D.scols a = [] then [] else D.srows a) (if D.scols b = [] then [] else D.srows b)
      intro d hda hdb
      have e1 : d ∈ D.srows a := by
        split at hda
        · cases hda
        · exact hda
      have e2 : d ∈ D.srows b := by
        split at hdb
        · cases hdb
        · exact hdb
      have : D.scols a = D.scols b := ((hD.blocks a ha).same d e1).symm.trans ((hD.blocks b hb).same d e2)
      rw [this, lexiLess_irrefl] at h1
      cases h1
  · intro e he
    rw [iterateOD, List.mem_flatMap] at he
    obtain ⟨b, hb, he⟩ := he
    dsimp only at he
    split at he
    · obtain ⟨x, hx, rfl⟩ := List.mem_map.1 he
      have hx' := List.mem_zipIdx_iff_getElem?.1 hx
      have hs := (hD.blocks b hb).same x.1 (List.mem_of_getElem? hx')
      have hs' : (A.row x.1).map Prod.fst = D.scols b := hs
      show List.map _ _ = A.row x.1
      refine List.ext_getElem ?_ ?_
      · rw [List.length_map, List.length_zipIdx, ← hs', List.length_map]
      · intro n h1 h2
        rw [List.getElem_map, List.getElem_zipIdx]
        have hn : n < (D.scols b).length := by rw [← hs', List.length_map]; exact h2
        have hv := (hD.blocks b hb).value hA hx' (List.getElem?_eq_getElem hn)
        have hcn : (D.scols b)[n] = (A.row x.1)[n].1 := by
          simp only [← hs', List.getElem_map]
        rw [Nat.zero_add]
        refine Prod.ext hcn ?_
        show b.data.getD (x.2 * (D.scols b).length + n) 0 = _
        rw [hv, hcn]
        have := entry_at A hA x.1 n (A.row x.1)[n].1 (by rw [cols, List.getElem?_map, List.getElem?_eq_getElem h2]; rfl)
        rw [← this, List.getD_eq_getElem?_getD, List.getElem?_map, List.getElem?_eq_getElem h2]
        rfl
    · cases he
  · intro d hd
    have hm : ∃ j, j ∈ cols A d := by
      obtain ⟨x, hx⟩ := List.exists_mem_of_ne_nil _ hd
      exact ⟨x.1, List.mem_map_of_mem hx⟩
    obtain ⟨j, hj⟩ := hm
    obtain ⟨b, hb, hr⟩ := hD.cover d (cols_lt hA hj).1
    rw [hkeys, List.mem_flatMap]
    refine ⟨b, hb, ?_⟩
    have hs := (hD.blocks b hb).same d hr
    rw [if_neg]
    · exact hr
    · intro h0
      rw [show D.colB.scalNums b.cols = D.scols b from rfl, h0] at hs
      rw [hs] at hj
      cases hj

theorem scalAdd_eq (orig : ℕ → ℝ) (free : Option (ℕ → Bool)) (row : ℕ → List (ℕ × ℝ)) (calls : List (ℕ × List (ℕ × ℝ))) (hn : (calls.map Prod.fst).Nodup)
    (hc : ∀ e ∈ calls, e.2 = row e.1) (h0 : ∀ d, row d ≠ [] → d ∈ calls.map Prod.fst) (d : ℕ) :
    scalAdd orig free calls d = if inSubset free d then (row d).foldl (fun s c => s + |c.2| / (√(orig d) * √(orig c.1))) 0 else 0 := by
  have key : ∀ (calls : List (ℕ × List (ℕ × ℝ))) (ad : ℕ → ℝ), (calls.map Prod.fst).Nodup → (∀ e ∈ calls, e.2 = row e.1) → ∀ d,
      (calls.foldl (fun ad e => if inSubset free e.1 then Function.update ad e.1 (e.2.foldl (fun s c => s + |c.2| / (√(orig e.1) * √(orig c.1))) (ad e.1)) else ad) ad) d =
      if inSubset free d ∧ d ∈ calls.map Prod.fst then (row d).foldl (fun s c => s + |c.2| / (√(orig d) * √(orig c.1))) (ad d) else ad d := by
    intro calls
    induction calls with
    | nil => intro ad _ _ d; simp
    | cons e calls ih =>
      intro ad hn hc d
      rw [List.map_cons, List.nodup_cons] at hn
      rw [List.foldl_cons, ih _ hn.2 fun e he => hc e (List.mem_cons_of_mem _ he)]
      have he := hc e List.mem_cons_self
      by_cases hd : d = e.1
      · subst hd
        rw [if_neg fun h => hn.1 h.2]
        by_cases hf : inSubset free e.1 = true
        · rw [if_pos hf, if_pos ⟨hf, by simp⟩, Function.update_self, he]
        · rw [if_neg hf, if_neg fun h => hf h.1]
      · have : (if inSubset free e.1 = true then Function.update ad e.1 (e.2.foldl (fun s c => s + |c.2| / (√(orig e.1) * √(orig c.1))) (ad e.1)) else ad) d = ad d := by
          split
          · rw [Function.update_of_ne hd]
          · rfl
        rw [this]
        refine if_congr (and_congr_right fun _ => ?_) rfl rfl
        rw [List.map_cons, List.mem_cons]
        exact ⟨.inr, fun h => h.resolve_left hd⟩
  rw [scalAdd, key calls 0 hn hc]
  by_cases hf : inSubset free d = true
  · by_cases hr : row d = []
    · rw [hr]; simp
    · rw [if_pos ⟨hf, h0 d hr⟩, if_pos hf]; rfl
  · rw [if_neg fun h => hf h.1, if_neg hf]; rfl

/-- the dynamic matrices of the two parts: those that `finalize` makes (C17) -/
structure DynParts (P : PD) (M : ℕ → CSR (Blk 1)) (G : ℕ → Option (CSR (Blk 1))) (D : ℕ → Dyn ℝ) (DG : ℕ → Option (Dyn ℝ)) : Prop where
  m : ∀ p < P.np, DynOK (toScal (M p)) (D p)
  none : ∀ p < P.np, G p = none → DG p = none
  some : ∀ p < P.np, ∀ g, G p = some g → ∃ E, DG p = some E ∧ DynOK (toScal g) E

theorem start_eq {P : PD} {M : ℕ → CSR (Blk 1)} {G : ℕ → Option (CSR (Blk 1))} {D : ℕ → Dyn ℝ} {DG : ℕ → Option (Dyn ℝ)} (hD : DynParts P M G D DG) (dp0 : ℕ → ℕ → ℕ) {p : ℕ} (hp : p < P.np)
    (hM : (M p).WF) (hd : HasDiag (M p)) : scalStart D dp0 p = ModDiag.start M p := by
  have hd' : HasDiag (toScal (M p)) := by intro i hi; rw [toScal_cols] at hi ⊢; exact hd i hi
  obtain ⟨calls, h1, h2⟩ := iterateD_diag (toScal_wf hM) hd' (hD.m p hp) (dp0 p)
  rw [scalStart, ModDiag.start, h1]
  show ModDiag.Vars.mk (some _) none none = ModDiag.Vars.mk (some _) none none
  congr 2
  funext d a b
  rw [Subsingleton.elim a 0, Subsingleton.elim b 0, CSR.lookup_eq_entry _ hM]
  refine (congrFun h2 d).trans ?_
  exact toScal_entry _ _ _

theorem add_eq {P : PD} {M : ℕ → CSR (Blk 1)} {G : ℕ → Option (CSR (Blk 1))} {D : ℕ → Dyn ℝ} {DG : ℕ → Option (Dyn ℝ)} (hD : DynParts P M G D DG) {p : ℕ} (hp : p < P.np)
    (hG : ((G p).getD emptyM).WF) (free : Option (ℕ → Bool)) (orig : ℕ → Blk 1) :
    (fun d (_ : Fin 1) => scalAdd (fun d => orig d 0 0) free (match DG p with | some D => iterateOD D D.blocks | none => []) d) =
      ModDiag.addDiag orig ((G p).getD ⟨0, 0, fun _ => []⟩) free := by
  funext d l
  rw [Subsingleton.elim l 0]
  cases hg : G p with
  | none =>
    rw [hD.none p hp hg]
    show scalAdd _ _ [] d = _
    rw [scalAdd, ModDiag.addDiag]
    split <;> rfl
  | some g =>
    obtain ⟨E, hE, hok⟩ := hD.some p hp g hg
    rw [hg] at hG
    obtain ⟨h1, h2, h3⟩ := iterateOD_ok (toScal_wf hG) hok
    rw [hE]
    show scalAdd _ _ (iterateOD E E.blocks) d = _
    rw [scalAdd_eq _ free (toScal g).row _ h1 h2 h3, ModDiag.addDiag]
    split
    · rw [ModDiag.addRow_eq, ModDiag.foldl_add_sum, zero_add]
      show (((g.row d).map fun e => (e.1, e.2 0 0)).map _).sum = _
      rw [List.map_map]
      congr 1
      refine List.map_congr_left fun e _ => ?_
      simp [ModDiag.scalSqrt]
    · rfl

theorem matched_calcScal (P : PD) (DG : ℕ → Option (Dyn ℝ)) (free : ℕ → Option (ℕ → Bool)) : Exch.Matched P.np (calcScalModDiag P DG free) := by
  intro ph hph p hp
  simp only [calcScalModDiag, List.mem_cons, List.not_mem_nil, or_false] at hph
  rcases hph with rfl | rfl
  · exact AR.matched_allReduce (P := P) (· + ·) (0 : Blk 1) _ (List.mem_singleton.2 rfl) p hp
  · exact AR.matched_allReduce (P := P) (· + ·) (0 : Fin 1 → ℝ) _ (List.mem_singleton.2 rfl) p hp

theorem run_eq {P : PD} {M : ℕ → CSR (Blk 1)} {G : ℕ → Option (CSR (Blk 1))} {D : ℕ → Dyn ℝ} {DG : ℕ → Option (Dyn ℝ)} (hD : DynParts P M G D DG) (dp0 : ℕ → ℕ → ℕ)
    (hM : ∀ p < P.np, (M p).WF ∧ HasDiag (M p) ∧ ((G p).getD emptyM).WF) (free : ℕ → Option (ℕ → Bool)) {p : ℕ} (hp : p < P.np) :
    Exch.run (calcScalModDiag P DG free) (scalStart D dp0) p = Exch.run (ModDiag.calcModDiag P G free) (ModDiag.start M) p := by
  have hs : ∀ q < P.np, scalStart D dp0 q = ModDiag.start M q := fun q hq => start_eq hD dp0 hq (hM q hq).1 (hM q hq).2.1
  have h1 : ∀ q < P.np, Exch.runPhase (scalPhase1 P DG free) (scalStart D dp0) q = Exch.runPhase (ModDiag.phase1 P G free) (ModDiag.start M) q := by
    intro q hq
    have hrecv : (fun r => if (scalPhase1 P DG free).recvs q r = true then (scalPhase1 P DG free).msg r (scalStart D dp0 r) q else default) =
        fun r => if (ModDiag.phase1 P G free).recvs q r = true then (ModDiag.phase1 P G free).msg r (ModDiag.start M r) q else default := by
      funext r
      by_cases hr : (ModDiag.phase1 P G free).recvs q r = true
      · have hrn := (ModDiag.matched_calcModDiag G free _ List.mem_cons_self q hq).2.2 r hr
        rw [if_pos hr, if_pos (show (scalPhase1 P DG free).recvs q r = true from hr), hs r hrn]
        rfl
      · rw [if_neg hr, if_neg (show ¬ (scalPhase1 P DG free).recvs q r = true from hr)]
    rw [Exch.runPhase, Exch.runPhase, hrecv]
    show ModDiag.Vars.mk _ _ _ = ModDiag.Vars.mk _ _ _
    have e0 : (scalPhase1 P DG free).start q (scalStart D dp0 q) = ModDiag.start M q := hs q hq
    rw [e0]
    have hadd := add_eq hD hq (hM q hq).2.2 (free q)
    congr 1
    refine congrArg (fun f => Option.map f _) ?_
    funext orig
    exact hadd orig
  show Exch.runPhase (ModDiag.phase2 P free) (Exch.runPhase (scalPhase1 P DG free) (scalStart D dp0)) p = Exch.runPhase (ModDiag.phase2 P free) (Exch.runPhase (ModDiag.phase1 P G free) (ModDiag.start M)) p
  unfold Exch.runPhase at h1 ⊢
  rw [h1 p hp]
  congr 1
  funext r
  by_cases hr : (ModDiag.phase2 (k := 1) P free).recvs p r = true
  · have hrn := (ModDiag.matched_calcModDiag G free _ (List.mem_cons_of_mem _ List.mem_cons_self) p hp).2.2 r hr
    rw [if_pos hr, if_pos hr, h1 r hrn]
  · rw [if_neg hr, if_neg hr]

/-- **C84**: in every complete run `CalcScalModDiag` gives each free unknown on its process the diagonal of the global matrix times the factor of C52 -/
theorem calcScalModDiag_correct {P : PD} (hP : P.WF) {A M : ℕ → CSR (Blk 1)} {G : ℕ → Option (CSR (Blk 1))} (hMG : ∀ p < P.np, LocalSpec P A p (M p) (G p))
    (hdiag : ∀ p < P.np, HasDiag (M p)) {D : ℕ → Dyn ℝ} {DG : ℕ → Option (Dyn ℝ)} (hD : DynParts P M G D DG) (dp0 : ℕ → ℕ → ℕ) (free : ℕ → Option (ℕ → Bool)) (F : ℕ → Bool)
    (hF : ∀ p < P.np, ∀ d < P.ndof p, inSubset (free p) d = F (P.glob p d)) {n : ℕ} {s : Exch.St (ModDiag.Vars 1) (ModDiag.Msg 1)}
    (hr : Exch.Reach P.np (calcScalModDiag P DG free) (scalStart D dp0) n s) (hf : Exch.Final P.np (calcScalModDiag P DG free) s) :
    ∀ p < P.np, ∃ md, scalMd P p (s.vec p) = some md ∧ ∀ d < P.ndof p, P.owner (P.glob p d) = p → F (P.glob p d) = true →
      ∃ f, ModDiag.IsFactor f (ModDiag.strength P A (P.glob p d)) ∧ mdE (toScal (M p)) md d d = f * gop P A (P.glob p d) (P.glob p d) 0 0 := by
  intro p hp
  obtain ⟨n', s', hr', hf'⟩ := Exch.exists_final (ModDiag.matched_calcModDiag (P := P) G free) (ModDiag.start M)
  have e : s.vec p = s'.vec p := by
    rw [(Exch.final_state (matched_calcScal P DG free) hr hf).1 p hp, (Exch.final_state (ModDiag.matched_calcModDiag G free) hr' hf').1 p hp]
    exact run_eq hD dp0 (fun q hq => ⟨(hMG q hq).wfM, hdiag q hq, (hMG q hq).wfG⟩) free hp
  obtain ⟨md, h1, h2⟩ := ModDiag.calcModDiag_correct hP hMG free F hF hr' hf' p hp
  rw [scalMd, e]
  rw [ModDiag.usedDiag] at h1
  by_cases hex : (P.exProcs p).isEmpty = true
  · rw [if_pos hex] at h1 ⊢
    refine ⟨none, rfl, fun d hd ho hfr => ?_⟩
    obtain ⟨f, hf1, hf2⟩ := h2 d hd ho hfr
    refine ⟨f, hf1, ?_⟩
    rw [mdE, toScal_entry, ← CSR.lookup_eq_entry _ (hMG p hp).wfM]
    have h3 := congrFun (Option.some.inj h1) d
    replace h3 : (M p).lookup d d = md d := h3
    rw [h3, hf2]
    rfl
  · rw [if_neg hex] at h1 ⊢
    refine ⟨some fun i => md i 0 0, by rw [h1]; rfl, fun d hd ho hfr => ?_⟩
    obtain ⟨f, hf1, hf2⟩ := h2 d hd ho hfr
    refine ⟨f, hf1, ?_⟩
    rw [mdE, if_pos rfl, hf2]
    rfl

end NgsAMG.HybDyn
