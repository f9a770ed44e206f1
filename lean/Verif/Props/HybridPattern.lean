import Verif.Props.Hybrid
import Verif.Props.DynBlock

/-! C19, pattern of the two parts of the hybrid matrix. -/

namespace NgsAMG.Hybrid
open NgsAMG.DCC NgsAMG.Exch NgsAMG.DynBlock

variable {E : Type}

/-- which entries are stored: in `M` those between two unknowns of this process that some process stores, in `G` the local ones between unknowns of different processes -/
structure PatternSpec (P : PD) (A : ℕ → CSR E) (p : ℕ) (M : CSR E) (G : Option (CSR E)) : Prop where
  patM : ∀ d < P.ndof p, ∀ e < P.ndof p, e ∈ cols M d ↔ P.owner (P.glob p d) = p ∧ P.owner (P.glob p e) = p ∧
    ∃ q < P.np, P.shares q (P.glob p d) = true ∧ P.shares q (P.glob p e) = true ∧ P.loc q (P.glob p e) ∈ cols (A q) (P.loc q (P.glob p d))
  patG : ∀ d < P.ndof p, ∀ e < P.ndof p, e ∈ cols (G.getD emptyM) d ↔ P.owner (P.glob p d) ≠ P.owner (P.glob p e) ∧ e ∈ cols (A p) d
  sqG : ∀ g, G = some g → g.height = P.ndof p ∧ g.width = P.ndof p

/-- **C19**, pattern. -/
theorem decompose_pattern [AddCommMonoid E] {P : PD} (hP : P.WF) (A : ℕ → CSR E) (hA : Fits P A) {p : ℕ} (hp : p < P.np) {M : CSR E} {G : Option (CSR E)}
    (h : decompose P p (A p) (fun q => if (P.exProcs p).contains q = true then spmDiag (A q) (P.gEx q p) else none) = some (M, G)) : PatternSpec P A p M G := by
  obtain ⟨hwf, hH, hW⟩ := hA p hp
  by_cases hex : P.exProcs p = []
  · have hdps : ∀ d < P.ndof p, ∀ q < P.np, P.shares q (P.glob p d) = true → q = p := by
      intro d hd q hq hs
      by_contra hne
      have : q ∈ P.exProcs p := mem_exProcs.2 ⟨hq, d, hd, hne, hs⟩
      rw [hex] at this
      simp at this
    have how : ∀ d < P.ndof p, P.owner (P.glob p d) = p := by
      intro d hd
      have ho := owner_spec hp (shares_glob hd)
      exact hdps d hd _ (by omega) ho.1
    have hMG : M = A p ∧ G = none := by
      have : (A p, (none : Option (CSR E))) = (M, G) := by simpa [decompose, hex] using h
      exact ⟨(congrArg Prod.fst this).symm, (congrArg Prod.snd this).symm⟩
    rw [hMG.1, hMG.2]
    constructor
    · intro d hd e he
      constructor
      · intro hm
        refine ⟨how d hd, how e he, p, hp, shares_glob hd, shares_glob he, ?_⟩
        rw [loc_glob hP hp hd, loc_glob hP hp he]
        exact hm
      · rintro ⟨-, -, q, hq, h1, -, h2⟩
        have := hdps d hd q hq h1
        subst this
        rwa [loc_glob hP hp hd, loc_glob hP hp he] at h2
    · intro d hd e he
      rw [how d hd, how e he]
      simp [emptyM, cols]
    · intro g hg; cases hg
  · have hall : (P.exProcs p).all (fun q =>
        (if (P.exProcs p).contains q = true then spmDiag (A q) (P.gEx q p) else none).isSome) = true := by
      rw [List.all_eq_true]
      intro q hq
      rw [if_pos (List.contains_iff_mem.2 hq), spmDiag_eq _ (gEx_sorted q p)]
      rfl
    have horig : ∀ q ∈ P.exProcs p,
        (if (P.exProcs p).contains q = true then spmDiag (A q) (P.gEx q p) else none).getD [] =
          (P.gEx q p).map fun d => ((A q).row d).filterMap fun e =>
            if e.1 ∈ P.gEx q p then some ((P.gEx q p).idxOf e.1, e.2) else none := by
      intro q hq
      rw [if_pos (List.contains_iff_mem.2 hq), spmDiag_eq _ (gEx_sorted q p)]
      rfl
    obtain ⟨M', hM', hMH, hMW, hrows, hout⟩ := buildM_spec P p (A p) hwf.sorted hH
      (fun q => (if (P.exProcs p).contains q = true then spmDiag (A q) (P.gEx q p) else none).getD [])
      (fun q => (P.mEx p q).map (rRow P p q (A q)))
      (by
        intro q hq
        have hq' := exProcs_ne hq
        rw [horig q hq, List.length_map, gEx_eq_map hP hp hq'.1 (Ne.symm hq'.2), List.length_map])
      (by intro q _; rw [List.length_map])
      (by
        intro q hq k r r' h1 h2
        have hq' := exProcs_ne hq
        rw [horig q hq, gEx_eq_map hP hp hq'.1 (Ne.symm hq'.2), List.map_map, List.getElem?_map,
          ← gEx_eq_map hP hp hq'.1 (Ne.symm hq'.2)] at h1
        rw [List.getElem?_map] at h2
        cases hk : (P.mEx p q)[k]? with
        | none => rw [hk] at h1; simp at h1
        | some d =>
          rw [hk, Option.map_some, Option.some.injEq] at h1 h2
          subst h1 h2
          simp only [fixRow, if_true, Function.comp]
          exact remap_spec hP hp hq'.1 (Ne.symm hq'.2) _)
      (by
        intro q hq r hr
        have hq' := exProcs_ne hq
        obtain ⟨d, _, rfl⟩ := List.mem_map.1 hr
        exact rRow_sorted hP hp hq'.1 _ (hA q hq'.1).1.sorted d)
    have hrecv : ∀ i, recvRows P p (fun q => (P.mEx p q).map (rRow P p q (A q))) i =
        ((P.exProcs p).filter fun q => i ∈ P.mEx p q).map fun q => rRow P p q (A q) i := by
      intro i
      rw [recvRows]
      apply List.map_congr_left
      intro q hq
      rw [List.mem_filter] at hq
      have hm : i ∈ P.mEx p q := by simpa using hq.2
      rw [List.getElem?_map, (cnt_mem (mEx_sorted p q) hm).1]
      rfl
    have hMG : M' = M ∧ some (buildG P p (A p)) = G := by
      rw [decompose, if_neg (by simpa using hex), if_pos hall] at h
      simp only [hM', Option.bind_eq_bind, Option.bind_some, Option.some.injEq, Prod.mk.injEq] at h
      exact h
    rw [← hMG.1, ← hMG.2]
    constructor
    · intro d hd e he
      by_cases hmd : P.owner (P.glob p d) = p
      · obtain ⟨cs, _, cm, hr⟩ := (hrows d hd).2 ((isMaster_iff hp hd).2 hmd)
        have hc : cols M' d = cs := by rw [cols, hr, List.map_map]; simp [Function.comp_def]
        rw [hc, cm e, ownCols, List.mem_filter, hrecv, isMaster_iff hp he]
        constructor
        · rintro (⟨h1, h2⟩ | ⟨r, h1, h2⟩)
          · refine ⟨hmd, h2, p, hp, shares_glob hd, shares_glob he, ?_⟩
            rw [loc_glob hP hp hd, loc_glob hP hp he]
            exact h1
          · obtain ⟨q, hq, rfl⟩ := List.mem_map.1 h1
            rw [List.mem_filter] at hq
            have hq' := exProcs_ne hq.1
            have hdm : d ∈ P.mEx p q := by simpa using hq.2
            rw [rRow, List.map_filterMap, List.mem_filterMap] at h2
            obtain ⟨x, hx, hxe⟩ := h2
            by_cases h3 : x.1 ∈ P.gEx q p
            · simp only [h3, if_true, Option.map_some, Option.some.injEq] at hxe
              rw [mem_gEx hq'.1] at h3
              have ho := owner_spec hq'.1 (shares_glob h3.1)
              rw [h3.2.1] at ho
              have hl := loc_spec ho.1
              rw [hxe] at hl
              refine ⟨hmd, by rw [hl.2]; exact h3.2.1, q, hq'.1, ((mem_mEx hp).1 hdm).2.2.2.2, by rw [hl.2]; exact shares_glob h3.1, ?_⟩
              rw [hl.2, loc_glob hP hq'.1 h3.1]
              exact List.mem_map_of_mem hx
            · simp [h3] at hxe
        · rintro ⟨-, h2, q, hq, h3, h4, h5⟩
          by_cases hqp : q = p
          · subst hqp
            rw [loc_glob hP hp hd, loc_glob hP hp he] at h5
            exact .inl ⟨h5, h2⟩
          · right
            have hdm : d ∈ P.mEx p q := (mem_mEx hp).2 ⟨hd, hmd, hq, hqp, h3⟩
            refine ⟨_, List.mem_map.2 ⟨q, List.mem_filter.2 ⟨mEx_exProcs hp hdm, by simpa using hdm⟩, rfl⟩, ?_⟩
            obtain ⟨x, hx, hxe⟩ := List.mem_map.1 h5
            have hl := loc_spec h4
            rw [rRow, List.map_filterMap, List.mem_filterMap]
            refine ⟨x, hx, ?_⟩
            have hg : x.1 ∈ P.gEx q p := by
              rw [mem_gEx hq, hxe, hl.2]
              exact ⟨hl.1, h2, Ne.symm hqp⟩
            rw [if_pos hg, Option.map_some, hxe, hl.2, loc_glob hP hp he]
      · have : P.isMaster p d = false := by
          rw [← Bool.not_eq_true, isMaster_iff hp hd]; exact hmd
        rw [cols, (hrows d hd).1 this]
        simp [hmd]
    · intro d hd e he
      show e ∈ (((A p).row d).filter fun e => masterOf P p e.1 != masterOf P p d).map Prod.fst ↔ _
      constructor
      · intro h1
        obtain ⟨x, hx, rfl⟩ := List.mem_map.1 h1
        rw [List.mem_filter] at hx
        refine ⟨?_, List.mem_map_of_mem hx.1⟩
        have := hx.2
        rw [masterOf_ne hp hd he] at this
        exact Ne.symm this
      · rintro ⟨h1, h2⟩
        obtain ⟨x, hx, rfl⟩ := List.mem_map.1 h2
        refine List.mem_map_of_mem (List.mem_filter.2 ⟨hx, ?_⟩)
        rw [masterOf_ne hp hd he]
        exact Ne.symm h1
    · intro g hg
      cases hg
      exact ⟨hH, hH⟩

theorem cols_lt {A : CSR E} (hA : A.WF) {i j : ℕ} (h : j ∈ cols A i) : i < A.height ∧ j < A.width := by
  obtain ⟨x, hx, rfl⟩ := List.mem_map.1 h
  refine ⟨?_, hA.inRange i x hx⟩
  by_contra hn
  rw [hA.outside i (by omega)] at hx
  cases hx

/-- symmetric patterns of the local matrices give symmetric patterns of both parts -/
theorem PatternSpec.symm [AddCommMonoid E] {P : PD} {A : ℕ → CSR E} {p : ℕ} {M : CSR E} {G : Option (CSR E)} (hp : p < P.np) (h : PatternSpec P A p M G) (hs : LocalSpec P A p M G)
    (hA : ∀ q < P.np, SymPattern (A q)) : SymPattern M ∧ SymPattern (G.getD emptyM) := by
  have hM : ∀ i j, i ∈ cols M j → j ∈ cols M i := by
    intro i j hij
    have hl := cols_lt hs.wfM hij
    rw [hs.dimM.1, hs.dimM.2] at hl
    obtain ⟨h1, h2, q, hq, h3, h4, h5⟩ := (h.patM j hl.1 i hl.2).1 hij
    exact (h.patM i hl.2 j hl.1).2 ⟨h2, h1, q, hq, h4, h3, (hA q hq _ _).1 h5⟩
  have hG : ∀ i j, i ∈ cols (G.getD emptyM) j → j ∈ cols (G.getD emptyM) i := by
    intro i j hij
    have hl := cols_lt hs.wfG hij
    have hd := hs.dimG
    obtain ⟨h1, h2⟩ := (h.patG j (by omega) i (by omega)).1 hij
    exact (h.patG i (by omega) j (by omega)).2 ⟨Ne.symm h1, (hA p hp _ _).1 h2⟩
  exact ⟨fun i j => ⟨hM i j, hM j i⟩, fun i j => ⟨hG i j, hG j i⟩⟩

/-- if the local matrices store the diagonal entries of rows that are not empty, the master-master part does so -/
theorem PatternSpec.diag [AddCommMonoid E] {P : PD} {A : ℕ → CSR E} {p : ℕ} {M : CSR E} {G : Option (CSR E)} (h : PatternSpec P A p M G) (hs : LocalSpec P A p M G)
    (hA : ∀ q < P.np, ∀ i, cols (A q) i ≠ [] → i ∈ cols (A q) i) (i : ℕ) (hi : cols M i ≠ []) : i ∈ cols M i := by
  obtain ⟨j, hj⟩ := List.exists_mem_of_ne_nil _ hi
  have hl := cols_lt hs.wfM hj
  rw [hs.dimM.1, hs.dimM.2] at hl
  obtain ⟨h1, -, q, hq, h3, -, h5⟩ := (h.patM i hl.1 j hl.2).1 hj
  exact (h.patM i hl.1 i hl.1).2 ⟨h1, h1, q, hq, h3, h3, hA q hq _ (List.ne_nil_of_mem h5)⟩

/-- the matrices at the end of every run of the decomposition have these patterns -/
theorem decompose_run_pattern [AddCommMonoid E] {P : PD} (hP : P.WF) (A : ℕ → CSR E) (hA : Fits P A) {n : ℕ}
    {s : St (CSR E × Option (CSR E × Option (CSR E))) (Option (Rows E))}
    (hr : Reach P.np [decomposePhase P] (fun p => (A p, none)) n s) (hf : Final P.np [decomposePhase P] s) :
    ∃ (M : ℕ → CSR E) (G : ℕ → Option (CSR E)), (∀ p < P.np, (s.vec p).2 = some (M p, G p)) ∧
      (∀ p < P.np, LocalSpec P A p (M p) (G p)) ∧ ∀ p < P.np, PatternSpec P A p (M p) (G p) := by
  have hfin := (final_state (decompose_matched (E := E) (P := P)) hr hf).1
  obtain ⟨M, G, h1, h2, -⟩ := decompose_correct hP A hA hr hf
  refine ⟨M, G, h1, h2, fun p hp => decompose_pattern hP A hA hp ?_⟩
  have := h1 p hp
  rw [hfin p hp] at this
  exact this

/-- the matrices of a run exist, with all their properties -/
theorem split_exists [AddCommMonoid E] {P : PD} (hP : P.WF) (A : ℕ → CSR E) (hA : Fits P A) :
    ∃ (M : ℕ → CSR E) (G : ℕ → Option (CSR E)), ∀ p < P.np, LocalSpec P A p (M p) (G p) ∧ PatternSpec P A p (M p) (G p) := by
  obtain ⟨n, s, hr, hf⟩ := exists_final (decompose_matched (E := E) (P := P)) fun p => (A p, none)
  obtain ⟨M, G, -, h2, h3⟩ := decompose_run_pattern hP A hA hr hf
  exact ⟨M, G, fun p hp => ⟨h2 p hp, h3 p hp⟩⟩

/-- in the example the pattern hypotheses are met -/
example : ∀ q < exPD.np, SymPattern (exA q) := by
  intro q _ i j
  by_cases hi : i < 3 <;> by_cases hj : j < 3 <;> simp [cols, exA, hi, hj] <;> omega

end NgsAMG.Hybrid
