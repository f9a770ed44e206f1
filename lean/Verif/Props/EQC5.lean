import Verif.Props.EQC4
import Verif.Props.Exchange

/-!
# Properties of the equivalence-class hierarchy, part 5: every schedule gives the same, globally unique identifiers (C58)
-/

namespace NgsAMG.EQC

open NgsAMG.Exch NgsAMG.DCC

section
variable {np : ℕ} {T : ℕ → List (List ℕ)}

theorem any_eq_of_map {α β γ : Type*} {l : List α} {m : List β} {f : α → γ} {g : β → γ} {P : α → Bool} {Q : β → Bool}
    (h : (l.filter P).map f = (m.filter Q).map g) : l.any P = m.any Q := by
  have h1 : l.any P = true ↔ l.filter P ≠ [] := by
    rw [List.any_eq_true, Ne, List.filter_eq_nil_iff]; push Not; rfl
  have h2 : m.any Q = true ↔ m.filter Q ≠ [] := by
    rw [List.any_eq_true, Ne, List.filter_eq_nil_iff]; push Not; rfl
  rw [Bool.eq_iff_iff, h1, h2, Ne, Ne, ← List.map_eq_nil_iff (f := f), h, List.map_eq_nil_iff]

/-- the processes agree on who sends identifiers to whom -/
theorem id_matched (hT : Tables np T) : Matched np [gatherPhase np, idPhase np T] := by
  intro ph hph p hp
  rcases List.mem_cons.mp hph with rfl | hph
  · refine ⟨fun q hq => ?_, fun q h => ?_, fun q h => ?_⟩
    · simp [gatherPhase, hp, hq]
    · simp [gatherPhase] at h; exact h.1
    · simp [gatherPhase] at h; exact h.1
  · rw [List.mem_singleton] at hph
    subst hph
    refine ⟨fun q hq => ?_, fun q h => ?_, fun q h => ?_⟩
    · exact any_eq_of_map (order_agrees hT hp hq)
    · simp only [idPhase, List.any_eq_true, Bool.and_eq_true] at h
      obtain ⟨d, hd, -, hq⟩ := h
      exact ((hT.ok p hp).2 d hd).range q (by simpa using hq)
    · simp only [idPhase, List.any_eq_true, Bool.and_eq_true] at h
      obtain ⟨d, hd, -, hq⟩ := h
      refine ((hT.ok p hp).2 d hd).range q ?_
      cases d with
      | nil => simp at hq
      | cons a l => simp at hq; simp [hq]

theorem tagStart_congr {r : ℕ} {a b : ℕ → ℕ} (h : ∀ q < r, a q = b q) : tagStart np r a = tagStart np r b := by
  unfold tagStart
  congr 2
  apply List.map_congr_left
  intro q hq
  exact h q (List.mem_range.mp hq)

/-- the result of the phases in lock step -/
theorem id_run (hT : Tables np T) (v : ℕ → LSt) (hv : ∀ p < np, (v p).fam = some (T p)) {p : ℕ} (hp : p < np) :
    (run [gatherPhase np, idPhase np T] v p).fam = some (T p) ∧
    (∀ q < np, (run [gatherPhase np, idPhase np T] v p).nb q = nblocksLoc q (T q)) ∧
    (run [gatherPhase np, idPhase np T] v p).ids = some ((T p).map fun d => gid np T (members p d)) := by
  have hfam : ∀ r < np, (runPhase (gatherPhase np) v r).fam = some (T r) := fun r hr => hv r hr
  have hnb : ∀ r < np, ∀ q < np, (runPhase (gatherPhase np) v r).nb q = nblocksLoc q (T q) := by
    intro r hr q hq
    simp [runPhase, gatherPhase, hr, hq, hv q hq]
  have htag : ∀ r < np, tagStart np r (runPhase (gatherPhase np) v r).nb = tagStart np r fun q => nblocksLoc q (T q) :=
    fun r hr => tagStart_congr fun q hq => hnb r hr q (by omega)
  have hrun : run [gatherPhase np, idPhase np T] v p = runPhase (idPhase np T) (runPhase (gatherPhase np) v) p := rfl
  rw [hrun]
  refine ⟨hfam p hp, hnb p hp, ?_⟩
  show ((runPhase (gatherPhase np) v p).fam.bind fun F => assignIds p F (tagStart np p (runPhase (gatherPhase np) v p).nb) _) = _
  rw [hfam p hp, htag p hp]
  refine assign_spec hT hp _ ?_
  intro h hh hr
  show (if (idPhase np T).recvs p h = true then _ else _) = _
  rw [if_pos (show (idPhase np T).recvs p h = true from hr)]
  show sendIds h p ((runPhase (gatherPhase np) v h).fam.getD []) (tagStart np h (runPhase (gatherPhase np) v h).nb) = _
  rw [hfam h hh, htag h hh]
  rfl

end

/-! ### the table from identifiers to classes -/

/-- writing into the table -/
theorem idToInd_fold (l : List (ℕ × ℕ)) (tab : List (Option ℕ)) (hl : ∀ e ∈ l, e.1 < tab.length) (hn : (l.map Prod.fst).Nodup) :
    ∃ t, l.foldlM (fun tab e => if e.1 < tab.length then some (tab.set e.1 (some e.2)) else none) tab = some t ∧
      t.length = tab.length ∧ (∀ e ∈ l, t[e.1]? = some (some e.2)) ∧ ∀ k, k ∉ l.map Prod.fst → t[k]? = tab[k]? := by
  induction l generalizing tab with
  | nil => exact ⟨tab, rfl, rfl, by simp, by simp⟩
  | cons e l ih =>
    rw [List.map_cons, List.nodup_cons] at hn
    have he := hl e (by simp)
    obtain ⟨t, h1, h2, h3, h4⟩ := ih (tab.set e.1 (some e.2)) (fun x hx => by rw [List.length_set]; exact hl x (by simp [hx])) hn.2
    refine ⟨t, ?_, by rw [h2, List.length_set], ?_, ?_⟩
    · rw [List.foldlM_cons, if_pos he]; exact h1
    · intro x hx
      rcases List.mem_cons.mp hx with rfl | hx
      · rw [h4 x.1 hn.1, List.getElem?_set_self he]
      · exact h3 x hx
    · intro k hk
      rw [List.map_cons, List.mem_cons, not_or] at hk
      rw [h4 k hk.2, List.getElem?_set_ne (Ne.symm hk.1)]

theorem idToInd_spec (size : ℕ) (ids : List ℕ) (hl : ∀ k ∈ ids, k < size) (hn : ids.Nodup) :
    ∃ t, idToInd size ids = some t ∧ t.length = size ∧ ∀ k < size, ∀ i, t[k]? = some (some i) ↔ ids[i]? = some k := by
  obtain ⟨t, h1, h2, h3, h4⟩ := idToInd_fold ids.zipIdx (List.replicate size none)
    (by
      intro e he
      rw [List.length_replicate]
      exact hl e.1 (List.fst_mem_of_mem_zipIdx he))
    (by simpa using hn)
  refine ⟨t, h1, by rw [h2, List.length_replicate], ?_⟩
  intro k hk i
  constructor
  · intro h
    by_cases hm : k ∈ ids.zipIdx.map Prod.fst
    · obtain ⟨e, he, rfl⟩ := List.mem_map.mp hm
      rw [h3 e he] at h
      have := List.mem_zipIdx_iff_getElem?.mp he
      simp only [Option.some.injEq] at h
      rw [← h]; exact this
    · rw [h4 k hm, List.getElem?_replicate, if_pos hk] at h
      simp at h
  · intro h
    exact h3 (k, i) (List.mem_zipIdx_iff_getElem?.mpr h)

/-! ### the result -/

/-- what every process has at the end of the set-up: its classes, and identifiers such that two classes (of the same or of
different processes) have the same identifier exactly if they consist of the same processes; the table from identifiers to classes
is written without an access out of range and finds, for an identifier from any process, the own class with the same processes if
there is one -/
structure GoodIds (np : ℕ) (T : ℕ → List (List ℕ)) (s : St LSt (List ℕ)) : Prop where
  fam : ∀ p < np, (s.vec p).fam = some (T p)
  sorted : ∀ p < np, (T p).Pairwise fun a b => eqLt a b = true
  nb : ∀ p < np, ∀ q < np, (s.vec p).nb q = nblocksLoc q (T q)
  ids : ∃ ids : ℕ → List ℕ, (∀ p < np, (s.vec p).ids = some (ids p) ∧ (ids p).length = (T p).length) ∧
    (∀ p < np, ∀ q < np, ∀ (i j a b : ℕ) (d e : List ℕ), (ids p)[i]? = some a → (ids q)[j]? = some b → (T p)[i]? = some d → (T q)[j]? = some e →
      (a = b ↔ members p d = members q e)) ∧
    ∀ p < np, ∃ tab, idToInd (idTableSize np p (s.vec p).nb (T p)) (ids p) = some tab ∧
      ∀ q < np, ∀ (j b : ℕ) (e : List ℕ), (ids q)[j]? = some b → (T q)[j]? = some e →
        b < tab.length ∧ ∀ i : ℕ, tab[b]? = some (some i) ↔ ∃ d, (T p)[i]? = some d ∧ members p d = members q e

section
variable {np : ℕ} {T : ℕ → List (List ℕ)}

theorem tagStart_le (nb : ℕ → ℕ) {a : ℕ} (h : a < np) : tagStart np a nb + nb a ≤ tagBase + np + ((List.range np).map nb).sum := by
  have := tagStart_mono (np := np) nb h
  exact this

theorem idTableSize_eq (nb : ℕ → ℕ) (F : List (List ℕ)) {p : ℕ} (hp : p < np) :
    idTableSize np p nb F = tagBase + np + ((List.range np).map nb).sum + nblocksLoc p F := by
  unfold idTableSize tagStart
  have : List.range np = List.range p ++ List.range' p (np - p) := by
    have h := List.range'_append_1 (s := 0) (m := p) (n := np - p)
    rw [Nat.zero_add, Nat.add_sub_cancel' hp.le] at h
    rw [List.range_eq_range', List.range_eq_range', h]
  rw [this, List.map_append, List.sum_append]
  omega

theorem gid_lt (hT : Tables np T) {p : ℕ} (hp : p < np) {S : Finset ℕ} (hS : Has p (T p) S) :
    gid np T S < tagBase + np + ((List.range np).map fun q => nblocksLoc q (T q)).sum := by
  obtain ⟨h1, h2, h3⟩ := gid_range hT hp hS
  by_cases hc : S.card = 1
  · rw [(h2 hc).2]; omega
  · obtain ⟨h4, h5⟩ := h3 hc
    have := tagStart_le (fun q => nblocksLoc q (T q)) h1
    have hi := List.idxOf_lt_length_iff.mpr h4
    have hn := nblocksLoc_eq (T := T) (least S)
    omega

theorem goodIds (hT : Tables np T) (s : St LSt (List ℕ)) (h : ∀ p < np, (s.vec p).fam = some (T p) ∧
    (∀ q < np, (s.vec p).nb q = nblocksLoc q (T q)) ∧ (s.vec p).ids = some ((T p).map fun d => gid np T (members p d))) :
    GoodIds np T s := by
  have hsame : ∀ p < np, ∀ q < np, ∀ d ∈ T p, ∀ e ∈ T q,
      (gid np T (members p d) = gid np T (members q e) ↔ members p d = members q e) := by
    intro p hp q hq d hd e he
    exact ⟨fun h => gid_inj hT hp hq ⟨d, hd, rfl⟩ ⟨e, he, rfl⟩ h, fun h => by rw [h]⟩
  refine ⟨fun p hp => (h p hp).1, hT.sorted, fun p hp => (h p hp).2.1, fun p => (T p).map fun d => gid np T (members p d),
    fun p hp => ⟨(h p hp).2.2, by simp⟩, ?_, ?_⟩
  · intro p hp q hq i j a b d e ha hb hd he
    simp only [List.getElem?_map] at ha hb
    rw [hd] at ha; rw [he] at hb
    simp only [Option.map_some, Option.some.injEq] at ha hb
    subst ha; subst hb
    exact hsame p hp q hq d (List.mem_of_getElem? hd) e (List.mem_of_getElem? he)
  · intro p hp
    have hsz : idTableSize np p (s.vec p).nb (T p) =
        tagBase + np + ((List.range np).map fun q => nblocksLoc q (T q)).sum + nblocksLoc p (T p) := by
      rw [idTableSize_eq _ _ hp]
      congr 3
      apply List.map_congr_left
      intro q hq
      exact (h p hp).2.1 q (List.mem_range.mp hq)
    have hlt : ∀ q < np, ∀ e ∈ T q, gid np T (members q e) < idTableSize np p (s.vec p).nb (T p) := by
      intro q hq e he
      have := gid_lt hT hq ⟨e, he, rfl⟩
      omega
    obtain ⟨tab, h1, h2, h3⟩ := idToInd_spec (idTableSize np p (s.vec p).nb (T p)) ((T p).map fun d => gid np T (members p d))
      (by
        intro k hk
        obtain ⟨d, hd, rfl⟩ := List.mem_map.mp hk
        exact hlt p hp d hd)
      (by
        rw [List.nodup_map_iff_inj_on (hT.ok p hp).1]
        intro d hd e he hde
        exact members_inj ((hT.ok p hp).2 d hd) ((hT.ok p hp).2 e he) ((hsame p hp p hp d hd e he).mp hde))
    refine ⟨tab, h1, ?_⟩
    intro q hq j b e hb he
    simp only [List.getElem?_map] at hb
    rw [he] at hb
    simp only [Option.map_some, Option.some.injEq] at hb
    subst hb
    have heq := List.mem_of_getElem? he
    refine ⟨by rw [h2]; exact hlt q hq e heq, fun i => ?_⟩
    rw [h3 _ (hlt q hq e heq) i, List.getElem?_map, Option.map_eq_some_iff]
    constructor
    · rintro ⟨d, hd, hde⟩
      exact ⟨d, hd, (hsame p hp q hq d (List.mem_of_getElem? hd) e heq).mp hde⟩
    · rintro ⟨d, hd, hde⟩
      exact ⟨d, hd, by rw [hde]⟩

end

section
variable {np : ℕ} {V : ℕ → List (List ℕ)}

theorem tables_plain (hV : ∀ p < np, FamOK np p (V p)) (hC : Consistent np V) : Tables np fun p => sortEqcs (V p) where
  ok := fun p hp => ⟨(sortEqcs_perm _).nodup_iff.mpr (hV p hp).1, fun d hd => (hV p hp).2 d ((sortEqcs_perm _).mem_iff.mp hd)⟩
  sorted := fun p hp => sortEqcs_pairwise _ (hV p hp).1
  cons := fun p hp d hd q hq => by
    obtain ⟨e, he, h⟩ := hC p hp d ((sortEqcs_perm _).mem_iff.mp hd) q hq
    exact ⟨e, (sortEqcs_perm _).mem_iff.mpr he, h⟩

/-- **Set-up without closing the family (`do_cutunion = false`)**: for every interleaving of the processes, the set-up does not get
stuck, takes a bounded number of steps, and at the end every process has its classes, globally unique identifiers and a correct
table from identifiers to classes. -/
theorem setup_plain (hV : ∀ p < np, FamOK np p (V p)) (hC : Consistent np V) (v : ℕ → LSt)
    (hv : ∀ p < np, (v p).fam = some (sortEqcs (V p))) {n : ℕ} {s : St LSt (List ℕ)} (hr : Reach np (plainProg np V) v n s) :
    n ≤ 4 * np ∧ (¬ Final np (plainProg np V) s → ∃ t, Step np (plainProg np V) s t) ∧
    (Final np (plainProg np V) s → GoodIds np (fun p => sortEqcs (V p)) s) := by
  have hT := tables_plain hV hC
  have hm : Matched np (plainProg np V) := id_matched hT
  refine ⟨by simpa [plainProg] using terminates hm hr, no_deadlock hm hr, fun hf => goodIds hT s fun p hp => ?_⟩
  rw [(final_state hm hr hf).1 p hp]
  exact id_run hT v hv hp

theorem closedTable_sorted {fuel : ℕ} {p : ℕ} {T : List (List ℕ)} (h : closedTable fuel V p = some T) (hn : T.Nodup) :
    T.Pairwise fun a b => eqLt a b = true := by
  unfold closedTable newEqcPhase at h
  simp only at h
  rw [Option.map_eq_some_iff] at h
  obtain ⟨F, -, rfl⟩ := h
  exact sortEqcs_pairwise F ((sortEqcs_perm _).nodup_iff.mp hn)

section
variable (hV : ∀ p < np, FamOK np p (V p)) (hC : Consistent np V) {fuel : ℕ} (hf : 2 ^ np + 1 ≤ fuel)
include hV hC hf

theorem setup_tables : Tables np fun p => (closedTable fuel V p).getD [] := by
  obtain ⟨T, hT1, hT2⟩ := closedTable_spec hV hC hf
  have hTT : ∀ p < np, (closedTable fuel V p).getD [] = T p := fun p hp => by simp [(hT1 p hp).1]
  refine ⟨fun p hp => ?_, fun p hp => ?_, fun p hp d hd q hq => ?_⟩
  · rw [hTT p hp]; exact (hT1 p hp).2.ok
  · rw [hTT p hp]; exact closedTable_sorted (hT1 p hp).1 (hT1 p hp).2.ok.1
  · rw [hTT p hp] at hd
    have hqn := ((hT1 p hp).2.ok.2 d hd).range q hq
    obtain ⟨e, he, h⟩ := hT2 p hp d hd q hq
    refine ⟨e, ?_, h⟩
    show e ∈ (closedTable fuel V q).getD []
    rw [hTT q hqn]; exact he

theorem setup_matched : Matched np (setupProg np fuel V) := by
  intro ph hph p hp
  rcases List.mem_cons.mp hph with rfl | hph
  · have key : ∀ p < np, ∀ q, (vExps (V p)).contains q = true → q < np ∧ (vExps (V q)).contains p = true := by
      intro p hp q hq
      obtain ⟨v, hv, hqv⟩ := (mem_vExps _ _).mp (by simpa using hq)
      refine ⟨((hV p hp).2 v hv).range q hqv, ?_⟩
      obtain ⟨e, he, hme⟩ := hC p hp v hv q hqv
      rw [List.contains_iff_mem]
      refine (mem_vExps _ _).mpr ⟨e, he, ?_⟩
      have : p ∈ members q e := by rw [hme]; exact mem_members.mpr (Or.inl rfl)
      rcases mem_members.mp this with h | h
      · subst h; exact absurd hqv ((hV p hp).2 v hv).notSelf
      · exact h
    refine ⟨fun q hq => ?_, fun q h => (key p hp q h).1, fun q h => (key p hp q h).1⟩
    show (vExps (V p)).contains q = (vExps (V q)).contains p
    rw [Bool.eq_iff_iff]
    exact ⟨fun h => (key p hp q h).2, fun h => (key q hq p h).2⟩
  · exact id_matched (setup_tables hV hC hf) ph hph p hp

theorem setup_run (v : ℕ → LSt) (hv : ∀ p < np, (v p).fam = unionLoop fuel (V p)) {p : ℕ} (hp : p < np) :
    (run (setupProg np fuel V) v p).fam = some ((closedTable fuel V p).getD []) ∧
    (∀ q < np, (run (setupProg np fuel V) v p).nb q = nblocksLoc q ((closedTable fuel V q).getD [])) ∧
    (run (setupProg np fuel V) v p).ids =
      some (((closedTable fuel V p).getD []).map fun d => gid np (fun p => (closedTable fuel V p).getD []) (members p d)) := by
  have hrun : run (setupProg np fuel V) v p =
      run [gatherPhase np, idPhase np fun p => (closedTable fuel V p).getD []] (runPhase (newEqcPhase fuel V) v) p := rfl
  rw [hrun]
  refine id_run (setup_tables hV hC hf) _ ?_ hp
  intro q hq
  obtain ⟨T, hT1, hT2⟩ := closedTable_spec hV hC hf
  rw [(hT1 q hq).1, Option.getD_some, ← (hT1 q hq).1]
  have hmsg : ∀ r, (if (newEqcPhase fuel V).recvs q r = true then (newEqcPhase fuel V).msg r (v r) q else default) =
      if (newEqcPhase fuel V).recvs q r = true then (newEqcPhase fuel V).msg r (initState fuel V r) q else default := by
    intro r
    by_cases hr : (newEqcPhase fuel V).recvs q r = true
    · rw [if_pos hr, if_pos hr]
      have hrn := (setup_matched hV hC hf (newEqcPhase fuel V) (by simp [setupProg]) q hq).2.2 r hr
      show encode ((((v r).fam.getD []).drop (V r).length).filter _) = encode ((((initState fuel V r).fam.getD []).drop _).filter _)
      rw [hv r hrn]; rfl
    · rw [if_neg hr, if_neg hr]
  unfold runPhase closedTable
  rw [funext hmsg]
  show ((((v q).fam.bind _).bind _).map _) = _
  rw [hv q hq]; rfl

/-- **Set-up with closing the family (`do_cutunion`)**: for every interleaving of the processes, the set-up does not get stuck, takes a
bounded number of steps, and at the end every process has a family of classes that contains the given ones and is closed under
intersections, the same classes everywhere, globally unique identifiers and a correct table from identifiers to classes. -/
theorem setup_closed {n : ℕ} {s : St LSt (List ℕ)} (hr : Reach np (setupProg np fuel V) (initState fuel V) n s) :
    n ≤ 6 * np ∧ (¬ Final np (setupProg np fuel V) s → ∃ t, Step np (setupProg np fuel V) s t) ∧
    (Final np (setupProg np fuel V) s → ∃ T, (∀ p < np, Closed np (V p) p (T p)) ∧ Consistent np T ∧ GoodIds np T s) := by
  obtain ⟨T, hT1, hT2⟩ := closedTable_spec hV hC hf
  have hTab := setup_tables hV hC hf
  have hm := setup_matched hV hC hf
  refine ⟨by simpa [setupProg] using terminates hm hr, no_deadlock hm hr,
    fun hfin => ⟨fun p => (closedTable fuel V p).getD [], fun p hp => ?_, hTab.cons, ?_⟩⟩
  · show Closed np (V p) p ((closedTable fuel V p).getD [])
    rw [(hT1 p hp).1]; exact (hT1 p hp).2
  · refine goodIds hTab s fun p hp => ?_
    rw [(final_state hm hr hfin).1 p hp]
    exact setup_run hV hC hf _ (fun _ _ => rfl) hp

end

end

end NgsAMG.EQC
