import Verif.Model.Hybrid
import Verif.Props.DCC
import Verif.Props.SortedArray
import Verif.Props.MergeTable
import Verif.Props.SparseLA
import Mathlib.Tactic.IntervalCases

/-! C19: the hybrid splitting represents the same operator. -/

namespace NgsAMG.Hybrid

open NgsAMG.DCC NgsAMG.Exch

variable {E : Type}

/-! ### specification -/

/-- the global operator represented by process-local matrices: sum of all local entries of a pair of global DOFs -/
def gop [AddCommMonoid E] (P : PD) (A : ℕ → CSR E) (g h : ℕ) : E :=
  ∑ p ∈ Finset.range P.np, ∑ d ∈ Finset.range (P.ndof p), ∑ e ∈ Finset.range (P.ndof p),
    if P.glob p d = g ∧ P.glob p e = h then (A p).entry d e else 0

/-! ### local operations -/

/-- everything stored for column `c` -/
def rEntry [AddCommMonoid E] (row : List (ℕ × E)) (c : ℕ) : E := ((row.filter fun e => e.1 = c).map Prod.snd).sum

theorem rEntry_cons [AddCommMonoid E] (e : ℕ × E) (row : List (ℕ × E)) (c : ℕ) :
    rEntry (e :: row) c = (if e.1 = c then e.2 else 0) + rEntry row c := by
  by_cases h : e.1 = c <;> simp [rEntry, h]

theorem rEntry_zero [AddCommMonoid E] (row : List (ℕ × E)) (c : ℕ) (h : c ∉ row.map Prod.fst) : rEntry row c = 0 := by
  have : row.filter (fun e => decide (e.1 = c)) = [] := by
    rw [List.filter_eq_nil_iff]
    intro e he hc
    simp only [decide_eq_true_eq] at hc
    exact h (List.mem_map.2 ⟨e, he, hc⟩)
  simp [rEntry, this]

theorem findPos_mem {x : ℕ} {a : List ℕ} (hs : a.Pairwise (· < ·)) (hx : x ∈ a) :
    findPos x a = some (some (a.idxOf x)) := by
  obtain ⟨r, hr, h1, _⟩ := SortedArray.find_correct x a hs
  obtain ⟨i, rfl, hi⟩ := h1 hx
  rw [findPos, hr]
  simp only [Option.map_some]
  have hn : a.Nodup := hs.imp (fun h => ne_of_lt h)
  obtain ⟨hlt, heq⟩ := List.getElem?_eq_some_iff.1 hi
  rw [← heq, hn.idxOf_getElem]

theorem findPos_not_mem {x : ℕ} {a : List ℕ} (hs : a.Pairwise (· < ·)) (hx : x ∉ a) : findPos x a = some none := by
  obtain ⟨r, hr, _, h2⟩ := SortedArray.find_correct x a hs
  rw [findPos, hr, h2 hx]
  rfl

theorem spmDiag_eq (A : CSR E) {dofs : List ℕ} (hs : dofs.Pairwise (· < ·)) :
    spmDiag A dofs = some (dofs.map fun d => (A.row d).filterMap fun e =>
      if e.1 ∈ dofs then some (dofs.idxOf e.1, e.2) else none) := by
  rw [spmDiag]
  apply SparseLA.mapM_some
  intro d _
  rw [diagRow, SparseLA.mapM_some (A.row d) _ fun e => if e.1 ∈ dofs then some (dofs.idxOf e.1, e.2) else none]
  · simp [List.filterMap_map]
  · intro e _
    by_cases he : e.1 ∈ dofs
    · rw [findPos_mem hs he, if_pos he]; rfl
    · rw [findPos_not_mem hs he, if_neg he]; rfl

theorem addVals_spec [AddCommMonoid E] (ris : List ℕ) (hs : ris.Pairwise (· < ·)) (F : ℕ → E) (row : List (ℕ × E)) :
    addVals ris (ris.map F) row = some (ris.map fun c => F c + rEntry row c) := by
  induction row generalizing F with
  | nil => simp [addVals, rEntry]
  | cons e row ih =>
    have hn : ris.Nodup := hs.imp (fun h => ne_of_lt h)
    rw [addVals, List.foldlM_cons]
    by_cases he : e.1 ∈ ris
    · have hlt := List.idxOf_lt_length_iff.2 he
      have hget : ris[ris.idxOf e.1] = e.1 := List.getElem_idxOf hlt
      rw [findPos_mem hs he]
      simp only [List.getElem?_map, List.getElem?_eq_getElem hlt, hget, Option.map_some, Option.bind_eq_bind, Option.bind_some]
      have : (ris.map F).set (ris.idxOf e.1) (F e.1 + e.2) = ris.map fun c => F c + if e.1 = c then e.2 else 0 := by
        apply List.ext_getElem (by simp)
        intro i h1 h2
        simp only [List.length_set, List.length_map] at h1
        rw [List.getElem_set, List.getElem_map, List.getElem_map]
        by_cases hi : ris.idxOf e.1 = i
        · subst hi; simp [hget]
        · have : e.1 ≠ ris[i] := by
            intro h; rw [h, hn.idxOf_getElem] at hi; exact hi rfl
          simp [hi, this]
      rw [this]
      refine (ih _).trans ?_
      congr 1
      apply List.map_congr_left
      intro c _
      rw [rEntry_cons, add_assoc]
    · rw [findPos_not_mem hs he]
      simp only [Option.bind_eq_bind, Option.bind_some]
      refine (ih F).trans ?_
      congr 1
      apply List.map_congr_left
      intro c hc
      rw [rEntry_cons, if_neg (by rintro rfl; exact he hc), zero_add]

theorem addVals_fold [AddCommMonoid E] (ris : List ℕ) (hs : ris.Pairwise (· < ·)) (F : ℕ → E) (rows : Rows E) :
    rows.foldlM (addVals ris) (ris.map F) = some (ris.map fun c => F c + (rows.map fun r => rEntry r c).sum) := by
  induction rows generalizing F with
  | nil => simp
  | cons r rows ih =>
    rw [List.foldlM_cons, addVals_spec ris hs]
    simp only [Option.bind_eq_bind, Option.bind_some]
    rw [ih]
    congr 1
    apply List.map_congr_left
    intro c _
    simp [add_assoc]

theorem mRow_spec [AddCommMonoid E] (A : CSR E) (r : ℕ) (o : RowOut E) (hs : o.cols.Pairwise (· < ·)) :
    mRow A r o.cols.length (some o) =
      some (o.cols.map fun c => (c, rEntry (A.row r) c + (o.recv.map fun row => rEntry row c).sum)) := by
  have h0 : List.replicate o.cols.length (0 : E) = o.cols.map fun _ => 0 := by simp
  simp only [mRow, if_true, h0, addVals_spec o.cols hs, Option.bind_eq_bind, Option.bind_some, addVals_fold o.cols hs, zero_add,
    SparseMM.zip_map_self]

/-! ### counting through the rows of the received matrices -/

/-- number of exchanged DOFs before `r` -/
def cnt (l : List ℕ) (r : ℕ) : ℕ := (l.filter (· < r)).length

theorem cnt_cons (a : ℕ) (l : List ℕ) (r : ℕ) : cnt (a :: l) r = cnt l r + if a < r then 1 else 0 := by
  by_cases h : a < r <;> simp [cnt, h]

theorem cnt_zero {l : List ℕ} {r : ℕ} (h : ∀ b ∈ l, r ≤ b) : cnt l r = 0 := by
  rw [cnt, List.length_eq_zero_iff, List.filter_eq_nil_iff]
  intro b hb
  have := h b hb
  simp only [decide_eq_true_eq]
  omega

theorem cnt_mem {l : List ℕ} (hs : l.Pairwise (· < ·)) {r : ℕ} (h : r ∈ l) :
    l[cnt l r]? = some r ∧ cnt l (r + 1) = cnt l r + 1 := by
  induction l with
  | nil => simp at h
  | cons a l ih =>
    have hc := List.pairwise_cons.1 hs
    rcases List.mem_cons.1 h with rfl | h
    · have h1 : cnt l r = 0 := cnt_zero fun b hb => (hc.1 b hb).le
      have h2 : cnt l (r + 1) = 0 := cnt_zero fun b hb => hc.1 b hb
      rw [cnt_cons, cnt_cons, h1, h2]
      simp
    · have ha := hc.1 r h
      obtain ⟨i1, i2⟩ := ih hc.2 h
      rw [cnt_cons, cnt_cons, if_pos ha, if_pos (by omega)]
      exact ⟨by simpa using i1, by rw [i2]⟩

theorem cnt_not_mem {l : List ℕ} (hs : l.Pairwise (· < ·)) {r : ℕ} (h : r ∉ l) :
    (∀ d, l[cnt l r]? = some d → r < d) ∧ cnt l (r + 1) = cnt l r := by
  induction l with
  | nil => simp [cnt]
  | cons a l ih =>
    have hc := List.pairwise_cons.1 hs
    simp only [List.mem_cons, not_or] at h
    obtain ⟨i1, i2⟩ := ih hc.2 h.2
    rw [cnt_cons, cnt_cons]
    by_cases ha : a < r
    · rw [if_pos ha, if_pos (by omega)]
      exact ⟨by simpa using i1, by rw [i2]⟩
    · have h1 : cnt l r = 0 := cnt_zero fun b hb => by have := hc.1 b hb; omega
      rw [if_neg ha, if_neg (by omega), i2, h1]
      refine ⟨?_, rfl⟩
      intro d hd
      simp only [add_zero, List.getElem?_cons_zero, Option.some.injEq] at hd
      omega

theorem cnt_le (l : List ℕ) (r : ℕ) : cnt l r ≤ l.length := List.length_filter_le _ _

/-- `row_matis` and `at_row` for row `r` -/
theorem takeMats_spec (P : PD) (p r : ℕ) (at0 : ℕ → ℕ) (h : ∀ q ∈ P.exProcs p, at0 q = cnt (P.mEx p q) r) :
    (takeMats P p r at0).1 = (P.exProcs p).filter (fun q => r ∈ P.mEx p q) ∧
      ∀ q ∈ P.exProcs p, (takeMats P p r at0).2 q = cnt (P.mEx p q) (r + 1) := by
  have key : ∀ (qs : List ℕ) (s : List ℕ × (ℕ → ℕ)), qs.Nodup → (∀ q ∈ qs, s.2 q = cnt (P.mEx p q) r) →
      let t := qs.foldl (fun s q =>
        match (P.mEx p q)[s.2 q]? with
        | none => s
        | some d => if d > r then s else (s.1 ++ [q], Function.update s.2 q (s.2 q + 1))) s
      t.1 = s.1 ++ qs.filter (fun q => r ∈ P.mEx p q) ∧ (∀ q ∈ qs, t.2 q = cnt (P.mEx p q) (r + 1)) ∧
        ∀ q, q ∉ qs → t.2 q = s.2 q := by
    intro qs
    induction qs with
    | nil => intro s _ _; simp
    | cons a qs ih =>
      intro s hn hs
      have hnd := List.nodup_cons.1 hn
      have ha := hs a List.mem_cons_self
      rw [List.foldl_cons]
      by_cases hm : r ∈ P.mEx p a
      · obtain ⟨c1, c2⟩ := cnt_mem (mEx_sorted p a) hm
        rw [ha, c1]
        simp only [gt_iff_lt, lt_self_iff_false, if_false]
        obtain ⟨i1, i2, i3⟩ := ih (s.1 ++ [a], Function.update s.2 a (cnt (P.mEx p a) r + 1)) hnd.2 (by
          intro q hq
          have : q ≠ a := by rintro rfl; exact hnd.1 hq
          simp only [Function.update_of_ne this]
          exact hs q (List.mem_cons_of_mem _ hq))
        refine ⟨by rw [i1]; simp [hm], ?_, ?_⟩
        · intro q hq
          rcases List.mem_cons.1 hq with rfl | hq
          · rw [i3 q hnd.1]; simp [c2]
          · exact i2 q hq
        · intro q hq
          simp only [List.mem_cons, not_or] at hq
          rw [i3 q hq.2]; simp [hq.1]
      · obtain ⟨c1, c2⟩ := cnt_not_mem (mEx_sorted p a) hm
        have hstep : (match (P.mEx p a)[s.2 a]? with
            | none => s
            | some d => if d > r then s else (s.1 ++ [a], Function.update s.2 a (s.2 a + 1))) = s := by
          rw [ha]
          cases hg : (P.mEx p a)[cnt (P.mEx p a) r]? with
          | none => rfl
          | some d => simp [c1 d hg]
        rw [hstep]
        obtain ⟨i1, i2, i3⟩ := ih s hnd.2 (fun q hq => hs q (List.mem_cons_of_mem _ hq))
        refine ⟨by rw [i1]; simp [hm], ?_, ?_⟩
        · intro q hq
          rcases List.mem_cons.1 hq with rfl | hq
          · rw [i3 q hnd.1, ha, c2]
          · exact i2 q hq
        · intro q hq
          simp only [List.mem_cons, not_or] at hq
          exact i3 q hq.2
  obtain ⟨k1, k2, _⟩ := key (P.exProcs p) ([], at0) (exProcs_nodup p) h
  exact ⟨k1.trans (List.nil_append _), k2⟩

theorem remapMats_spec (P : PD) (p : ℕ) (mapExd : Bool) (at' : ℕ → ℕ) (matis : List ℕ) (mats : ℕ → Rows E)
    (row row' : ℕ → List (ℕ × E)) (hn : matis.Nodup) (hrow : ∀ q ∈ matis, (mats q)[at' q - 1]? = some (row q))
    (hre : ∀ q ∈ matis, fixRow mapExd (P.mEx p q) (row q) = some (row' q)) :
    remapMats P p mapExd at' matis mats =
      some fun q => if q ∈ matis then (mats q).set (at' q - 1) (row' q) else mats q := by
  induction matis generalizing mats with
  | nil => simp [remapMats]
  | cons a l ih =>
    have hnd := List.nodup_cons.1 hn
    rw [remapMats, List.foldlM_cons, hrow a List.mem_cons_self]
    simp only [Option.bind_eq_bind, Option.bind_some, hre a List.mem_cons_self]
    have hupd : ∀ q ∈ l, Function.update mats a ((mats a).set (at' a - 1) (row' a)) q = mats q := by
      intro q hq
      exact Function.update_of_ne (by rintro rfl; exact hnd.1 hq) _ _
    refine (ih _ hnd.2 ?_ (fun q hq => hre q (List.mem_cons_of_mem _ hq))).trans ?_
    · intro q hq
      rw [hupd q hq]
      exact hrow q (List.mem_cons_of_mem _ hq)
    · congr 1
      funext q
      by_cases hq : q ∈ l
      · rw [if_pos hq, if_pos (List.mem_cons_of_mem _ hq), hupd q hq]
      · by_cases hqa : q = a
        · subst hqa; simp [hnd.1]
        · simp [hq, hqa]

/-- columns of `M` from the matrix of the process itself -/
def ownCols (P : PD) (p : ℕ) (A : CSR E) (i : ℕ) : List ℕ := ((A.row i).map Prod.fst).filter (P.isMaster p)

/-- the received rows for row `i` -/
def recvRows (P : PD) (p : ℕ) (tgt : ℕ → Rows E) (i : ℕ) : Rows E :=
  ((P.exProcs p).filter fun q => i ∈ P.mEx p q).map fun q => ((tgt q)[cnt (P.mEx p q) i]?).getD []

/-- what `iterate_rowinds` reports for row `i` -/
def RowSpec (P : PD) (p : ℕ) (A : CSR E) (tgt : ℕ → Rows E) (i : ℕ) (o : Option (RowOut E)) : Prop :=
  (P.isMaster p i = false → o = none) ∧
  (P.isMaster p i = true → ∃ cols, o = some ⟨cols, recvRows P p tgt i⟩ ∧ cols.Pairwise (· < ·) ∧
    ∀ c, c ∈ cols ↔ c ∈ ownCols P p A i ∨ ∃ row ∈ recvRows P p tgt i, c ∈ row.map Prod.fst)

theorem mEx_isMaster {P : PD} {p q d : ℕ} (h : d ∈ P.mEx p q) : P.isMaster p d = true ∧ q ∈ P.dps p d := by
  simp only [PD.mEx, List.mem_filter, Bool.and_eq_true, List.contains_iff_mem] at h
  exact h.2

theorem pass_spec (P : PD) (p : ℕ) (A : CSR E) (hA : ∀ i, ((A.row i).map Prod.fst).Pairwise (· < ·)) (mapExd : Bool)
    (orig tgt : ℕ → Rows E) (hlo : ∀ q ∈ P.exProcs p, (orig q).length = (P.mEx p q).length)
    (hlt : ∀ q ∈ P.exProcs p, (tgt q).length = (P.mEx p q).length)
    (hre : ∀ q ∈ P.exProcs p, ∀ (k : ℕ) (r r' : List (ℕ × E)), (orig q)[k]? = some r → (tgt q)[k]? = some r' →
      fixRow mapExd (P.mEx p q) r = some r')
    (hst : ∀ q ∈ P.exProcs p, ∀ r ∈ tgt q, (r.map Prod.fst).Pairwise (· < ·)) (n : ℕ) :
    ∃ st out, pass P p A mapExd orig n = some (st, out) ∧
      (∀ q ∈ P.exProcs p, st.atRow q = cnt (P.mEx p q) n ∧
        st.mats q = (tgt q).take (cnt (P.mEx p q) n) ++ (orig q).drop (cnt (P.mEx p q) n)) ∧
      out.length = n ∧ ∀ i < n, ∃ o, out[i]? = some o ∧ RowSpec P p A tgt i o := by
  induction n with
  | zero =>
    refine ⟨_, _, rfl, ?_, rfl, by simp⟩
    intro q _
    have : cnt (P.mEx p q) 0 = 0 := cnt_zero (by simp)
    simp [this]
  | succ n ih =>
    obtain ⟨st, out, hp, hq, hl, ho⟩ := ih
    -- it suffices to look at one round
    suffices hstep : ∃ st' o, rowStep P p A mapExd n st = some (st', o) ∧
        (∀ q ∈ P.exProcs p, st'.atRow q = cnt (P.mEx p q) (n + 1) ∧
          st'.mats q = (tgt q).take (cnt (P.mEx p q) (n + 1)) ++ (orig q).drop (cnt (P.mEx p q) (n + 1))) ∧
        RowSpec P p A tgt n o by
      obtain ⟨st', o, h1, h2, h3⟩ := hstep
      refine ⟨st', out ++ [o], ?_, h2, by simp [hl], ?_⟩
      · rw [pass, hp]
        simp only [Option.bind_eq_bind, Option.bind_some, h1]
      · intro i hi
        by_cases hin : i < n
        · obtain ⟨o', h4, h5⟩ := ho i hin
          exact ⟨o', by rw [List.getElem?_append_left (by omega), h4], h5⟩
        · have : i = n := by omega
          subst this
          exact ⟨o, by rw [List.getElem?_append_right (by omega)]; simp [hl], h3⟩
    have hnoshare : (∀ q ∈ P.exProcs p, n ∉ P.mEx p q) →
        (∀ q ∈ P.exProcs p, st.atRow q = cnt (P.mEx p q) (n + 1) ∧
          st.mats q = (tgt q).take (cnt (P.mEx p q) (n + 1)) ++ (orig q).drop (cnt (P.mEx p q) (n + 1))) := by
      intro h q hqq
      rw [(cnt_not_mem (mEx_sorted p q) (h q hqq)).2]
      exact hq q hqq
    have hownS : (ownCols P p A n).Pairwise (· < ·) := (hA n).filter _
    by_cases hm : P.isMaster p n = true
    · by_cases hd : (P.dps p n).isEmpty = true
      · have hns : ∀ q ∈ P.exProcs p, n ∉ P.mEx p q := by
          intro q _ h
          have := (mEx_isMaster h).2
          rw [List.isEmpty_iff] at hd
          rw [hd] at this
          simp at this
        refine ⟨st, some ⟨ownCols P p A n, []⟩, by simp [rowStep, hm, hd, ownCols], hnoshare hns, ?_, ?_⟩
        · intro h; rw [hm] at h; simp at h
        · intro _
          have : recvRows P p tgt n = [] := by
            rw [recvRows, List.map_eq_nil_iff, List.filter_eq_nil_iff]
            intro q hqq
            simpa using hns q hqq
          rw [this]
          exact ⟨_, rfl, hownS, by simp⟩
      · obtain ⟨t1, t2⟩ := takeMats_spec P p n st.atRow fun q hqq => (hq q hqq).1
        rcases htm : takeMats P p n st.atRow with ⟨matis, at'⟩
        rw [htm] at t1 t2
        simp only at t1 t2
        have hmem : ∀ q ∈ matis, q ∈ P.exProcs p ∧ n ∈ P.mEx p q := by
          intro q hqm
          rw [t1, List.mem_filter] at hqm
          simpa using hqm
        have hat : ∀ q ∈ matis, at' q - 1 = cnt (P.mEx p q) n := by
          intro q hqm
          rw [t2 q (hmem q hqm).1, (cnt_mem (mEx_sorted p q) (hmem q hqm).2).2]
          rfl
        have hclt : ∀ q ∈ matis, cnt (P.mEx p q) n < (P.mEx p q).length := by
          intro q hqm
          exact (List.getElem?_eq_some_iff.1 (cnt_mem (mEx_sorted p q) (hmem q hqm).2).1).1
        have hrm := remapMats_spec P p mapExd at' matis st.mats (fun q => ((orig q)[cnt (P.mEx p q) n]?).getD [])
          (fun q => ((tgt q)[cnt (P.mEx p q) n]?).getD [])
          (by rw [t1]; exact (exProcs_nodup p).filter _)
          (by
            intro q hqm
            have h1 := hclt q hqm
            have h2 := hmem q hqm
            rw [hat q hqm, (hq q h2.1).2, List.getElem?_append_right (by simp)]
            have : cnt (P.mEx p q) n < (orig q).length := by rw [hlo q h2.1]; exact h1
            have ht : (tgt q).length = (P.mEx p q).length := hlt q h2.1
            rw [List.length_take, ht, Nat.min_eq_left h1.le, Nat.sub_self, List.getElem?_drop, add_zero,
              List.getElem?_eq_getElem this]
            rfl)
          (by
            intro q hqm
            have h1 := hclt q hqm
            have h2 := hmem q hqm
            have i1 : cnt (P.mEx p q) n < (orig q).length := by rw [hlo q h2.1]; exact h1
            have i2 : cnt (P.mEx p q) n < (tgt q).length := by rw [hlt q h2.1]; exact h1
            refine hre q h2.1 (cnt (P.mEx p q) n) _ _ ?_ ?_
            · rw [List.getElem?_eq_getElem i1]; rfl
            · rw [List.getElem?_eq_getElem i2]; rfl)
        -- the new matrices
        have hnew : ∀ q ∈ P.exProcs p,
            (if q ∈ matis then (st.mats q).set (at' q - 1) (((tgt q)[cnt (P.mEx p q) n]?).getD []) else st.mats q) =
              (tgt q).take (cnt (P.mEx p q) (n + 1)) ++ (orig q).drop (cnt (P.mEx p q) (n + 1)) := by
          intro q hqq
          by_cases hqm : q ∈ matis
          · have h1 := hclt q hqm
            have h2 := hmem q hqm
            have i1 : cnt (P.mEx p q) n < (orig q).length := by rw [hlo q h2.1]; exact h1
            have i2 : cnt (P.mEx p q) n < (tgt q).length := by rw [hlt q h2.1]; exact h1
            rw [if_pos hqm, hat q hqm, (hq q hqq).2, (cnt_mem (mEx_sorted p q) h2.2).2,
              List.set_append_right _ _ (by simp), List.length_take, Nat.min_eq_left i2.le, Nat.sub_self,
              List.drop_eq_getElem_cons i1, List.set_cons_zero, List.getElem?_eq_getElem i2,
              List.take_succ_eq_append_getElem i2, List.append_assoc]
            rfl
          · have hnm : n ∉ P.mEx p q := by
              intro h
              exact hqm (by rw [t1, List.mem_filter]; exact ⟨hqq, by simpa using h⟩)
            rw [if_neg hqm, (hq q hqq).2, (cnt_not_mem (mEx_sorted p q) hnm).2]
        have hrows : (matis.mapM fun q => (if q ∈ matis then (st.mats q).set (at' q - 1)
            (((tgt q)[cnt (P.mEx p q) n]?).getD []) else st.mats q)[at' q - 1]?) = some (recvRows P p tgt n) := by
          rw [SparseLA.mapM_some matis _ fun q => ((tgt q)[cnt (P.mEx p q) n]?).getD []]
          · rw [recvRows, t1]
          · intro q hqm
            have h1 := hclt q hqm
            have h2 := hmem q hqm
            rw [if_pos hqm, List.getElem?_set_self]
            rw [hat q hqm, (hq q h2.1).2, List.length_append, List.length_take, List.length_drop, hlo q h2.1, hlt q h2.1]
            omega
        let all := (recvRows P p tgt n).map (List.map Prod.fst) ++ [ownCols P p A n]
        have hsorted : ∀ r ∈ all, r.Pairwise (· < ·) := by
          intro r hr
          rcases List.mem_append.1 hr with h | h
          · obtain ⟨r', hr', rfl⟩ := List.mem_map.1 h
            rw [recvRows] at hr'
            obtain ⟨q, hqq, rfl⟩ := List.mem_map.1 hr'
            rw [List.mem_filter] at hqq
            have hmq : n ∈ P.mEx p q := by simpa using hqq.2
            have hc := (List.getElem?_eq_some_iff.1 (cnt_mem (mEx_sorted p q) hmq).1).1
            rw [← hlt q hqq.1] at hc
            rw [List.getElem?_eq_getElem hc]
            exact hst q hqq.1 _ (List.getElem_mem hc)
          · rw [List.mem_singleton] at h
            rw [h]; exact hownS
        obtain ⟨merged, hmg, hms, hmm⟩ := Traversal.mergeTable_correct all hsorted _ le_rfl
        refine ⟨⟨at', fun q => if q ∈ matis then (st.mats q).set (at' q - 1)
            (((tgt q)[cnt (P.mEx p q) n]?).getD []) else st.mats q⟩, some ⟨merged, recvRows P p tgt n⟩, ?_, ?_, ?_, ?_⟩
        · simp only [rowStep, hm, if_true, hd, Bool.false_eq_true, if_false, htm, hrm, Option.bind_eq_bind, Option.bind_some,
            hrows]
          simp only [all, ownCols] at hmg
          rw [hmg]
          rfl
        · intro q hqq
          exact ⟨t2 q hqq, hnew q hqq⟩
        · intro h; rw [hm] at h; simp at h
        · intro _
          refine ⟨merged, rfl, hms, ?_⟩
          intro c
          rw [hmm c]
          simp only [all, List.mem_append, List.mem_map, List.mem_singleton]
          constructor
          · rintro ⟨r, ⟨r', hr', rfl⟩ | rfl, hc⟩
            · exact Or.inr ⟨r', hr', by simpa using hc⟩
            · exact Or.inl hc
          · rintro (hc | ⟨r, hr, hc⟩)
            · exact ⟨_, Or.inr rfl, hc⟩
            · exact ⟨_, Or.inl ⟨r, hr, rfl⟩, by simpa using hc⟩
    · have hmf : P.isMaster p n = false := by simpa using hm
      refine ⟨st, none, by simp [rowStep, hmf], hnoshare ?_, fun _ => rfl, fun h => absurd h hm⟩
      intro q _ h
      exact hm (mEx_isMaster h).1

/-- the rows of `M` -/
def MRow [AddCommMonoid E] (P : PD) (p : ℕ) (A : CSR E) (tgt : ℕ → Rows E) (i : ℕ) (row : List (ℕ × E)) : Prop :=
  (P.isMaster p i = false → row = []) ∧
  (P.isMaster p i = true → ∃ cols : List ℕ, cols.Pairwise (· < ·) ∧
    (∀ c, c ∈ cols ↔ c ∈ ownCols P p A i ∨ ∃ r ∈ recvRows P p tgt i, c ∈ r.map Prod.fst) ∧
    row = cols.map fun c => (c, rEntry (A.row i) c + ((recvRows P p tgt i).map fun r => rEntry r c).sum))

theorem buildM_spec [AddCommMonoid E] (P : PD) (p : ℕ) (A : CSR E) (hA : ∀ i, ((A.row i).map Prod.fst).Pairwise (· < ·))
    (hH : A.height = P.ndof p) (orig tgt : ℕ → Rows E) (hlo : ∀ q ∈ P.exProcs p, (orig q).length = (P.mEx p q).length)
    (hlt : ∀ q ∈ P.exProcs p, (tgt q).length = (P.mEx p q).length)
    (hre : ∀ q ∈ P.exProcs p, ∀ (k : ℕ) (r r' : List (ℕ × E)), (orig q)[k]? = some r → (tgt q)[k]? = some r' →
      fixRow true (P.mEx p q) r = some r')
    (hst : ∀ q ∈ P.exProcs p, ∀ r ∈ tgt q, (r.map Prod.fst).Pairwise (· < ·)) :
    ∃ M, buildM P p A orig = some M ∧ M.height = P.ndof p ∧ M.width = P.ndof p ∧
      (∀ i < P.ndof p, MRow P p A tgt i (M.row i)) ∧ ∀ i, P.ndof p ≤ i → M.row i = [] := by
  obtain ⟨st1, out1, hp1, hq1, hl1, ho1⟩ := pass_spec P p A hA true orig tgt hlo hlt hre hst A.height
  have hmats : ∀ q ∈ P.exProcs p, st1.mats q = tgt q := by
    intro q hq
    have : cnt (P.mEx p q) A.height = (P.mEx p q).length := by
      rw [cnt, List.filter_eq_self.2]
      intro d hd
      rw [PD.mEx, List.mem_filter, List.mem_range] at hd
      simpa [hH] using hd.1
    rw [(hq1 q hq).2, this, ← hlt q hq, List.take_length, List.drop_eq_nil_of_le (by rw [hlt q hq, hlo q hq]),
      List.append_nil]
  obtain ⟨st2, out2, hp2, hq2, hl2, ho2⟩ := pass_spec P p A hA false st1.mats tgt
    (fun q hq => by rw [hmats q hq, hlt q hq]) hlt
    (fun q hq k r r' h1 h2 => by
      rw [hmats q hq] at h1
      rw [h1] at h2
      simpa [fixRow] using h2) hst A.height
  -- rows
  have hrow : ∀ i < A.height, ∃ row, (do let o ← out2[i]?; mRow A i (perow out1 i) o) = some row ∧ MRow P p A tgt i row := by
    intro i hi
    obtain ⟨o1, g1, s1⟩ := ho1 i hi
    obtain ⟨o2, g2, s2⟩ := ho2 i hi
    rw [g2]
    simp only [Option.bind_eq_bind, Option.bind_some]
    by_cases hm : P.isMaster p i = true
    · obtain ⟨c1, rfl, cs1, cm1⟩ := s1.2 hm
      obtain ⟨c2, rfl, cs2, cm2⟩ := s2.2 hm
      have hc : c1 = c2 := Traversal.eq_of_pairwise_of_mem cs1 cs2 fun c => (cm1 c).trans (cm2 c).symm
      subst hc
      have hpr : perow out1 i = c1.length := by simp [perow, g1]
      rw [hpr]
      refine ⟨_, mRow_spec A i ⟨c1, recvRows P p tgt i⟩ cs1, ?_, fun _ => ⟨c1, cs1, cm1, rfl⟩⟩
      intro h; rw [hm] at h; simp at h
    · have hmf : P.isMaster p i = false := by simpa using hm
      have h1 := s1.1 hmf
      have h2 := s2.1 hmf
      subst h1 h2
      have hpr : perow out1 i = 0 := by simp [perow, g1]
      exact ⟨[], by simp [hpr, mRow], fun _ => rfl, fun h => absurd h hm⟩
  let rowOf : ℕ → List (ℕ × E) := fun i => ((do let o ← out2[i]?; mRow A i (perow out1 i) o) : Option _).getD []
  have hrows : ((List.range A.height).mapM fun i => do
      let o ← out2[i]?
      mRow A i (perow out1 i) o) = some ((List.range A.height).map rowOf) := by
    apply SparseLA.mapM_some
    intro i hi
    obtain ⟨row, h1, _⟩ := hrow i (List.mem_range.1 hi)
    simp only [rowOf, h1, Option.getD_some]
  refine ⟨⟨A.height, A.height, fun i => ((List.range A.height).map rowOf)[i]?.getD []⟩, ?_, hH, hH, ?_, ?_⟩
  · rw [buildM, hp1]
    simp only [Option.bind_eq_bind, Option.bind_some, hp2]
    simp only [Option.bind_eq_bind] at hrows
    rw [hrows]
    rfl
  · intro i hi
    rw [← hH] at hi
    obtain ⟨row, h1, h2⟩ := hrow i hi
    have : ((List.range A.height).map rowOf)[i]?.getD [] = row := by
      rw [List.getElem?_map, List.getElem?_range hi]
      simp only [Option.map_some, Option.getD_some, rowOf, h1]
    show MRow P p A tgt i (((List.range A.height).map rowOf)[i]?.getD [])
    rw [this]
    exact h2
  · intro i hi
    rw [← hH] at hi
    show ((List.range A.height).map rowOf)[i]?.getD [] = []
    rw [List.getElem?_eq_none (by simpa using hi)]
    rfl

/-! ### the received rows, with the numbering of the receiver -/

/-- row of DOF `d` of process `p` in the diagonal block of process `q` -/
def rRow (P : PD) (p q : ℕ) (Aq : CSR E) (d : ℕ) : List (ℕ × E) :=
  (Aq.row (P.loc q (P.glob p d))).filterMap fun e => if e.1 ∈ P.gEx q p then some (P.loc p (P.glob q e.1), e.2) else none

theorem remap_spec {P : PD} (hP : P.WF) {p q : ℕ} (hp : p < P.np) (hq : q < P.np) (hne : p ≠ q) (row : List (ℕ × E)) :
    remapRow (P.mEx p q) (row.filterMap fun e => if e.1 ∈ P.gEx q p then some ((P.gEx q p).idxOf e.1, e.2) else none) =
      some (row.filterMap fun e => if e.1 ∈ P.gEx q p then some (P.loc p (P.glob q e.1), e.2) else none) := by
  have key : ∀ x ∈ P.gEx q p, (P.mEx p q)[(P.gEx q p).idxOf x]? = some (P.loc p (P.glob q x)) := by
    intro x hx
    have hlt := List.idxOf_lt_length_iff.2 hx
    have hget := List.getElem_idxOf hlt
    have hmap := gEx_eq_map hP hp hq hne
    have hl : (P.gEx q p).length = (P.mEx p q).length := by rw [hmap, List.length_map]
    have h1 : (P.gEx q p)[(P.gEx q p).idxOf x]? = some x := by rw [List.getElem?_eq_getElem hlt, hget]
    have hlt' : (P.gEx q p).idxOf x < (P.mEx p q).length := by omega
    have h2 : ((P.mEx p q).map fun d => P.loc q (P.glob p d))[(P.gEx q p).idxOf x]? = some x := by rw [← hmap]; exact h1
    rw [List.getElem?_map, List.getElem?_eq_getElem hlt', Option.map_some, Option.some.injEq] at h2
    rw [List.getElem?_eq_getElem hlt', Option.some.injEq]
    have hm : (P.mEx p q)[(P.gEx q p).idxOf x] ∈ P.mEx p q := List.getElem_mem hlt'
    rw [mem_mEx hp] at hm
    have hls := loc_spec hm.2.2.2.2
    rw [h2] at hls
    rw [hls.2, loc_glob hP hp hm.1]
  induction row with
  | nil => rfl
  | cons e row ih =>
    by_cases he : e.1 ∈ P.gEx q p
    · simp only [List.filterMap_cons, he, if_true]
      rw [remapRow, List.mapM_cons, key e.1 he]
      rw [remapRow] at ih
      rw [ih]
      rfl
    · simp only [List.filterMap_cons, he, if_false]
      exact ih

theorem rRow_sorted {P : PD} (hP : P.WF) {p q : ℕ} (hp : p < P.np) (hq : q < P.np) (Aq : CSR E)
    (hA : ∀ i, ((Aq.row i).map Prod.fst).Pairwise (· < ·)) (d : ℕ) : ((rRow P p q Aq d).map Prod.fst).Pairwise (· < ·) := by
  rw [rRow, List.pairwise_map, List.pairwise_filterMap]
  have h := hA (P.loc q (P.glob p d))
  rw [List.pairwise_map] at h
  refine h.imp ?_
  intro a b hab x hx y hy
  have hloc : ∀ z ∈ P.gEx q p, z < P.ndof q ∧ P.loc p (P.glob q z) < P.ndof p ∧ P.glob p (P.loc p (P.glob q z)) = P.glob q z := by
    intro z hz
    rw [mem_gEx hq] at hz
    have ho := owner_spec hq (shares_glob hz.1)
    rw [hz.2.1] at ho
    exact ⟨hz.1, loc_spec ho.1⟩
  by_cases h1 : a.1 ∈ P.gEx q p
  · by_cases h2 : b.1 ∈ P.gEx q p
    · simp only [h1, if_true, Option.some.injEq] at hx
      simp only [h2, if_true, Option.some.injEq] at hy
      subst hx hy
      obtain ⟨a1, a2, a3⟩ := hloc _ h1
      obtain ⟨b1, b2, b3⟩ := hloc _ h2
      exact hP.mono q hq p hp _ a1 _ b1 _ a2 _ b2 a3.symm b3.symm hab
    · simp [h2] at hy
  · simp [h1] at hx

theorem rEntry_filterMap [AddCommMonoid E] (S : List ℕ) (ψ : ℕ → ℕ) (x c : ℕ) (hx : x ∈ S) (h : ∀ y ∈ S, ψ y = c ↔ y = x)
    (row : List (ℕ × E)) :
    rEntry (row.filterMap fun e => if e.1 ∈ S then some (ψ e.1, e.2) else none) c = rEntry row x := by
  induction row with
  | nil => rfl
  | cons e row ih =>
    rw [rEntry_cons, ← ih]
    by_cases he : e.1 ∈ S
    · simp only [List.filterMap_cons, he, if_true, rEntry_cons, h e.1 he]
    · have : e.1 ≠ x := by rintro rfl; exact he hx
      simp [he, this]

theorem rEntry_rRow [AddCommMonoid E] {P : PD} (hP : P.WF) {p q : ℕ} (hp : p < P.np) (hq : q < P.np) (hne : p ≠ q)
    (Aq : CSR E) (d c : ℕ) (hc : c < P.ndof p) :
    rEntry (rRow P p q Aq d) c =
      if c ∈ P.mEx p q then Aq.entry (P.loc q (P.glob p d)) (P.loc q (P.glob p c)) else 0 := by
  have hback : ∀ y ∈ P.gEx q p, P.loc p (P.glob q y) ∈ P.mEx p q ∧ P.loc q (P.glob p (P.loc p (P.glob q y))) = y := by
    intro y hy
    rw [mem_gEx hq] at hy
    have ho := owner_spec hq (shares_glob hy.1)
    rw [hy.2.1] at ho
    have hl := loc_spec ho.1
    refine ⟨(mem_mEx hp).2 ⟨hl.1, ?_, hq, Ne.symm hne, ?_⟩, ?_⟩
    · rw [hl.2, hy.2.1]
    · rw [hl.2]; exact shares_glob hy.1
    · rw [hl.2]; exact loc_glob hP hq hy.1
  by_cases hm : c ∈ P.mEx p q
  · rw [if_pos hm, rRow]
    have hx : P.loc q (P.glob p c) ∈ P.gEx q p := by
      rw [gEx_eq_map hP hp hq hne]; exact List.mem_map.2 ⟨c, hm, rfl⟩
    rw [rEntry_filterMap (P.gEx q p) (fun y => P.loc p (P.glob q y)) _ c hx]
    · rfl
    · intro y hy
      rw [mem_mEx hp] at hm
      have hl := loc_spec hm.2.2.2.2
      constructor
      · intro h
        rw [← (hback y hy).2, h]
      · rintro rfl
        rw [hl.2]; exact loc_glob hP hp hc
  · rw [if_neg hm]
    apply rEntry_zero
    intro h
    rw [rRow, List.map_filterMap, List.mem_filterMap] at h
    obtain ⟨e, _, he⟩ := h
    by_cases h1 : e.1 ∈ P.gEx q p
    · simp only [h1, if_true, Option.map_some, Option.some.injEq] at he
      exact hm (he ▸ (hback e.1 h1).1)
    · simp [h1] at he

/-! ### C19 -/

theorem gop_at [AddCommMonoid E] {P : PD} (hP : P.WF) (A : ℕ → CSR E) (g h : ℕ) :
    gop P A g h = ∑ q ∈ Finset.range P.np,
      if P.shares q g = true ∧ P.shares q h = true then (A q).entry (P.loc q g) (P.loc q h) else 0 := by
  rw [gop]
  apply Finset.sum_congr rfl
  intro q hq
  rw [Finset.mem_range] at hq
  by_cases hs : P.shares q g = true ∧ P.shares q h = true
  · have hl := loc_spec hs.1
    have hl' := loc_spec hs.2
    rw [if_pos hs, Finset.sum_eq_single (P.loc q g), Finset.sum_eq_single (P.loc q h)]
    · rw [if_pos ⟨hl.2, hl'.2⟩]
    · intro e he hne
      rw [Finset.mem_range] at he
      rw [if_neg]
      rintro ⟨_, h2⟩
      exact hne (hP.inj q hq e he _ hl'.1 (h2.trans hl'.2.symm))
    · intro h; exact absurd (Finset.mem_range.2 hl'.1) h
    · intro d hd hne
      rw [Finset.mem_range] at hd
      apply Finset.sum_eq_zero
      intro e _
      rw [if_neg]
      rintro ⟨h1, _⟩
      exact hne (hP.inj q hq d hd _ hl.1 (h1.trans hl.2.symm))
    · intro h; exact absurd (Finset.mem_range.2 hl.1) h
  · rw [if_neg hs]
    apply Finset.sum_eq_zero
    intro d hd
    apply Finset.sum_eq_zero
    intro e he
    rw [Finset.mem_range] at hd he
    rw [if_neg]
    rintro ⟨h1, h2⟩
    exact hs ⟨shares_iff.2 ⟨d, hd, h1⟩, shares_iff.2 ⟨e, he, h2⟩⟩

theorem masterOf_spec {P : PD} {p d : ℕ} (hp : p < P.np) (hd : d < P.ndof p) :
    masterOf P p d = if P.owner (P.glob p d) = p then none else some (P.owner (P.glob p d)) := by
  have row : ∀ (q : ℕ) (l : List ℕ) (m : ℕ → Option ℕ),
      l.foldl (fun m d => Function.update m d (some q)) m = fun d => if d ∈ l then some q else m d := by
    intro q l
    induction l with
    | nil => intro m; simp
    | cons a l ih =>
      intro m
      rw [List.foldl_cons, ih]
      funext d
      by_cases h1 : d ∈ l <;> by_cases h2 : d = a <;> simp [h1, h2]
  have key : ∀ (qs : List ℕ) (m : ℕ → Option ℕ),
      (qs.foldl (fun m q => (P.gEx p q).foldl (fun m d => Function.update m d (some q)) m) m) d =
        if P.owner (P.glob p d) ≠ p ∧ P.owner (P.glob p d) ∈ qs then some (P.owner (P.glob p d)) else m d := by
    intro qs
    induction qs with
    | nil => intro m; simp
    | cons a qs ih =>
      intro m
      rw [List.foldl_cons, ih, row]
      simp only
      by_cases h1 : P.owner (P.glob p d) ≠ p
      · by_cases h2 : P.owner (P.glob p d) ∈ qs
        · rw [if_pos ⟨h1, h2⟩, if_pos ⟨h1, List.mem_cons_of_mem _ h2⟩]
        · rw [if_neg (fun h => h2 h.2)]
          by_cases h3 : P.owner (P.glob p d) = a
          · have : d ∈ P.gEx p a := (mem_gEx hp).2 ⟨hd, h3, h3 ▸ h1⟩
            rw [if_pos this, if_pos ⟨h1, by rw [h3]; exact List.mem_cons_self⟩, h3]
          · have : d ∉ P.gEx p a := fun h => h3 ((mem_gEx hp).1 h).2.1
            rw [if_neg this, if_neg]
            rintro ⟨_, h⟩
            rcases List.mem_cons.1 h with h | h
            · exact h3 h
            · exact h2 h
      · have hn : d ∉ P.gEx p a := by
          intro h
          rw [mem_gEx hp] at h
          exact h1 (by rw [h.2.1]; exact h.2.2)
        simp only [h1, false_and, if_false, hn]
  rw [masterOf, key]
  by_cases h1 : P.owner (P.glob p d) = p
  · rw [if_pos h1, if_neg (fun h => h.1 h1)]
  · have : d ∈ P.gEx p (P.owner (P.glob p d)) := (mem_gEx hp).2 ⟨hd, rfl, h1⟩
    rw [if_neg h1, if_pos ⟨h1, gEx_exProcs hp this⟩]

theorem masterOf_ne {P : PD} {p d e : ℕ} (hp : p < P.np) (hd : d < P.ndof p) (he : e < P.ndof p) :
    (masterOf P p e != masterOf P p d) = true ↔ P.owner (P.glob p e) ≠ P.owner (P.glob p d) := by
  rw [masterOf_spec hp hd, masterOf_spec hp he, bne_iff_ne, not_iff_not]
  by_cases h1 : P.owner (P.glob p d) = p <;> by_cases h2 : P.owner (P.glob p e) = p
  · simp [h1, h2]
  · simp only [h1, h2, if_true, if_false, reduceCtorEq]
  · simp only [h1, h2, if_true, if_false, reduceCtorEq, false_iff]
    exact fun h => h1 h.symm
  · simp [h1, h2]

theorem isMaster_iff {P : PD} {p d : ℕ} (hp : p < P.np) (hd : d < P.ndof p) :
    P.isMaster p d = true ↔ P.owner (P.glob p d) = p := by
  have := (ghost_iff (P := P) hp hd).1
  rw [PD.isMaster, Bool.not_eq_true', ← Bool.not_eq_true, this, not_not]

/-- the local matrices fit the DOFs -/
def Fits (P : PD) (A : ℕ → CSR E) : Prop := ∀ p < P.np, (A p).WF ∧ (A p).height = P.ndof p ∧ (A p).width = P.ndof p

/-- no entries -/
def emptyM : CSR E := ⟨0, 0, fun _ => []⟩

/-- what process `p` gets -/
structure LocalSpec [AddCommMonoid E] (P : PD) (A : ℕ → CSR E) (p : ℕ) (M : CSR E) (G : Option (CSR E)) : Prop where
  wfM : M.WF
  dimM : M.height = P.ndof p ∧ M.width = P.ndof p
  wfG : (G.getD emptyM).WF
  entryM : ∀ d < P.ndof p, ∀ e < P.ndof p, M.entry d e =
    if P.owner (P.glob p d) = p ∧ P.owner (P.glob p e) = p then gop P A (P.glob p d) (P.glob p e) else 0
  entryG : ∀ d < P.ndof p, ∀ e < P.ndof p, (G.getD emptyM).entry d e =
    if P.owner (P.glob p d) ≠ P.owner (P.glob p e) then (A p).entry d e else 0
  graphM : ∀ d, ∀ e ∈ M.row d, P.owner (P.glob p d) = p ∧ P.owner (P.glob p e.1) = p
  graphG : ∀ d, ∀ e ∈ (G.getD emptyM).row d, P.owner (P.glob p d) ≠ P.owner (P.glob p e.1)
  dimG : (G.getD emptyM).width ≤ P.ndof p ∧ (G.getD emptyM).height ≤ P.ndof p
  noG : G = none → P.exProcs p = []

theorem entry_filter [AddCommMonoid E] (row : List (ℕ × E)) (f : ℕ × E → Bool) (c : ℕ) (b : Bool)
    (h : ∀ e ∈ row, e.1 = c → f e = b) : rEntry (row.filter f) c = if b then rEntry row c else 0 := by
  induction row with
  | nil => simp [rEntry]
  | cons e row ih =>
    have hi := ih fun e he => h e (List.mem_cons_of_mem _ he)
    have he := h e List.mem_cons_self
    rw [List.filter_cons, rEntry_cons]
    by_cases hc : e.1 = c
    · rw [he hc]
      cases b with
      | true => simp only [if_true, rEntry_cons] at hi ⊢; rw [hi]
      | false => simpa using hi
    · cases hf : f e with
      | true => simp only [if_true, rEntry_cons, hc, if_false, zero_add]; exact hi
      | false => simp only [Bool.false_eq_true, if_false, hc, zero_add]; exact hi

/-- **C19**, one process: with the matrices sent by the neighbours, no access leaves an array, and the result is the master-master
part of the *global* operator and the local entries between DOFs of different masters. -/
theorem decompose_spec [AddCommMonoid E] {P : PD} (hP : P.WF) (A : ℕ → CSR E) (hA : Fits P A) {p : ℕ} (hp : p < P.np) :
    ∃ M G, decompose P p (A p) (fun q => if (P.exProcs p).contains q = true then spmDiag (A q) (P.gEx q p) else none) =
      some (M, G) ∧ LocalSpec P A p M G := by
  obtain ⟨hwf, hH, hW⟩ := hA p hp
  by_cases hex : P.exProcs p = []
  · -- no neighbours
    have hdps : ∀ d < P.ndof p, ∀ q < P.np, P.shares q (P.glob p d) = true → q = p := by
      intro d hd q hq hs
      by_contra hne
      have : q ∈ P.exProcs p := mem_exProcs.2 ⟨hq, d, hd, hne, hs⟩
      rw [hex] at this
      simp at this
    have how : ∀ d < P.ndof p, P.owner (P.glob p d) = p := by
      intro d hd
      have ho := owner_spec hp (shares_glob hd)
      exact hdps d hd _ (by omega) ho.1
    refine ⟨A p, none, by simp [decompose, hex], hwf, ⟨hH, hW⟩, ?_, ?_, ?_, ?_, ?_, by simp [emptyM], fun _ => hex⟩
    · exact ⟨by simp [emptyM], by simp [emptyM], by simp [emptyM]⟩
    · intro d hd e he
      rw [if_pos ⟨how d hd, how e he⟩, gop_at hP, Finset.sum_eq_single p]
      · rw [if_pos ⟨shares_glob hd, shares_glob he⟩, loc_glob hP hp hd, loc_glob hP hp he]
      · intro q hq hne
        rw [if_neg]
        rintro ⟨h1, _⟩
        exact hne (hdps d hd q (Finset.mem_range.1 hq) h1)
      · intro h; exact absurd (Finset.mem_range.2 hp) h
    · intro d hd e he
      rw [how d hd, how e he]
      simp [emptyM, CSR.entry]
    · intro d e he
      have hd : d < P.ndof p := by
        by_contra hn
        rw [hwf.outside d (by omega)] at he
        simp at he
      exact ⟨how d hd, how e.1 (by have := hwf.inRange d e he; omega)⟩
    · simp [emptyM]
  · -- neighbours
    have hall : (P.exProcs p).all (fun q =>
        (if (P.exProcs p).contains q = true then spmDiag (A q) (P.gEx q p) else none).isSome) = true := by
      rw [List.all_eq_true]
      intro q hq
      rw [if_pos (List.contains_iff_mem.2 hq), spmDiag_eq _ (gEx_sorted q p)]
      rfl
    have horig : ∀ q ∈ P.exProcs p,
        (if (P.exProcs p).contains q = true then spmDiag (A q) (P.gEx q p) else none).getD [] =
          (P.gEx q p).map fun d => ((A q).row d).filterMap fun e =>
            if e.1 ∈ P.gEx q p then some ((P.gEx q p).idxOf e.1, e.2) else none := by
      intro q hq
      rw [if_pos (List.contains_iff_mem.2 hq), spmDiag_eq _ (gEx_sorted q p)]
      rfl
    obtain ⟨M, hM, hMH, hMW, hrows, hout⟩ := buildM_spec P p (A p) hwf.sorted hH
      (fun q => (if (P.exProcs p).contains q = true then spmDiag (A q) (P.gEx q p) else none).getD [])
      (fun q => (P.mEx p q).map (rRow P p q (A q)))
      (by
        intro q hq
        have hq' := exProcs_ne hq
        rw [horig q hq, List.length_map, gEx_eq_map hP hp hq'.1 (Ne.symm hq'.2), List.length_map])
      (by intro q _; rw [List.length_map])
      (by
        intro q hq k r r' h1 h2
        have hq' := exProcs_ne hq
        rw [horig q hq, gEx_eq_map hP hp hq'.1 (Ne.symm hq'.2), List.map_map, List.getElem?_map,
          ← gEx_eq_map hP hp hq'.1 (Ne.symm hq'.2)] at h1
        rw [List.getElem?_map] at h2
        cases hk : (P.mEx p q)[k]? with
        | none => rw [hk] at h1; simp at h1
        | some d =>
          rw [hk, Option.map_some, Option.some.injEq] at h1 h2
          subst h1 h2
          simp only [fixRow, if_true, Function.comp]
          exact remap_spec hP hp hq'.1 (Ne.symm hq'.2) _)
      (by
        intro q hq r hr
        have hq' := exProcs_ne hq
        obtain ⟨d, _, rfl⟩ := List.mem_map.1 hr
        exact rRow_sorted hP hp hq'.1 _ (hA q hq'.1).1.sorted d)
    -- the received rows
    have hrecv : ∀ i, recvRows P p (fun q => (P.mEx p q).map (rRow P p q (A q))) i =
        ((P.exProcs p).filter fun q => i ∈ P.mEx p q).map fun q => rRow P p q (A q) i := by
      intro i
      rw [recvRows]
      apply List.map_congr_left
      intro q hq
      rw [List.mem_filter] at hq
      have hm : i ∈ P.mEx p q := by simpa using hq.2
      rw [List.getElem?_map, (cnt_mem (mEx_sorted p q) hm).1]
      rfl
    have hcolR : ∀ i, ∀ r ∈ recvRows P p (fun q => (P.mEx p q).map (rRow P p q (A q))) i, ∀ c ∈ r.map Prod.fst,
        c < P.ndof p ∧ P.owner (P.glob p c) = p := by
      intro i r hr c hc
      rw [hrecv] at hr
      obtain ⟨q, hq, rfl⟩ := List.mem_map.1 hr
      rw [List.mem_filter] at hq
      have hq' := exProcs_ne hq.1
      rw [rRow, List.map_filterMap, List.mem_filterMap] at hc
      obtain ⟨e, _, he⟩ := hc
      by_cases h1 : e.1 ∈ P.gEx q p
      · simp only [h1, if_true, Option.map_some, Option.some.injEq] at he
        rw [mem_gEx hq'.1] at h1
        have ho := owner_spec hq'.1 (shares_glob h1.1)
        rw [h1.2.1] at ho
        have hl := loc_spec ho.1
        rw [← he]
        exact ⟨hl.1, by rw [hl.2]; exact h1.2.1⟩
      · simp [h1] at he
    have hcolO : ∀ i, ∀ c ∈ ownCols P p (A p) i, c < P.ndof p ∧ P.owner (P.glob p c) = p := by
      intro i c hc
      rw [ownCols, List.mem_filter] at hc
      obtain ⟨e, he, rfl⟩ := List.mem_map.1 hc.1
      have : e.1 < P.ndof p := by have := hwf.inRange i e he; omega
      exact ⟨this, (isMaster_iff hp this).1 hc.2⟩
    refine ⟨M, some (buildG P p (A p)), ?_, ?_⟩
    · rw [decompose, if_neg (by simpa using hex), if_pos hall]
      simp only [hM, Option.bind_eq_bind, Option.bind_some]
    constructor
    · -- well-formed
      refine ⟨?_, ?_, fun i hi => hout i (by omega)⟩
      · intro i
        by_cases hi : i < P.ndof p
        · by_cases hm : P.isMaster p i = true
          · obtain ⟨cols, cs, _, hr⟩ := (hrows i hi).2 hm
            rw [hr, List.map_map]
            simpa [Function.comp_def] using cs
          · rw [(hrows i hi).1 (by simpa using hm)]; simp
        · rw [hout i (by omega)]; simp
      · intro i e he
        by_cases hi : i < P.ndof p
        · by_cases hm : P.isMaster p i = true
          · obtain ⟨cols, _, cm, hr⟩ := (hrows i hi).2 hm
            rw [hr, List.mem_map] at he
            obtain ⟨c, hc, rfl⟩ := he
            rcases (cm c).1 hc with h | ⟨r, h1, h2⟩
            · rw [hMW]; exact (hcolO i c h).1
            · rw [hMW]; exact (hcolR i r h1 c h2).1
          · rw [(hrows i hi).1 (by simpa using hm)] at he; simp at he
        · rw [hout i (by omega)] at he; simp at he
    · exact ⟨hMH, hMW⟩
    · refine ⟨?_, ?_, ?_⟩
      · intro i
        exact ((hwf.sorted i).sublist ((List.filter_sublist).map _))
      · intro i e he
        have := hwf.inRange i e (List.mem_of_mem_filter he)
        show e.1 < (A p).height
        omega
      · intro i hi
        have : (A p).row i = [] := hwf.outside i hi
        show ((A p).row i).filter _ = []
        rw [this]; rfl
    · intro d hd e he
      by_cases hmd : P.owner (P.glob p d) = p
      · obtain ⟨cols, cs, cm, hr⟩ := (hrows d hd).2 ((isMaster_iff hp hd).2 hmd)
        by_cases hme : P.owner (P.glob p e) = p
        · rw [if_pos ⟨hmd, hme⟩]
          have hF : ∀ j, j ∉ cols → P.owner (P.glob p j) = p → j < P.ndof p → rEntry ((A p).row d) j +
              ((recvRows P p (fun q => (P.mEx p q).map (rRow P p q (A q))) d).map fun r => rEntry r j).sum = 0 := by
            intro j hj hjo hjn
            rw [cm j, not_or] at hj
            rw [rEntry_zero, zero_add]
            · apply List.sum_eq_zero
              intro x hx
              obtain ⟨r, hr', rfl⟩ := List.mem_map.1 hx
              exact rEntry_zero _ _ fun hc => hj.2 ⟨r, hr', hc⟩
            · intro hc
              refine hj.1 ?_
              rw [ownCols, List.mem_filter]
              exact ⟨hc, (isMaster_iff hp hjn).2 hjo⟩
          have hentry : M.entry d e = rEntry ((A p).row d) e +
              ((recvRows P p (fun q => (P.mEx p q).map (rRow P p q (A q))) d).map fun r => rEntry r e).sum := by
            by_cases hec : e ∈ cols
            · apply SparseMM.entry_of_mem
              · rw [hr, List.map_map]; simpa [Function.comp_def] using cs
              · rw [hr]; exact List.mem_map.2 ⟨e, hec, rfl⟩
            · rw [hF e hec hme he]
              apply SparseMM.entry_of_not_mem
              intro v hv
              rw [hr, List.mem_map] at hv
              obtain ⟨x, hx, hxe⟩ := hv
              simp only [Prod.mk.injEq] at hxe
              rw [hxe.1] at hx
              exact hec hx
          rw [hentry, hrecv, List.map_map, gop_at hP, ← Finset.add_sum_erase _ _ (Finset.mem_range.2 hp),
            if_pos ⟨shares_glob hd, shares_glob he⟩, loc_glob hP hp hd, loc_glob hP hp he]
          congr 1
          have hl : (((P.exProcs p).filter fun q => d ∈ P.mEx p q).map ((fun r => rEntry r e) ∘ fun q => rRow P p q (A q) d)).sum =
              ∑ q ∈ ((P.exProcs p).filter fun q => d ∈ P.mEx p q).toFinset, rEntry (rRow P p q (A q) d) e :=
            (List.sum_toFinset _ ((exProcs_nodup p).filter _)).symm
          rw [hl]
          have hsub : ((P.exProcs p).filter fun q => d ∈ P.mEx p q).toFinset ⊆ (Finset.range P.np).erase p := by
            intro q hq
            rw [List.mem_toFinset, List.mem_filter] at hq
            have := exProcs_ne hq.1
            simp [this]
          rw [← Finset.sum_subset hsub]
          · apply Finset.sum_congr rfl
            intro q hq
            rw [List.mem_toFinset, List.mem_filter] at hq
            have hq' := exProcs_ne hq.1
            have hdm : d ∈ P.mEx p q := by simpa using hq.2
            rw [rEntry_rRow hP hp hq'.1 (Ne.symm hq'.2) _ _ _ he]
            have hsd := ((mem_mEx hp).1 hdm).2.2.2.2
            have : e ∈ P.mEx p q ↔ P.shares q (P.glob p d) = true ∧ P.shares q (P.glob p e) = true := by
              rw [mem_mEx hp]
              exact ⟨fun h => ⟨hsd, h.2.2.2.2⟩, fun h => ⟨he, hme, hq'.1, hq'.2, h.2⟩⟩
            simp only [this]
          · intro q hq hnq
            rw [Finset.mem_erase, Finset.mem_range] at hq
            rw [if_neg]
            rintro ⟨h1, _⟩
            have hdm : d ∈ P.mEx p q := (mem_mEx hp).2 ⟨hd, hmd, hq.2, hq.1, h1⟩
            apply hnq
            rw [List.mem_toFinset, List.mem_filter]
            exact ⟨mEx_exProcs hp hdm, by simpa using hdm⟩
        · rw [if_neg (fun h => hme h.2)]
          apply SparseMM.entry_of_not_mem
          intro v hv
          rw [hr, List.mem_map] at hv
          obtain ⟨x, hx, hxe⟩ := hv
          simp only [Prod.mk.injEq] at hxe
          rw [hxe.1] at hx
          rcases (cm e).1 hx with h | ⟨r, h1, h2⟩
          · exact hme (hcolO d e h).2
          · exact hme (hcolR d r h1 e h2).2
      · rw [if_neg (fun h => hmd h.1)]
        have : P.isMaster p d = false := by
          rw [← Bool.not_eq_true, isMaster_iff hp hd]; exact hmd
        apply SparseMM.entry_of_not_mem
        intro v
        rw [(hrows d hd).1 this]
        simp
    · intro d hd e he
      show rEntry (((A p).row d).filter fun e => masterOf P p e.1 != masterOf P p d) e = _
      rw [entry_filter _ _ e (decide (P.owner (P.glob p d) ≠ P.owner (P.glob p e)))]
      · simp only [decide_eq_true_eq]; rfl
      · rintro x hx rfl
        rw [Bool.eq_iff_iff, masterOf_ne hp hd he, decide_eq_true_eq, ne_comm]
    · intro d e he
      by_cases hd : d < P.ndof p
      · by_cases hm : P.isMaster p d = true
        · obtain ⟨cols, _, cm, hr⟩ := (hrows d hd).2 hm
          rw [hr, List.mem_map] at he
          obtain ⟨c, hc, rfl⟩ := he
          refine ⟨(isMaster_iff hp hd).1 hm, ?_⟩
          rcases (cm c).1 hc with h | ⟨r, h1, h2⟩
          · exact (hcolO d c h).2
          · exact (hcolR d r h1 c h2).2
        · rw [(hrows d hd).1 (by simpa using hm)] at he; simp at he
      · rw [hout d (by omega)] at he; simp at he
    · intro d e he
      have he' : e ∈ (A p).row d := List.mem_of_mem_filter he
      have hd : d < P.ndof p := by
        by_contra hn
        rw [hwf.outside d (by omega)] at he'
        simp at he'
      have hen : e.1 < P.ndof p := by have := hwf.inRange d e he'; omega
      have h2 := List.of_mem_filter he
      rw [masterOf_ne hp hd hen] at h2
      exact fun h => h2 h.symm
    · show (A p).height ≤ _ ∧ (A p).height ≤ _
      omega
    · simp

/-- the two parts of all processes represent the operator -/
theorem gop_split [AddCommMonoid E] {P : PD} (hP : P.WF) (A : ℕ → CSR E) (M : ℕ → CSR E) (G : ℕ → Option (CSR E))
    (hMG : ∀ p < P.np, LocalSpec P A p (M p) (G p)) (g h : ℕ) :
    gop P M g h + gop P (fun p => (G p).getD emptyM) g h = gop P A g h := by
  rw [gop_at hP M, gop_at hP (fun p => (G p).getD emptyM)]
  by_cases hsh : ∃ q < P.np, P.shares q g = true ∧ P.shares q h = true
  · obtain ⟨q, hq, hg, hh⟩ := hsh
    by_cases how : P.owner g = P.owner h
    · -- one process is master of both
      have ho := owner_spec hq hg
      have ho' := owner_spec hq hh
      rw [Finset.sum_eq_single (P.owner g)]
      · have l1 := loc_spec ho.1
        have l2 : P.loc (P.owner g) h < P.ndof (P.owner g) ∧ P.glob (P.owner g) (P.loc (P.owner g) h) = h := by
          rw [how]; exact loc_spec ho'.1
        rw [if_pos ⟨ho.1, by rw [how]; exact ho'.1⟩, (hMG _ (by omega)).entryM _ l1.1 _ l2.1, l1.2, l2.2,
          if_pos ⟨rfl, how.symm⟩]
        rw [Finset.sum_eq_zero, add_zero]
        intro r hrr
        rw [Finset.mem_range] at hrr
        by_cases hs : P.shares r g = true ∧ P.shares r h = true
        · have m1 := loc_spec hs.1
          have m2 := loc_spec hs.2
          rw [if_pos hs, (hMG r hrr).entryG _ m1.1 _ m2.1, m1.2, m2.2, if_neg (by simp [how])]
        · rw [if_neg hs]
      · intro r hrr hne
        rw [Finset.mem_range] at hrr
        by_cases hs : P.shares r g = true ∧ P.shares r h = true
        · have m1 := loc_spec hs.1
          have m2 := loc_spec hs.2
          rw [if_pos hs, (hMG r hrr).entryM _ m1.1 _ m2.1, m1.2, m2.2, if_neg]
          rintro ⟨h1, _⟩
          exact hne h1.symm
        · rw [if_neg hs]
      · intro hn
        exact absurd (Finset.mem_range.2 (by omega)) hn
    · rw [Finset.sum_eq_zero, zero_add, gop_at hP]
      · apply Finset.sum_congr rfl
        intro r hrr
        rw [Finset.mem_range] at hrr
        by_cases hs : P.shares r g = true ∧ P.shares r h = true
        · have m1 := loc_spec hs.1
          have m2 := loc_spec hs.2
          rw [if_pos hs, if_pos hs, (hMG r hrr).entryG _ m1.1 _ m2.1, m1.2, m2.2, if_pos how]
        · rw [if_neg hs, if_neg hs]
      · intro r hrr
        rw [Finset.mem_range] at hrr
        by_cases hs : P.shares r g = true ∧ P.shares r h = true
        · have m1 := loc_spec hs.1
          have m2 := loc_spec hs.2
          rw [if_pos hs, (hMG r hrr).entryM _ m1.1 _ m2.1, m1.2, m2.2, if_neg]
          rintro ⟨h1, h2⟩
          exact how (h1.trans h2.symm)
        · rw [if_neg hs]
  · push Not at hsh
    have hz : ∀ B : ℕ → CSR E, (∑ q ∈ Finset.range P.np,
        if P.shares q g = true ∧ P.shares q h = true then (B q).entry (P.loc q g) (P.loc q h) else 0) = 0 := by
      intro B
      apply Finset.sum_eq_zero
      intro q hq
      rw [if_neg]
      rintro ⟨h1, h2⟩
      exact hsh q (Finset.mem_range.1 hq) h1 h2
    rw [hz, hz, gop_at hP, hz, add_zero]

theorem decompose_matched [AddCommMonoid E] {P : PD} : Matched P.np [decomposePhase (E := E) P] := by
  have sym : ∀ p < P.np, ∀ q < P.np, q ∈ P.exProcs p → p ∈ P.exProcs q := by
    intro p hp q hq h
    obtain ⟨_, d, hd, hne, hs⟩ := mem_exProcs.1 h
    have hl := loc_spec hs
    exact mem_exProcs.2 ⟨hp, _, hl.1, Ne.symm hne, by rw [hl.2]; exact shares_glob hd⟩
  intro ph hph p hp
  rw [List.mem_singleton] at hph
  subst hph
  have hlt : ∀ q, (P.exProcs p).contains q = true → q < P.np := fun q h => (exProcs_ne (List.contains_iff_mem.1 h)).1
  refine ⟨fun q hq => ?_, hlt, hlt⟩
  show (P.exProcs p).contains q = (P.exProcs q).contains p
  rw [Bool.eq_iff_iff, List.contains_iff_mem, List.contains_iff_mem]
  exact ⟨sym p hp q hq, sym q hq p hp⟩

/-- **C19.** In every schedule, when all processes are done: no access has left an array; the sum of the two parts represents the
same global operator as the given matrices; `M` couples only masters of its own process and `G` only DOFs with different masters. -/
theorem decompose_correct [AddCommMonoid E] {P : PD} (hP : P.WF) (A : ℕ → CSR E) (hA : Fits P A) {n : ℕ}
    {s : St (CSR E × Option (CSR E × Option (CSR E))) (Option (Rows E))}
    (hr : Reach P.np [decomposePhase P] (fun p => (A p, none)) n s) (hf : Final P.np [decomposePhase P] s) :
    ∃ (M : ℕ → CSR E) (G : ℕ → Option (CSR E)), (∀ p < P.np, (s.vec p).2 = some (M p, G p)) ∧
      (∀ p < P.np, LocalSpec P A p (M p) (G p)) ∧
      ∀ g h, gop P M g h + gop P (fun p => (G p).getD emptyM) g h = gop P A g h := by
  have hmat := decompose_matched (E := E) (P := P)
  have hfin := (final_state hmat hr hf).1
  have hex : ∀ p, ∃ MG : CSR E × Option (CSR E), p < P.np → (s.vec p).2 = some MG ∧ LocalSpec P A p MG.1 MG.2 := by
    intro p
    by_cases hp : p < P.np
    · obtain ⟨M, G, h1, h2⟩ := decompose_spec hP A hA hp
      refine ⟨(M, G), fun _ => ⟨?_, h2⟩⟩
      rw [hfin p hp]
      exact h1
    · exact ⟨(emptyM, none), fun h => absurd h hp⟩
  choose MG hMG using hex
  refine ⟨fun p => (MG p).1, fun p => (MG p).2, fun p hp => (hMG p hp).1, fun p hp => (hMG p hp).2, ?_⟩
  exact gop_split hP A _ _ fun p hp => (hMG p hp).2

/-! ### a concrete case -/

/-- on each of the three processes of `exPD` a full 3 x 3 matrix -/
def exA (p : ℕ) : CSR ℤ := ⟨3, 3, fun i => if i < 3 then [(0, (p : ℤ) + 1), (1, i), (2, 10)] else []⟩

theorem exA_fits : Fits exPD exA := by
  intro p _
  refine ⟨⟨?_, ?_, ?_⟩, rfl, rfl⟩
  · intro i
    by_cases h : i < 3 <;> simp [exA, h]
  · intro i e he
    by_cases h : i < 3
    · simp only [exA, h, if_true, List.mem_cons, List.not_mem_nil, or_false] at he
      rcases he with rfl | rfl | rfl <;> simp [exA]
    · simp [exA, h] at he
  · intro i hi
    have : ¬ i < 3 := by simpa [exA] using hi
    simp [exA, this]

/-- the hypotheses of `decompose_correct` are met by a complete run -/
example : ∃ n s, Reach exPD.np [decomposePhase exPD] (fun p => (exA p, none)) n s ∧ Final exPD.np [decomposePhase exPD] s := by
  refine exists_final ?_ _
  intro ph hph p hp
  rw [List.mem_singleton] at hph
  subst hph
  have h3 : p < 3 := hp
  have hlt : ∀ q, (exPD.exProcs p).contains q = true → q < exPD.np := fun q h => (exProcs_ne (List.contains_iff_mem.1 h)).1
  refine ⟨?_, hlt, hlt⟩
  intro q hq
  have h4 : q < 3 := hq
  show (exPD.exProcs p).contains q = (exPD.exProcs q).contains p
  clear hlt
  interval_cases p <;> interval_cases q <;> decide

/-- process 0 is master of both: its entry is the sum over the three processes -/
example : (exPD.exProcs 0, exPD.exProcs 1, exPD.exProcs 2) = ([1, 2], [0, 2], [0, 1]) ∧ gop exPD exA 7 7 = 30 ∧
    ((decompose exPD 0 (exA 0) fun q => spmDiag (exA q) (exPD.gEx q 0)).map fun r => r.1.row 2) =
      some [(0, 1), (1, 2 + 2), (2, 30)] := by
  refine ⟨by decide, by decide, by decide +kernel⟩

end NgsAMG.Hybrid
