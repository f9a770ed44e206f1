import Verif.Props.BTM5

/-! C72: from the rows to the edges of a mesh. -/

namespace NgsAMG.BTM

open NgsAMG.EQC NgsAMG.RedTab

/-! ### lists -/

theorem fold_set_eq {α : Type} (L : List α) (ws : List (ℕ × α)) (hw : ∀ w ∈ ws, L[w.1]? = some w.2)
    (hc : ∀ i < L.length, ∃ w ∈ ws, w.1 = i) :
    ws.foldl (fun a w => a.set w.1 (some w.2)) (List.replicate L.length none) = L.map some := by
  have key : ∀ (ws : List (ℕ × α)) (t : List (Option α)), (∀ w ∈ ws, L[w.1]? = some w.2) → t.length = L.length →
      (ws.foldl (fun a w => a.set w.1 (some w.2)) t).length = L.length ∧
      ∀ i < L.length, (ws.foldl (fun a w => a.set w.1 (some w.2)) t)[i]? =
        if (∃ w ∈ ws, w.1 = i) then some L[i]? else t[i]? := by
    intro ws
    induction ws with
    | nil => intro t _ ht; simp [ht]
    | cons w ws ih =>
      intro t hw ht
      obtain ⟨h1, h2⟩ := ih (t.set w.1 (some w.2)) (fun x hx => hw x (by simp [hx])) (by simpa using ht)
      refine ⟨h1, ?_⟩
      intro i hi
      rw [List.foldl_cons, h2 i hi]
      have hw1 := hw w (by simp)
      by_cases h3 : ∃ x ∈ ws, x.1 = i
      · have : ∃ x ∈ w :: ws, x.1 = i := by
          obtain ⟨x, hx, hxi⟩ := h3
          exact ⟨x, by simp [hx], hxi⟩
        rw [if_pos h3, if_pos this]
      · rw [if_neg h3]
        by_cases h4 : w.1 = i
        · rw [if_pos ⟨w, by simp, h4⟩, ← h4, List.getElem?_set_self (by rw [ht, h4]; exact hi), hw1]
        · have : ¬ ∃ x ∈ w :: ws, x.1 = i := by
            rintro ⟨x, hx, hxi⟩
            rcases List.mem_cons.mp hx with rfl | hx
            · exact h4 hxi
            · exact h3 ⟨x, hx, hxi⟩
          rw [if_neg this, List.getElem?_set_ne h4]
  obtain ⟨h1, h2⟩ := key ws (List.replicate L.length none) hw (by simp)
  apply List.ext_getElem?
  intro i
  by_cases hi : i < L.length
  · rw [h2 i hi, if_pos (hc i hi), List.getElem?_map, List.getElem?_eq_getElem hi]; rfl
  · rw [List.getElem?_eq_none (by omega), List.getElem?_eq_none (by simpa using hi)]

/-- offset of a block -/
def off {α : Type} (B : List (List α)) (k : ℕ) : ℕ := ((B.take k).map List.length).sum

theorem flatten_get {α : Type} (B : List (List α)) {k j : ℕ} {b : List α} (hb : B[k]? = some b) (hj : j < b.length) :
    B.flatten[off B k + j]? = b[j]? := by
  induction B generalizing k with
  | nil => simp at hb
  | cons a B ih =>
    cases k with
    | zero =>
      simp only [List.getElem?_cons_zero, Option.some.injEq] at hb
      subst hb
      simp only [off, List.take_zero, List.map_nil, List.sum_nil, Nat.zero_add, List.flatten_cons]
      rw [List.getElem?_append_left hj]
    | succ k =>
      have := ih (by simpa using hb)
      unfold off at this ⊢
      rw [List.flatten_cons, List.take_succ_cons, List.map_cons, List.sum_cons, List.getElem?_append_right (by omega), ← this]
      congr 1; omega

theorem flatten_index {α : Type} (B : List (List α)) {i : ℕ} (hi : i < B.flatten.length) :
    ∃ (k j : ℕ) (b : List α), B[k]? = some b ∧ j < b.length ∧ i = off B k + j := by
  induction B generalizing i with
  | nil => simp at hi
  | cons a B ih =>
    by_cases h : i < a.length
    · exact ⟨0, i, a, rfl, h, by simp [off]⟩
    · rw [List.flatten_cons, List.length_append] at hi
      obtain ⟨k, j, b, h1, h2, h3⟩ := ih (i := i - a.length) (by omega)
      refine ⟨k + 1, j, b, by simpa using h1, h2, ?_⟩
      unfold off at h3 ⊢
      rw [List.take_succ_cons, List.map_cons, List.sum_cons]
      omega

theorem off_le {α : Type} (B : List (List α)) {k l : ℕ} (h : k ≤ l) : off B k ≤ off B l := by
  unfold off
  rw [List.map_take, List.map_take]
  have : (B.map List.length).take k = ((B.map List.length).take l).take k := by rw [List.take_take, Nat.min_eq_left h]
  rw [this]
  exact List.Sublist.sum_le_sum (List.take_sublist _ _) (fun _ _ => Nat.zero_le _)

theorem off_succ {α : Type} (B : List (List α)) {k : ℕ} {b : List α} (hb : B[k]? = some b) : off B (k + 1) = off B k + b.length := by
  unfold off
  rw [List.take_add_one, hb, List.map_append, List.sum_append]
  simp

theorem off_all {α : Type} (B : List (List α)) : off B B.length = B.flatten.length := by
  unfold off
  rw [List.take_length, List.length_flatten]

theorem edgeDisp_eq {α : Type} (B : List (List α)) (b : List α) : edgeDisp b.length (B.map List.length) = (List.range (B.length + 2)).map (off (b :: B)) := by
  apply List.ext_getElem?
  intro i
  by_cases hi : i < B.length + 2
  · have h1 : (edgeDisp b.length (B.map List.length))[i]? = some (off (b :: B) i) := by
      unfold edgeDisp
      rw [partialSum_get 0 _ i (by simp; omega)]
      rw [List.take_succ_cons, List.sum_cons]
      unfold off
      rw [List.map_take]
      simp
    rw [h1]; simp [hi]
  · rw [List.getElem?_eq_none (by simp [edgeDisp, partialSum_length]; omega), List.getElem?_eq_none (by simp; omega)]

theorem filter_get {α : Type} (P : α → Bool) (l : List α) {i : ℕ} {x : α} (hi : l[i]? = some x) (hx : P x = true) :
    (l.filter P)[(l.take i).countP P]? = some x := by
  induction l generalizing i with
  | nil => simp at hi
  | cons a l ih =>
    cases i with
    | zero =>
      simp only [List.getElem?_cons_zero, Option.some.injEq] at hi
      subst hi
      simp [hx]
    | succ i =>
      have := ih (by simpa using hi)
      rw [List.take_succ_cons, List.countP_cons]
      by_cases ha : P a = true
      · rw [List.filter_cons_of_pos ha, if_pos ha, List.getElem?_cons_succ, this]
      · rw [List.filter_cons_of_neg ha, if_neg ha, Nat.add_zero, this]

theorem filter_index {α : Type} (P : α → Bool) (l : List α) {j : ℕ} {x : α} (hj : (l.filter P)[j]? = some x) :
    ∃ i : ℕ, l[i]? = some x ∧ P x = true ∧ (l.take i).countP P = j := by
  induction l generalizing j with
  | nil => simp at hj
  | cons a l ih =>
    by_cases ha : P a = true
    · rw [List.filter_cons_of_pos ha] at hj
      cases j with
      | zero =>
        simp only [List.getElem?_cons_zero, Option.some.injEq] at hj
        subst hj
        exact ⟨0, by simp, ha, by simp⟩
      | succ j =>
        obtain ⟨i, h1, h2, h3⟩ := ih (by simpa using hj)
        exact ⟨i + 1, by simpa using h1, h2, by simp [ha, h3]⟩
    · rw [List.filter_cons_of_neg ha] at hj
      obtain ⟨i, h1, h2, h3⟩ := ih hj
      exact ⟨i + 1, by simpa using h1, h2, by simp [ha, h3]⟩

/-! ### rows: edges within the class come first -/

theorem in_first {row : List CNode} (hs : row.Pairwise fun a b => smaller a b = true) {j : ℕ} {c : CNode} (hj : row[j]? = some c) :
    c.isIn = true ↔ j < nIn row := by
  induction row generalizing j with
  | nil => simp at hj
  | cons a l ih =>
    obtain ⟨h1, h2⟩ := List.pairwise_cons.mp hs
    by_cases ha : a.isIn = true
    · cases j with
      | zero =>
        simp only [List.getElem?_cons_zero, Option.some.injEq] at hj
        subst hj
        simp [nIn, ha]
      | succ j =>
        have := ih h2 (by simpa using hj)
        unfold nIn at this ⊢
        rw [this, List.takeWhile_cons_of_pos ha, List.length_cons]
        omega
    · have hz : nIn (a :: l) = 0 := by unfold nIn; rw [List.takeWhile_cons_of_neg ha]; rfl
      rw [hz]
      cases j with
      | zero =>
        simp only [List.getElem?_cons_zero, Option.some.injEq] at hj
        subst hj
        simp [ha]
      | succ j =>
        have hc : c ∈ l := List.mem_of_getElem? (by simpa using hj)
        have h3 := h1 c hc
        simp only [Nat.not_lt_zero, iff_false]
        intro hc'
        unfold smaller at h3
        unfold CNode.isIn at hc' ha
        simp [hc', ha] at h3

/-- the edges of a row within the class -/
def rowIn (row : List CNode) : List CNode := row.take (nIn row)

/-- the edges of a row between classes -/
def rowCr (row : List CNode) : List CNode := row.drop (nIn row)

theorem nIn_le (row : List CNode) : nIn row ≤ row.length := List.takeWhile_sublist _ |>.length_le

theorem rowIn_length (row : List CNode) : (rowIn row).length = nIn row := by
  unfold rowIn; rw [List.length_take]; exact Nat.min_eq_left (nIn_le row)

/-! ### the edges of a mesh -/

section
variable (C : Ctx) (items : List Item) (ex : List (List CNode)) (dec : CNode → ℕ × ℕ)

/-- edges within the classes -/
def inB : List (List (ℕ × ℕ)) :=
  ((items.filter fun i => i.cls == 0 && i.isIn).map Item.edge) :: ex.tail.map fun r => (rowIn r).map dec

/-- edges between classes -/
def crB : List (List (ℕ × ℕ)) :=
  ((items.filter fun i => i.cls == 0 && !i.isIn).map Item.edge) :: ex.tail.map fun r => (rowCr r).map dec

/-- all edges in the order of their numbers -/
def allE : List (ℕ × ℕ) := (inB items ex dec).flatten ++ (crB items ex dec).flatten

/-- what is needed of the rows: sorted, and names stand for edges of this process -/
structure RowsOK : Prop where
  len : ex.length = C.T.length
  pos : 0 < C.T.length
  sorted : ∀ (k : ℕ) (row : List CNode), ex[k]? = some row → k ≠ 0 → row.Pairwise fun a b => smaller a b = true
  decIn : ∀ (k : ℕ) (row : List CNode), ex[k]? = some row → k ≠ 0 → ∀ c ∈ row, c.isIn = true →
    eFromEQC C.disp c.v0 k = some (dec c).1 ∧ eFromEQC C.disp c.v1 k = some (dec c).2
  decCr : ∀ (k : ℕ) (row : List CNode), ex[k]? = some row → k ≠ 0 → ∀ c ∈ row, c.isIn = false →
    (C.eqcOfID c.e0).bind (fun k => eFromEQC C.disp c.v0 k) = some (dec c).1 ∧
    (C.eqcOfID c.e1).bind (fun k => eFromEQC C.disp c.v1 k) = some (dec c).2
  items : ∀ it ∈ items, it.cls < C.T.length ∧ (it.cls ≠ 0 → ∃ row, ex[it.cls]? = some row ∧ it.node ∈ row ∧ dec it.node = it.edge ∧
    it.node.isIn = it.isIn)

variable {C items ex dec} (hO : RowsOK C items ex dec)

include hO in
theorem inB_length : (inB items ex dec).length = C.T.length := by
  unfold inB
  rw [List.length_cons, List.length_map, List.length_tail, hO.len]
  have := hO.pos; omega

include hO in
theorem crB_length : (crB items ex dec).length = C.T.length := by
  unfold crB
  rw [List.length_cons, List.length_map, List.length_tail, hO.len]
  have := hO.pos; omega

theorem inB_get {k : ℕ} {row : List CNode} (hk : ex[k]? = some row) (h0 : k ≠ 0) :
    (inB items ex dec)[k]? = some ((rowIn row).map dec) := by
  cases k with
  | zero => exact absurd rfl h0
  | succ k =>
    unfold inB
    rw [List.getElem?_cons_succ, List.getElem?_map, List.getElem?_tail, hk]; rfl

theorem crB_get {k : ℕ} {row : List CNode} (hk : ex[k]? = some row) (h0 : k ≠ 0) :
    (crB items ex dec)[k]? = some ((rowCr row).map dec) := by
  cases k with
  | zero => exact absurd rfl h0
  | succ k =>
    unfold crB
    rw [List.getElem?_cons_succ, List.getElem?_map, List.getElem?_tail, hk]; rfl

theorem allE_in {k j : ℕ} {b : List (ℕ × ℕ)} (hb : (inB items ex dec)[k]? = some b) (hj : j < b.length) :
    (allE items ex dec)[off (inB items ex dec) k + j]? = b[j]? := by
  have h := flatten_get _ hb hj
  unfold allE
  rw [List.getElem?_append_left, h]
  rw [List.getElem?_eq_getElem hj] at h
  exact (List.getElem?_eq_some_iff.mp h).1

theorem allE_cr {k j : ℕ} {b : List (ℕ × ℕ)} (hb : (crB items ex dec)[k]? = some b) (hj : j < b.length) :
    (allE items ex dec)[(inB items ex dec).flatten.length + off (crB items ex dec) k + j]? = b[j]? := by
  have h := flatten_get _ hb hj
  unfold allE
  rw [List.getElem?_append_right (by omega), ← h]
  congr 1; omega

/-- number of an edge of a row -/
def numOf (items : List Item) (ex : List (List CNode)) (dec : CNode → ℕ × ℕ) (k : ℕ) (row : List CNode) (j : ℕ) : ℕ :=
  if j < nIn row then off (inB items ex dec) k + j
  else (inB items ex dec).flatten.length + off (crB items ex dec) k + (j - nIn row)

theorem allE_row {k j : ℕ} {row : List CNode} {c : CNode} (hk : ex[k]? = some row) (h0 : k ≠ 0) (hj : row[j]? = some c) :
    (allE items ex dec)[numOf items ex dec k row j]? = some (dec c) := by
  have hjl : j < row.length := (List.getElem?_eq_some_iff.mp hj).1
  unfold numOf
  by_cases h : j < nIn row
  · rw [if_pos h, allE_in (inB_get hk h0) (by rw [List.length_map, rowIn_length]; exact h), List.getElem?_map]
    unfold rowIn
    rw [List.getElem?_take_of_lt h, hj]; rfl
  · rw [if_neg h, allE_cr (crB_get hk h0) (by rw [List.length_map, rowCr, List.length_drop]; omega), List.getElem?_map]
    unfold rowCr
    rw [List.getElem?_drop, show nIn row + (j - nIn row) = j by omega, hj]; rfl

include hO in
theorem rowWrites_eq {k : ℕ} {row : List CNode} (hk : ex[k]? = some row) (h0 : k ≠ 0) {dE dC : List ℕ}
    (hE : dE[k]? = some (off (inB items ex dec) k)) (hC : dC[k]? = some (off (crB items ex dec) k)) :
    rowWrites C dE dC (inB items ex dec).flatten.length k row =
      some (row.zipIdx.map fun w => (numOf items ex dec k row w.2, dec w.1)) := by
  unfold rowWrites
  apply mapM_some_of
  rintro ⟨c, j⟩ hcj
  have hj : row[j]? = some c := by
    have := List.mem_zipIdx_iff_getElem?.mp hcj
    exact this
  have hc := List.mem_of_getElem? hj
  have hin := in_first (hO.sorted k row hk h0) hj
  unfold numOf
  by_cases h : j < nIn row
  · obtain ⟨e1, e2⟩ := hO.decIn k row hk h0 c hc (hin.mpr h)
    simp only [h, if_true, e1, e2, Option.bind_some, hE, Option.map_some]
  · have hf : c.isIn = false := by
      rw [← Bool.not_eq_true]; intro h'; exact h (hin.mp h')
    obtain ⟨e1, e2⟩ := hO.decCr k row hk h0 c hc hf
    obtain ⟨k0, f1, f2⟩ := Option.bind_eq_some_iff.mp e1
    obtain ⟨k1, g1, g2⟩ := Option.bind_eq_some_iff.mp e2
    simp only [h, if_false, f1, f2, g1, g2, Option.bind_some, hC, Option.map_some]

/-- the numbers `place` gives to the items -/
theorem place_eq {dE dC : List ℕ} (hE : ∀ k < C.T.length, dE[k]? = some (off (inB items ex dec) k))
    (hC : ∀ k < C.T.length, dC[k]? = some (off (crB items ex dec) k)) (hO : RowsOK C items ex dec) (is : List Item) (his : ∀ it ∈ is, it ∈ items) (c0 c1 : ℕ) :
    ∃ pl, place ex dE dC (inB items ex dec).flatten.length c0 c1 is = some pl ∧ pl.length = is.length ∧
      ∀ (i : ℕ) (it : Item), is[i]? = some it → ∃ w, pl[i]? = some w ∧
        ((it.cls = 0 ∧ it.isIn = true ∧ w = (c0 + (is.take i).countP (fun i => i.cls == 0 && i.isIn), some it.edge)) ∨
         (it.cls = 0 ∧ it.isIn = false ∧ w = (c1 + (is.take i).countP (fun i => i.cls == 0 && !i.isIn), some it.edge)) ∨
         (it.cls ≠ 0 ∧ ∃ row j, ex[it.cls]? = some row ∧ row[j]? = some it.node ∧ w = (numOf items ex dec it.cls row j, none))) := by
  induction is generalizing c0 c1 with
  | nil => exact ⟨[], rfl, rfl, by simp⟩
  | cons x is ih =>
    have his' : ∀ it ∈ is, it ∈ items := fun it h => his it (by simp [h])
    obtain ⟨hcl, hrow⟩ := hO.items x (his x (by simp))
    by_cases h0 : x.cls = 0
    · by_cases hin : x.isIn = true
      · obtain ⟨pl, p1, p2, p3⟩ := ih his' (c0 + 1) c1
        refine ⟨(c0, some x.edge) :: pl, by simp only [place, h0, hin, if_true, p1, Option.map_some], by simp [p2], ?_⟩
        intro i it hi
        cases i with
        | zero =>
          simp only [List.getElem?_cons_zero, Option.some.injEq] at hi
          subst hi
          exact ⟨_, rfl, Or.inl ⟨h0, hin, by simp⟩⟩
        | succ i =>
          obtain ⟨w, w1, w2⟩ := p3 i it (by simpa using hi)
          refine ⟨w, by simpa using w1, ?_⟩
          have e1 : ((x :: is).take (i + 1)).countP (fun i => i.cls == 0 && i.isIn) = (is.take i).countP (fun i => i.cls == 0 && i.isIn) + 1 := by
            simp [h0, hin]
          have e2 : ((x :: is).take (i + 1)).countP (fun i => i.cls == 0 && !i.isIn) = (is.take i).countP (fun i => i.cls == 0 && !i.isIn) := by
            simp [hin]
          rw [e1, e2, show c0 + ((is.take i).countP (fun i => i.cls == 0 && i.isIn) + 1) = c0 + 1 + (is.take i).countP (fun i => i.cls == 0 && i.isIn) by omega]
          exact w2
      · obtain ⟨pl, p1, p2, p3⟩ := ih his' c0 (c1 + 1)
        have hin : x.isIn = false := by simpa using hin
        refine ⟨(c1, some x.edge) :: pl, by simp only [place, h0, hin, if_true, p1, Option.map_some, Bool.false_eq_true, if_false], by simp [p2], ?_⟩
        intro i it hi
        cases i with
        | zero =>
          simp only [List.getElem?_cons_zero, Option.some.injEq] at hi
          subst hi
          exact ⟨_, rfl, Or.inr (Or.inl ⟨h0, hin, by simp⟩)⟩
        | succ i =>
          obtain ⟨w, w1, w2⟩ := p3 i it (by simpa using hi)
          refine ⟨w, by simpa using w1, ?_⟩
          have e1 : ((x :: is).take (i + 1)).countP (fun i => i.cls == 0 && i.isIn) = (is.take i).countP (fun i => i.cls == 0 && i.isIn) := by
            simp [hin]
          have e2 : ((x :: is).take (i + 1)).countP (fun i => i.cls == 0 && !i.isIn) = (is.take i).countP (fun i => i.cls == 0 && !i.isIn) + 1 := by
            simp [h0, hin]
          rw [e1, e2, show c1 + ((is.take i).countP (fun i => i.cls == 0 && !i.isIn) + 1) = c1 + 1 + (is.take i).countP (fun i => i.cls == 0 && !i.isIn) by omega]
          exact w2
    · obtain ⟨pl, p1, p2, p3⟩ := ih his' c0 c1
      obtain ⟨row, r1, r2, r3, r4⟩ := hrow h0
      obtain ⟨j, hj⟩ : ∃ j, row.idxOf? x.node = some j := by
        rcases h : row.idxOf? x.node with _ | j
        · exact absurd r2 (List.idxOf?_eq_none_iff.mp h)
        · exact ⟨j, rfl⟩
      have hjc : row[j]? = some x.node := by
        rw [List.idxOf?, List.findIdx?_eq_some_iff_getElem] at hj
        obtain ⟨h1, h2, -⟩ := hj
        rw [List.getElem?_eq_getElem h1]
        congr 1
        simpa using h2
      have hin := in_first (hO.sorted _ row r1 h0) hjc
      rw [r4] at hin
      refine ⟨(numOf items ex dec x.cls row j, none) :: pl, ?_, by simp [p2], ?_⟩
      · unfold place numOf
        rw [if_neg h0, r1, Option.bind_some, hj, Option.bind_some]
        by_cases h : x.isIn = true
        · rw [if_pos h, if_pos (hin.mp h)]
          simp only [eFromEQC, hE _ hcl, p1, Nat.add_comm, Option.map_some, Option.bind_some]
        · rw [if_neg h, if_neg (fun h' => h (hin.mpr h'))]
          simp only [hC _ hcl, Option.bind_some, p1, Option.map_some]
          congr 3
          omega
      · intro i it hi
        cases i with
        | zero =>
          simp only [List.getElem?_cons_zero, Option.some.injEq] at hi
          subst hi
          exact ⟨_, rfl, Or.inr (Or.inr ⟨h0, row, j, r1, hjc, rfl⟩)⟩
        | succ i =>
          obtain ⟨w, w1, w2⟩ := p3 i it (by simpa using hi)
          refine ⟨w, by simpa using w1, ?_⟩
          have e1 : ((x :: is).take (i + 1)).countP (fun i => i.cls == 0 && i.isIn) = (is.take i).countP (fun i => i.cls == 0 && i.isIn) := by
            simp [h0]
          have e2 : ((x :: is).take (i + 1)).countP (fun i => i.cls == 0 && !i.isIn) = (is.take i).countP (fun i => i.cls == 0 && !i.isIn) := by
            simp [h0]
          rw [e1, e2]
          exact w2

include hO in
/-- the result of `finish`: the edges are those of the local class, then the shared ones class by class, first those within a class, then
those between classes; the new number of a given edge is its position -/
theorem finish_spec : ∃ E, finish C items ex = some E ∧ E.dE = (List.range (C.T.length + 1)).map (off (inB items ex dec)) ∧
    E.dC = (List.range (C.T.length + 1)).map (off (crB items ex dec)) ∧ E.nodes = (allE items ex dec).map some ∧
    E.sort.length = items.length ∧
    ∀ (i : ℕ) (it : Item), items[i]? = some it → ∃ n, E.sort[i]? = some n ∧ (allE items ex dec)[n]? = some it.edge := by
  have hpos := hO.pos
  have hlen := hO.len
  have htl : ex.tail.length + 2 = C.T.length + 1 := by rw [List.length_tail]; omega
  have hdE : edgeDisp (items.countP fun i => i.cls == 0 && i.isIn) (ex.tail.map nIn) =
      (List.range (C.T.length + 1)).map (off (inB items ex dec)) := by
    have := edgeDisp_eq (ex.tail.map fun r => (rowIn r).map dec) ((items.filter fun i => i.cls == 0 && i.isIn).map Item.edge)
    rw [List.length_map, ← List.countP_eq_length_filter, List.map_map, List.length_map, htl] at this
    rw [← show (ex.tail.map (List.length ∘ fun r => (rowIn r).map dec)) = ex.tail.map nIn from
      List.map_congr_left fun r _ => by simp [rowIn_length]]
    exact this
  have hdC : edgeDisp (items.countP fun i => i.cls == 0 && !i.isIn) (ex.tail.map fun r => r.length - nIn r) =
      (List.range (C.T.length + 1)).map (off (crB items ex dec)) := by
    have := edgeDisp_eq (ex.tail.map fun r => (rowCr r).map dec) ((items.filter fun i => i.cls == 0 && !i.isIn).map Item.edge)
    rw [List.length_map, ← List.countP_eq_length_filter, List.map_map, List.length_map, htl] at this
    rw [← show (ex.tail.map (List.length ∘ fun r => (rowCr r).map dec)) = ex.tail.map (fun r => r.length - nIn r) from
      List.map_congr_left fun r _ => by simp [rowCr]]
    exact this
  have hget : ∀ (B : List (List (ℕ × ℕ))) (k : ℕ), k < C.T.length + 1 → ((List.range (C.T.length + 1)).map (off B))[k]? = some (off B k) := by
    intro B k hk; simp [hk]
  have htin : ((List.range (C.T.length + 1)).map (off (inB items ex dec))).getLastD 0 = (inB items ex dec).flatten.length := by
    rw [getLastD_of_get (n := C.T.length) (x := off (inB items ex dec) C.T.length) (by simp) (hget _ _ (by omega)), ← off_all, inB_length hO]
  have htot : (items.countP fun i => i.cls == 0 && i.isIn) + (items.countP fun i => i.cls == 0 && !i.isIn) + (ex.tail.map List.length).sum =
      (allE items ex dec).length := by
    have hs : (ex.tail.map fun r => ((rowIn r).map dec).length).sum + (ex.tail.map fun r => ((rowCr r).map dec).length).sum =
        (ex.tail.map List.length).sum := by
      rw [← List.sum_map_add]
      congr 1
      apply List.map_congr_left
      intro r _
      have := nIn_le r
      rw [List.length_map, List.length_map, rowIn_length, rowCr, List.length_drop]; omega
    unfold allE inB crB
    rw [List.length_append, List.flatten_cons, List.length_append, List.flatten_cons, List.length_append, List.length_flatten,
      List.length_flatten, List.map_map, List.map_map, List.length_map, List.length_map, ← List.countP_eq_length_filter,
      ← List.countP_eq_length_filter, ← hs]
    simp only [Function.comp_def]
    omega
  -- the writes of the rows
  have hws : (ex.tail.zipIdx 1).mapM (fun r => rowWrites C ((List.range (C.T.length + 1)).map (off (inB items ex dec)))
      ((List.range (C.T.length + 1)).map (off (crB items ex dec))) (inB items ex dec).flatten.length r.2 r.1) =
      some ((ex.tail.zipIdx 1).map fun r => r.1.zipIdx.map fun w => (numOf items ex dec r.2 r.1 w.2, dec w.1)) := by
    apply mapM_some_of
    rintro ⟨row, k⟩ hr
    rw [List.mk_mem_zipIdx_iff_le_and_getElem?_sub, List.getElem?_tail] at hr
    obtain ⟨hk1, hr⟩ := hr
    rw [show k - 1 + 1 = k by omega] at hr
    have hkl := (List.getElem?_eq_some_iff.mp hr).1
    exact rowWrites_eq hO hr (by omega) (hget _ k (by omega)) (hget _ k (by omega))
  obtain ⟨pl, p1, p2, p3⟩ := place_eq (fun k hk => hget (inB items ex dec) k (by omega)) (fun k hk => hget (crB items ex dec) k (by omega)) hO items
    (fun _ h => h) 0 (inB items ex dec).flatten.length
  -- the edges of the items
  have hB0 : (inB items ex dec)[0]? = some ((items.filter fun i => i.cls == 0 && i.isIn).map Item.edge) := rfl
  have hC0 : (crB items ex dec)[0]? = some ((items.filter fun i => i.cls == 0 && !i.isIn).map Item.edge) := rfl
  have hplE : ∀ (i : ℕ) (it : Item), items[i]? = some it → ∃ w, pl[i]? = some w ∧ (allE items ex dec)[w.1]? = some it.edge ∧
      (∀ e, w.2 = some e → e = it.edge) := by
    intro i it hi
    obtain ⟨w, w1, w2⟩ := p3 i it hi
    refine ⟨w, w1, ?_⟩
    rcases w2 with ⟨a1, a2, rfl⟩ | ⟨a1, a2, rfl⟩ | ⟨a1, row, j, a2, a3, rfl⟩
    · have hf := filter_get (fun i : Item => i.cls == 0 && i.isIn) items hi (by simp [a1, a2])
      have hl := (List.getElem?_eq_some_iff.mp hf).1
      have := allE_in hB0 (by rw [List.length_map]; exact hl)
      simp only [off, List.take_zero, List.map_nil, List.sum_nil] at this
      refine ⟨?_, by simp⟩
      rw [this, List.getElem?_map, hf]; rfl
    · have hf := filter_get (fun i : Item => i.cls == 0 && !i.isIn) items hi (by simp [a1, a2])
      have hl := (List.getElem?_eq_some_iff.mp hf).1
      have := allE_cr (k := 0) hC0 (by rw [List.length_map]; exact hl)
      have h00 : off (crB items ex dec) 0 = 0 := rfl
      rw [h00, Nat.add_zero] at this
      refine ⟨?_, by simp⟩
      rw [this, List.getElem?_map, hf]; rfl
    · obtain ⟨row', r1, r2, r3, r4⟩ := (hO.items it (List.mem_of_getElem? hi)).2 a1
      refine ⟨?_, by simp⟩
      rw [allE_row a2 a1 a3, r3]
  have hfold : (((ex.tail.zipIdx 1).map fun r => r.1.zipIdx.map fun w => (numOf items ex dec r.2 r.1 w.2, dec w.1)).flatten ++
      pl.filterMap fun w => w.2.map fun e => (w.1, e)).foldl (fun a w => a.set w.1 (some w.2)) (List.replicate (allE items ex dec).length none) =
      (allE items ex dec).map some := by
    apply fold_set_eq
    · intro w hw
      rcases List.mem_append.mp hw with h | h
      · obtain ⟨l, hl, hwl⟩ := List.mem_flatten.mp h
        obtain ⟨⟨row, k⟩, hr, rfl⟩ := List.mem_map.mp hl
        rw [List.mk_mem_zipIdx_iff_le_and_getElem?_sub, List.getElem?_tail] at hr
        obtain ⟨hk1, hr⟩ := hr
        rw [show k - 1 + 1 = k by omega] at hr
        obtain ⟨⟨c, j⟩, hc, rfl⟩ := List.mem_map.mp hwl
        exact allE_row hr (by omega) (List.mem_zipIdx_iff_getElem?.mp hc)
      · obtain ⟨x, hx, hxw⟩ := List.mem_filterMap.mp h
        obtain ⟨e, he, rfl⟩ := Option.map_eq_some_iff.mp hxw
        obtain ⟨i, hi⟩ := List.mem_iff_getElem?.mp hx
        have hil : i < items.length := by rw [← p2]; exact (List.getElem?_eq_some_iff.mp hi).1
        obtain ⟨w, w1, w2, w3⟩ := hplE i _ (List.getElem?_eq_getElem hil)
        rw [hi] at w1; cases w1
        rw [w2, w3 e he]
    · intro i hi
      have hrowcov : ∀ (k j : ℕ) (row : List CNode), ex[k]? = some row → k ≠ 0 → j < row.length →
          ∃ w ∈ ((ex.tail.zipIdx 1).map fun r => r.1.zipIdx.map fun w => (numOf items ex dec r.2 r.1 w.2, dec w.1)).flatten ++
            pl.filterMap fun w => w.2.map fun e => (w.1, e), w.1 = numOf items ex dec k row j := by
        intro k j row hk h0 hj
        refine ⟨(numOf items ex dec k row j, dec row[j]), List.mem_append_left _ (List.mem_flatten.mpr ⟨_, List.mem_map.mpr ⟨(row, k), ?_, rfl⟩,
          List.mem_map.mpr ⟨(row[j], j), List.mem_zipIdx_iff_getElem?.mpr (List.getElem?_eq_getElem hj), rfl⟩⟩), rfl⟩
        rw [List.mk_mem_zipIdx_iff_le_and_getElem?_sub, List.getElem?_tail]
        exact ⟨by omega, by rw [show k - 1 + 1 = k by omega]; exact hk⟩
      have hplcov : ∀ (n : ℕ) (it : Item) (w : ℕ × Option (ℕ × ℕ)), pl[n]? = some w → w.2 = some it.edge →
          ∃ x ∈ ((ex.tail.zipIdx 1).map fun r => r.1.zipIdx.map fun w => (numOf items ex dec r.2 r.1 w.2, dec w.1)).flatten ++
            pl.filterMap fun w => w.2.map fun e => (w.1, e), x.1 = w.1 := by
        intro n it w hw he
        refine ⟨(w.1, it.edge), List.mem_append_right _ (List.mem_filterMap.mpr ⟨w, List.mem_of_getElem? hw, by rw [he]; rfl⟩), rfl⟩
      by_cases h : i < (inB items ex dec).flatten.length
      · obtain ⟨k, j, b, b1, b2, rfl⟩ := flatten_index _ h
        by_cases h0 : k = 0
        · subst h0
          rw [hB0] at b1; cases b1
          rw [List.length_map] at b2
          obtain ⟨n, n1, n2, n3⟩ := filter_index _ _ (List.getElem?_eq_getElem b2)
          obtain ⟨w, w1, w2⟩ := p3 n _ n1
          simp only [Bool.and_eq_true, beq_iff_eq] at n2
          rcases w2 with ⟨a1, a2, a3⟩ | ⟨a1, a2, a3⟩ | ⟨a1, -⟩
          · obtain ⟨x, x1, x2⟩ := hplcov n _ w w1 (by rw [a3])
            refine ⟨x, x1, ?_⟩
            rw [x2, a3]
            simp only [off, List.take_zero, List.map_nil, List.sum_nil, Nat.zero_add]
            exact n3
          · rw [n2.2] at a2; cases a2
          · exact absurd n2.1 a1
        · have hkl : k < ex.length := by
            have := (List.getElem?_eq_some_iff.mp b1).1
            rw [inB_length hO] at this; omega
          have hek : ex[k]? = some ex[k] := List.getElem?_eq_getElem hkl
          rw [inB_get hek h0] at b1; cases b1
          rw [List.length_map, rowIn_length] at b2
          obtain ⟨w, w1, w2⟩ := hrowcov k j _ hek h0 (lt_of_lt_of_le b2 (nIn_le _))
          exact ⟨w, w1, by rw [w2]; unfold numOf; rw [if_pos b2]⟩
      · have hi' : i - (inB items ex dec).flatten.length < (crB items ex dec).flatten.length := by
          unfold allE at hi; rw [List.length_append] at hi; omega
        obtain ⟨k, j, b, b1, b2, b3⟩ := flatten_index _ hi'
        by_cases h0 : k = 0
        · subst h0
          rw [hC0] at b1; cases b1
          rw [List.length_map] at b2
          obtain ⟨n, n1, n2, n3⟩ := filter_index _ _ (List.getElem?_eq_getElem b2)
          obtain ⟨w, w1, w2⟩ := p3 n _ n1
          simp only [Bool.and_eq_true, beq_iff_eq, Bool.not_eq_true'] at n2
          rcases w2 with ⟨a1, a2, a3⟩ | ⟨a1, a2, a3⟩ | ⟨a1, -⟩
          · rw [n2.2] at a2; cases a2
          · obtain ⟨x, x1, x2⟩ := hplcov n _ w w1 (by rw [a3])
            refine ⟨x, x1, ?_⟩
            have h00 : off (crB items ex dec) 0 = 0 := rfl
            rw [h00] at b3
            rw [x2, a3]
            show _ + _ = _
            rw [n3]; omega
          · exact absurd n2.1 a1
        · have hkl : k < ex.length := by
            have := (List.getElem?_eq_some_iff.mp b1).1
            rw [crB_length hO] at this; omega
          have hek : ex[k]? = some ex[k] := List.getElem?_eq_getElem hkl
          rw [crB_get hek h0] at b1; cases b1
          rw [List.length_map, rowCr, List.length_drop] at b2
          obtain ⟨w, w1, w2⟩ := hrowcov k (nIn ex[k] + j) _ hek h0 (by omega)
          refine ⟨w, w1, ?_⟩
          rw [w2]; unfold numOf; rw [if_neg (by omega)]; omega
  refine ⟨⟨(List.range (C.T.length + 1)).map (off (inB items ex dec)), (List.range (C.T.length + 1)).map (off (crB items ex dec)),
    (allE items ex dec).map some, pl.map Prod.fst⟩, ?_, rfl, rfl, rfl, by simp [p2], ?_⟩
  · unfold finish
    simp only [hdE, hdC, htin, htot]
    rw [hws, Option.bind_some, p1, Option.map_some, hfold]
  · intro i it hi
    obtain ⟨w, w1, w2, -⟩ := hplE i it hi
    exact ⟨w.1, by rw [List.getElem?_map, w1]; rfl, w2⟩

end

end NgsAMG.BTM
