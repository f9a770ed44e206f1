import Verif.Props.MapEdges2

/-!
# C76: `MapEdges`: the coarse edges of one process, from the merged table
-/

namespace NgsAMG.CMap

open NgsAMG.EQC NgsAMG.RedTab NgsAMG.Exch NgsAMG.BTM

/-- the coarse vertices of a coarse edge -/
def pr (i : CInfo) : ℕ × ℕ := (i.cv0, i.cv1)

/-- in ascending order -/
def norm (v : ℕ × ℕ) : ℕ × ℕ := if v.1 < v.2 then (v.1, v.2) else (v.2, v.1)

/-- the coarse vertices of an entry of the merged table -/
def prT (V : Env) (t : CNode) : ℕ × ℕ := ((decodeTup V.CC t).map norm).getD (0, 0)

/-- the merged table, seen from one process -/
structure RowsE (V : Env) (rows : List (List CNode)) : Prop where
  len : rows.length = V.C.T.length
  zero : ∀ row, rows[0]? = some row → row = []
  first : ∀ (k : ℕ) (row : List CNode), rows[k]? = some row → row.Pairwise fun s t => t.isIn = true → s.isIn = true
  dec : ∀ (k : ℕ) (row : List CNode), rows[k]? = some row → ∀ t ∈ row, ∃ v, decodeTup V.CC t = some v ∧ v.1 ≠ v.2
  cls : ∀ (k : ℕ) (row : List CNode), rows[k]? = some row → ∀ t ∈ row, ∀ e i, keyOf V e = some i → pr i = prT V t → i.cls = k ∧ i.cross = !t.isIn
  nodup : ∀ (k : ℕ) (row : List CNode), rows[k]? = some row → row.Nodup
  inj : ∀ (k l : ℕ) (row row' : List CNode), rows[k]? = some row → rows[l]? = some row' → ∀ s ∈ row, ∀ t ∈ row', prT V s = prT V t → k = l ∧ s = t
  all : ∀ x ∈ order V.C.T.length V.E, ∀ i, keyOf V x.2 = some i → (∀ row, rows[i.cls]? = some row → pr i ∉ row.map (prT V)) →
    i.cls = x.1 ∧ eqcOf V.E.dE V.E.dC x.2 = some x.1
  cover : ∀ f i, keyOf V f = some i → ∃ k, (k, f) ∈ order V.C.T.length V.E
  asc : (order V.C.T.length V.E).Pairwise fun a b => a.1 = b.1 → a.2 < b.2

/-- `cedges[id]` is written -/
def wr (w : Wr) (id : ℕ) : Prop := ∃ x, w.cedges[id]? = some (some x)

/-- `emap[f]` is written -/
def em (w : Wr) (f : ℕ) : Prop := ∃ id, w.emap[f]? = some (some id)

/-- everything that is written is right -/
structure WOK (V : Env) (N : List (ℕ × ℕ)) (w : Wr) : Prop where
  lc : w.cedges.length = N.length
  le : w.emap.length = V.E.nodes.length
  ce : ∀ (id : ℕ) (x : ℕ × ℕ), w.cedges[id]? = some (some x) → N[id]? = some x
  em : ∀ (f id : ℕ), w.emap[f]? = some (some id) → ∃ i, keyOf V f = some i ∧ N[id]? = some (pr i)

theorem setEmap_fold (fs : List ℕ) (id : ℕ) (m : List (Option ℕ)) (h : ∀ f ∈ fs, f < m.length) :
    (fs.foldl (fun m f => m.set f (some id)) m).length = m.length ∧
    ∀ f, (fs.foldl (fun m f => m.set f (some id)) m)[f]? = if f ∈ fs then some (some id) else m[f]? := by
  induction fs generalizing m with
  | nil => simp
  | cons g fs ih =>
    obtain ⟨h1, h2⟩ := ih (m.set g (some id)) (fun f hf => by rw [List.length_set]; exact h f (by simp [hf]))
    rw [List.foldl_cons]
    refine ⟨by rw [h1, List.length_set], fun f => ?_⟩
    rw [h2, List.getElem?_set]
    have hg := h g (by simp)
    by_cases hf : f ∈ fs
    · simp [hf]
    · by_cases hfg : g = f
      · subst hfg; simp [hf, hg]
      · have : f ≠ g := Ne.symm hfg
        simp [hf, hfg, this]

/-- a call that succeeds -/
theorem putCE_some {w w' : Wr} {id : ℕ} {e : ℕ × ℕ} {fs : List ℕ} (h : putCE w id e fs = some w') :
    id < w.cedges.length ∧ (∀ f ∈ fs, f < w.emap.length) ∧ w'.cedges = w.cedges.set id (some e) ∧ w'.emap.length = w.emap.length ∧
      ∀ f, w'.emap[f]? = if f ∈ fs then some (some id) else w.emap[f]? := by
  unfold putCE at h
  split at h
  · rename_i hid
    obtain ⟨m, hm, rfl⟩ := Option.map_eq_some_iff.mp h
    unfold setEmap at hm
    split at hm
    · rename_i hf
      cases hm
      obtain ⟨h1, h2⟩ := setEmap_fold fs id w.emap hf
      exact ⟨hid, hf, rfl, h1, h2⟩
    · cases hm
  · cases h

theorem putCE_em {w w' : Wr} {id : ℕ} {e : ℕ × ℕ} {fs : List ℕ} (h : putCE w id e fs = some w') (f : ℕ) : em w' f ↔ f ∈ fs ∨ em w f := by
  obtain ⟨-, -, -, -, h5⟩ := putCE_some h
  unfold em
  rw [h5]
  by_cases hf : f ∈ fs <;> simp [hf]

/-- a right call -/
theorem putCE_ok {V : Env} {N : List (ℕ × ℕ)} {w : Wr} (hw : WOK V N w) {id : ℕ} {e : ℕ × ℕ} {fs : List ℕ} (hid : N[id]? = some e)
    (hfs : ∀ f ∈ fs, ∃ i, keyOf V f = some i ∧ pr i = e) :
    ∃ w', putCE w id e fs = some w' ∧ WOK V N w' ∧ (∀ j, wr w' j ↔ j = id ∨ wr w j) ∧ ∀ f, em w' f ↔ f ∈ fs ∨ em w f := by
  have hlt : id < w.cedges.length := by rw [hw.lc]; exact (List.getElem?_eq_some_iff.mp hid).1
  have hfl : ∀ f ∈ fs, f < w.emap.length := by
    intro f hf
    obtain ⟨i, hi, -⟩ := hfs f hf
    rw [hw.le]; exact keyOf_lt hi
  have hex : ∃ w', putCE w id e fs = some w' := by
    unfold putCE
    rw [if_pos hlt, setEmap, if_pos hfl]
    exact ⟨_, rfl⟩
  obtain ⟨w', hp⟩ := hex
  obtain ⟨-, -, h3, h4, h5⟩ := putCE_some hp
  refine ⟨w', hp, ⟨by rw [h3, List.length_set, hw.lc], by rw [h4, hw.le], ?_, ?_⟩, ?_, putCE_em hp⟩
  · intro j x hj
    rw [h3, List.getElem?_set] at hj
    split at hj
    · rename_i hij
      subst hij
      cases hj
      exact hid
    · exact hw.ce j x hj
  · intro f j hj
    rw [h5] at hj
    split at hj
    · rename_i hf
      cases hj
      obtain ⟨i, hi, rfl⟩ := hfs f hf
      exact ⟨i, hi, hid⟩
    · exact hw.em f j hj
  · intro j
    unfold wr
    rw [h3, List.getElem?_set]
    by_cases hij : id = j
    · subst hij; simp [hlt]
    · have : j ≠ id := Ne.symm hij
      simp [hij, this]

theorem norm_lt {v : ℕ × ℕ} (h : v.1 ≠ v.2) : (norm v).1 < (norm v).2 := by
  unfold norm
  split
  · assumption
  · dsimp only; omega

theorem norm_eq {v : ℕ × ℕ} {i : CInfo} (hi : i.cv0 < i.cv1) (h : v.1 ≠ v.2) :
    pr i = norm v ↔ (i.cv0 = v.1 ∧ i.cv1 = v.2) ∨ (i.cv0 = v.2 ∧ i.cv1 = v.1) := by
  unfold pr norm
  split
  · rw [Prod.mk.injEq]; omega
  · rw [Prod.mk.injEq]; omega

section
variable {V : Env} (hV : LocOK V)
include hV

/-- the fine edges of an entry -/
theorem feids_norm {v : ℕ × ℕ} (hv : v.1 ≠ v.2) (f : ℕ) : f ∈ feids V v.1 v.2 ↔ ∃ i, keyOf V f = some i ∧ pr i = norm v := by
  rw [hV.mem _ _ _ hv]
  constructor
  · rintro ⟨i, h1, h2⟩
    exact ⟨i, h1, (norm_eq (keyOf_cv h1) hv).mpr h2⟩
  · rintro ⟨i, h1, h2⟩
    exact ⟨i, h1, (norm_eq (keyOf_cv h1) hv).mp h2⟩

/-- the coarse edges are determined by their vertices -/
theorem pr_inj {e f : ℕ} {i j : CInfo} (hi : keyOf V e = some i) (hj : keyOf V f = some j) (h : pr i = pr j) : i = j := by
  unfold pr at h
  rw [Prod.mk.injEq] at h
  exact hV.key e f i j hi hj h.1 h.2

/-- `set_cedge` -/
theorem setCedge_ok {N : List (ℕ × ℕ)} {w : Wr} (hw : WOK V N w) {id : ℕ} {t : CNode} (hd : ∃ v, decodeTup V.CC t = some v ∧ v.1 ≠ v.2)
    (hid : N[id]? = some (prT V t)) :
    ∃ w', setCedge V w id t = some w' ∧ WOK V N w' ∧ (∀ j, wr w' j ↔ j = id ∨ wr w j) ∧ ∀ f, em w' f ↔ (∃ i, keyOf V f = some i ∧ pr i = prT V t) ∨ em w f := by
  obtain ⟨v, hv, hne⟩ := hd
  have hp : prT V t = norm v := by unfold prT; rw [hv]; rfl
  unfold setCedge
  rw [hv, Option.bind_some, hp]
  rw [hp] at hid
  obtain ⟨w', h1, h2, h3, h4⟩ := putCE_ok hw hid (fs := feids V v.1 v.2) (fun f hf => (feids_norm hV hne f).mp hf)
  refine ⟨w', h1, h2, h3, fun f => ?_⟩
  rw [h4, feids_norm hV hne]

/-- the number that a row gives to its entry number `j` -/
def idRow (osE osC : List ℕ) (neq : ℕ) (c : Cnts2) (k j : ℕ) : ℕ :=
  if j < c.aeq.getD k 0 then osE.getD k 0 + c.eq.getD k 0 + j else neq + osC.getD k 0 + c.cr.getD k 0 + (j - c.aeq.getD k 0)

theorem setRow_ok {N : List (ℕ × ℕ)} {w : Wr} (hw : WOK V N w) (osE osC : List ℕ) (neq : ℕ) (c : Cnts2) (k : ℕ) (row : List CNode)
    (hd : ∀ t ∈ row, ∃ v, decodeTup V.CC t = some v ∧ v.1 ≠ v.2)
    (hid : ∀ (j : ℕ) (t : CNode), row[j]? = some t → N[idRow osE osC neq c k j]? = some (prT V t)) :
    ∃ w', setRow V osE osC neq c w k row = some w' ∧ WOK V N w' ∧ (∀ i, wr w' i ↔ (∃ j < row.length, i = idRow osE osC neq c k j) ∨ wr w i) ∧
      ∀ f, em w' f ↔ (∃ i, keyOf V f = some i ∧ pr i ∈ row.map (prT V)) ∨ em w f := by
  have key : ∀ (l : List CNode) (o : ℕ) (w : Wr), WOK V N w → (∀ t ∈ l, ∃ v, decodeTup V.CC t = some v ∧ v.1 ≠ v.2) →
      (∀ (j : ℕ) (t : CNode), l[j]? = some t → N[idRow osE osC neq c k (o + j)]? = some (prT V t)) →
      ∃ w', (l.zipIdx o).foldlM (fun w (t : CNode × ℕ) =>
        if t.2 < c.aeq.getD k 0 then setCedge V w (osE.getD k 0 + c.eq.getD k 0 + t.2) t.1
        else setCedge V w (neq + osC.getD k 0 + c.cr.getD k 0 + (t.2 - c.aeq.getD k 0)) t.1) w = some w' ∧ WOK V N w' ∧
        (∀ i, wr w' i ↔ (∃ j < l.length, i = idRow osE osC neq c k (o + j)) ∨ wr w i) ∧
        ∀ f, em w' f ↔ (∃ i, keyOf V f = some i ∧ pr i ∈ l.map (prT V)) ∨ em w f := by
    intro l
    induction l with
    | nil => intro o w hw _ _; exact ⟨w, rfl, hw, fun i => by simp, fun f => by simp⟩
    | cons t l ih =>
      intro o w hw hd hid
      have h0 := hid 0 t rfl
      rw [Nat.add_zero] at h0
      obtain ⟨w1, a1, a2, a3, a4⟩ := setCedge_ok hV hw (hd t (by simp)) h0
      rw [List.zipIdx_cons, List.foldlM_cons]
      have hstep : (if o < c.aeq.getD k 0 then setCedge V w (osE.getD k 0 + c.eq.getD k 0 + o) t
          else setCedge V w (neq + osC.getD k 0 + c.cr.getD k 0 + (o - c.aeq.getD k 0)) t) = some w1 := by
        rw [← a1]; unfold idRow
        split <;> rfl
      dsimp only
      rw [hstep]
      obtain ⟨w2, b1, b2, b3, b4⟩ := ih (o + 1) w1 a2 (fun t ht => hd t (by simp [ht])) (fun j t ht => by
        rw [show o + 1 + j = o + (j + 1) by omega]
        exact hid (j + 1) t (by simpa using ht))
      refine ⟨w2, b1, b2, fun i => ?_, fun f => ?_⟩
      · rw [b3, a3]
        constructor
        · rintro (⟨j, hj, rfl⟩ | rfl | h)
          · exact Or.inl ⟨j + 1, by simpa using hj, by rw [show o + 1 + j = o + (j + 1) by omega]⟩
          · exact Or.inl ⟨0, by simp, by simp⟩
          · exact Or.inr h
        · rintro (⟨j, hj, rfl⟩ | h)
          · cases j with
            | zero => exact Or.inr (Or.inl (by simp))
            | succ j => exact Or.inl ⟨j, by simpa using hj, by rw [show o + 1 + j = o + (j + 1) by omega]⟩
          · exact Or.inr (Or.inr h)
      · rw [b4, a4]
        simp only [List.map_cons, List.mem_cons]
        constructor
        · rintro (⟨i, h1, h2⟩ | ⟨i, h1, h2⟩ | h)
          · exact Or.inl ⟨i, h1, Or.inr h2⟩
          · exact Or.inl ⟨i, h1, Or.inl h2⟩
          · exact Or.inr h
        · rintro (⟨i, h1, h2 | h2⟩ | h)
          · exact Or.inr (Or.inl ⟨i, h1, h2⟩)
          · exact Or.inl ⟨i, h1, h2⟩
          · exact Or.inr (Or.inr h)
  obtain ⟨w', h1, h2, h3, h4⟩ := key row 0 w hw hd (by simpa using hid)
  refine ⟨w', h1, h2, fun i => ?_, h4⟩
  rw [h3]
  simp

/-- all rows -/
theorem setRows_ok {N : List (ℕ × ℕ)} {w : Wr} (hw : WOK V N w) (osE osC : List ℕ) (neq : ℕ) (c : Cnts2) (rows : List (List CNode)) (hz : ∀ row, rows[0]? = some row → row = [])
    (hd : ∀ (k : ℕ) (row : List CNode), rows[k]? = some row → ∀ t ∈ row, ∃ v, decodeTup V.CC t = some v ∧ v.1 ≠ v.2)
    (hid : ∀ (k : ℕ) (row : List CNode), rows[k]? = some row → ∀ (j : ℕ) (t : CNode), row[j]? = some t → N[idRow osE osC neq c k j]? = some (prT V t)) :
    ∃ w', (rows.tail.zipIdx 1).foldlM (fun w r => setRow V osE osC neq c w r.2 r.1) w = some w' ∧ WOK V N w' ∧
      (∀ i, wr w' i ↔ (∃ (k : ℕ) (row : List CNode), rows[k]? = some row ∧ ∃ j < row.length, i = idRow osE osC neq c k j) ∨ wr w i) ∧
      ∀ f, em w' f ↔ (∃ (k : ℕ) (row : List CNode), rows[k]? = some row ∧ ∃ i, keyOf V f = some i ∧ pr i ∈ row.map (prT V)) ∨ em w f := by
  have key : ∀ (l : List (List CNode)) (o : ℕ) (w : Wr), WOK V N w →
      (∀ (k : ℕ) (row : List CNode), l[k]? = some row → ∀ t ∈ row, ∃ v, decodeTup V.CC t = some v ∧ v.1 ≠ v.2) →
      (∀ (k : ℕ) (row : List CNode), l[k]? = some row → ∀ (j : ℕ) (t : CNode), row[j]? = some t → N[idRow osE osC neq c (o + k) j]? = some (prT V t)) →
      ∃ w', (l.zipIdx o).foldlM (fun w r => setRow V osE osC neq c w r.2 r.1) w = some w' ∧ WOK V N w' ∧
        (∀ i, wr w' i ↔ (∃ (k : ℕ) (row : List CNode), l[k]? = some row ∧ ∃ j < row.length, i = idRow osE osC neq c (o + k) j) ∨ wr w i) ∧
        ∀ f, em w' f ↔ (∃ (k : ℕ) (row : List CNode), l[k]? = some row ∧ ∃ i, keyOf V f = some i ∧ pr i ∈ row.map (prT V)) ∨ em w f := by
    intro l
    induction l with
    | nil => intro o w hw _ _; exact ⟨w, rfl, hw, fun i => by simp, fun f => by simp⟩
    | cons r l ih =>
      intro o w hw hd hid
      have h0 := hid 0 r rfl
      rw [Nat.add_zero] at h0
      obtain ⟨w1, a1, a2, a3, a4⟩ := setRow_ok hV hw osE osC neq c o r (hd 0 r rfl) h0
      rw [List.zipIdx_cons, List.foldlM_cons]
      dsimp only
      rw [a1]
      obtain ⟨w2, b1, b2, b3, b4⟩ := ih (o + 1) w1 a2 (fun k row h => hd (k + 1) row (by simpa using h)) (fun k row h j t ht => by
        rw [show o + 1 + k = o + (k + 1) by omega]
        exact hid (k + 1) row (by simpa using h) j t ht)
      refine ⟨w2, b1, b2, fun i => ?_, fun f => ?_⟩
      · rw [b3, a3]
        constructor
        · rintro (⟨k, row, h1, j, hj, rfl⟩ | ⟨j, hj, rfl⟩ | h)
          · exact Or.inl ⟨k + 1, row, by simpa using h1, j, hj, by rw [show o + 1 + k = o + (k + 1) by omega]⟩
          · exact Or.inl ⟨0, r, by simp, j, hj, by simp⟩
          · exact Or.inr h
        · rintro (⟨k, row, h1, j, hj, rfl⟩ | h)
          · cases k with
            | zero => cases h1; exact Or.inr (Or.inl ⟨j, hj, by simp⟩)
            | succ k => exact Or.inl ⟨k, row, by simpa using h1, j, hj, by rw [show o + 1 + k = o + (k + 1) by omega]⟩
          · exact Or.inr (Or.inr h)
      · rw [b4, a4]
        constructor
        · rintro (⟨k, row, h1, h2⟩ | h2 | h)
          · exact Or.inl ⟨k + 1, row, by simpa using h1, h2⟩
          · exact Or.inl ⟨0, r, by simp, h2⟩
          · exact Or.inr h
        · rintro (⟨k, row, h1, h2⟩ | h)
          · cases k with
            | zero => cases h1; exact Or.inr (Or.inl h2)
            | succ k => exact Or.inl ⟨k, row, by simpa using h1, h2⟩
          · exact Or.inr (Or.inr h)
  cases rows with
  | nil => exact ⟨w, rfl, hw, fun i => by simp, fun f => by simp⟩
  | cons r rows =>
    have hr := hz r rfl
    subst hr
    rw [List.tail_cons]
    obtain ⟨w', h1, h2, h3, h4⟩ := key rows 1 w hw (fun k row h => hd (k + 1) row (by simpa using h)) (fun k row h j t ht => by
      rw [Nat.add_comm]; exact hid (k + 1) row (by simpa using h) j t ht)
    refine ⟨w', h1, h2, fun i => ?_, fun f => ?_⟩
    · rw [h3]
      refine or_congr ⟨?_, ?_⟩ Iff.rfl
      · rintro ⟨k, row, h1, j, hj, rfl⟩
        exact ⟨k + 1, row, by simpa using h1, j, hj, by rw [Nat.add_comm]⟩
      · rintro ⟨k, row, h1, j, hj, rfl⟩
        cases k with
        | zero => cases h1; simp at hj
        | succ k => exact ⟨k, row, by simpa using h1, j, hj, by rw [Nat.add_comm]⟩
    · rw [h4]
      refine or_congr ⟨?_, ?_⟩ Iff.rfl
      · rintro ⟨k, row, h1, h2⟩
        exact ⟨k + 1, row, by simpa using h1, h2⟩
      · rintro ⟨k, row, h1, h2⟩
        cases k with
        | zero => cases h1; simp at h2
        | succ k => exact ⟨k, row, by simpa using h1, h2⟩

/-- the number that the last round gives to the edge number `j` of its list -/
def idLast (osE osC : List ℕ) (neq : ℕ) (s : St3) (L : List ((ℕ × ℕ) × CInfo)) (j : ℕ) (y : (ℕ × ℕ) × CInfo) : ℕ :=
  if y.2.cross then neq + osC.getD y.2.cls 0 + (s.cr.getD y.2.cls 0 + (L.take j).countP (isCls false y.2.cls))
  else osE.getD y.2.cls 0 + (s.eq.getD y.2.cls 0 + (L.take j).countP (isCls true y.2.cls))

theorem getD_set {l : List ℕ} {k x : ℕ} (hk : k < l.length) (j : ℕ) : (l.set k x).getD j 0 = if j = k then x else l.getD j 0 := by
  rw [List.getD_eq_getElem?_getD, List.getElem?_set]
  by_cases h : k = j
  · subst h; simp [hk]
  · have : j ≠ k := Ne.symm h
    simp [h, this]

theorem last_ok {N : List (ℕ × ℕ)} (osE osC : List ℕ) (neq n : ℕ) (hE : n ≤ osE.length) (hC : n ≤ osC.length) (L : List ((ℕ × ℕ) × CInfo)) (s : St3) (hw : WOK V N s.w)
    (h1 : s.eq.length = n) (h2 : s.cr.length = n) (hL : ∀ y ∈ L, keyOf V y.1.2 = some y.2 ∧ y.2.cls < n)
    (hid : ∀ (j : ℕ) (y : (ℕ × ℕ) × CInfo), L[j]? = some y → N[idLast osE osC neq s L j y]? = some (pr y.2)) :
    ∃ s', L.foldlM (fun st x => lam3 osE osC neq st x.1.2 x.1.1 x.2 (feids V x.2.cv0 x.2.cv1)) s = some s' ∧ WOK V N s'.w ∧ s'.eq.length = n ∧ s'.cr.length = n ∧
      (∀ k, s'.eq.getD k 0 = s.eq.getD k 0 + L.countP (isCls true k) ∧ s'.cr.getD k 0 = s.cr.getD k 0 + L.countP (isCls false k)) ∧
      (∀ i, wr s'.w i ↔ (∃ (j : ℕ) (y : (ℕ × ℕ) × CInfo), L[j]? = some y ∧ i = idLast osE osC neq s L j y) ∨ wr s.w i) ∧
      ∀ f, em s'.w f ↔ (∃ y ∈ L, keyOf V f = some y.2) ∨ em s.w f := by
  induction L generalizing s with
  | nil => exact ⟨s, rfl, hw, h1, h2, fun k => by simp, fun i => by simp, fun f => by simp⟩
  | cons x L ih =>
    obtain ⟨hx, hxn⟩ := hL x (by simp)
    have h0 := hid 0 x rfl
    rw [List.foldlM_cons]
    have hfs : ∀ f ∈ feids V x.2.cv0 x.2.cv1, ∃ i, keyOf V f = some i ∧ pr i = pr x.2 := fun f hf => ⟨x.2, (feids_key hV hx).mp hf, rfl⟩
    have hstep : ∃ s1, lam3 osE osC neq s x.1.2 x.1.1 x.2 (feids V x.2.cv0 x.2.cv1) = some s1 ∧ WOK V N s1.w ∧ s1.eq.length = n ∧ s1.cr.length = n ∧
        (∀ k, s1.eq.getD k 0 = s.eq.getD k 0 + (if isCls true k x then 1 else 0) ∧ s1.cr.getD k 0 = s.cr.getD k 0 + (if isCls false k x then 1 else 0)) ∧
        (∀ i, wr s1.w i ↔ i = idLast osE osC neq s (x :: L) 0 x ∨ wr s.w i) ∧ ∀ f, em s1.w f ↔ keyOf V f = some x.2 ∨ em s.w f := by
      unfold lam3
      unfold idLast at h0 ⊢
      cases hc : x.2.cross with
      | true =>
        rw [hc] at h0
        simp only [if_true, List.take_zero, List.countP_nil, Nat.add_zero] at h0 ⊢
        have e1 : s.cr[x.2.cls]? = some (s.cr.getD x.2.cls 0) := by
          rw [List.getD_eq_getElem?_getD, List.getElem?_eq_getElem (by omega)]; rfl
        have e2 : osC[x.2.cls]? = some (osC.getD x.2.cls 0) := by
          rw [List.getD_eq_getElem?_getD, List.getElem?_eq_getElem (by omega)]; rfl
        obtain ⟨w', a1, a2, a3, a4⟩ := putCE_ok hw h0 hfs
        unfold pr at a1
        rw [e1, Option.bind_some, e2, Option.bind_some, a1, Option.map_some]
        refine ⟨_, rfl, a2, h1, by simpa using h2, fun k => ?_, a3, fun f => by rw [a4, feids_key hV hx]⟩
        dsimp only
        rw [getD_set hV (by omega)]
        by_cases hk : k = x.2.cls
        · subst hk; simp [isCls, hc]
        · have : ¬ x.2.cls = k := fun h => hk h.symm
          simp [isCls, hk, this]
      | false =>
        rw [hc] at h0
        simp only [Bool.false_eq_true, if_false, List.take_zero, List.countP_nil, Nat.add_zero] at h0 ⊢
        have e1 : s.eq[x.2.cls]? = some (s.eq.getD x.2.cls 0) := by
          rw [List.getD_eq_getElem?_getD, List.getElem?_eq_getElem (by omega)]; rfl
        have e2 : osE[x.2.cls]? = some (osE.getD x.2.cls 0) := by
          rw [List.getD_eq_getElem?_getD, List.getElem?_eq_getElem (by omega)]; rfl
        obtain ⟨w', a1, a2, a3, a4⟩ := putCE_ok hw h0 hfs
        unfold pr at a1
        rw [e1, Option.bind_some, e2, Option.bind_some, a1, Option.map_some]
        refine ⟨_, rfl, a2, by simpa using h1, h2, fun k => ?_, a3, fun f => by rw [a4, feids_key hV hx]⟩
        dsimp only
        rw [getD_set hV (by omega)]
        by_cases hk : k = x.2.cls
        · subst hk; simp [isCls, hc]
        · have : ¬ x.2.cls = k := fun h => hk h.symm
          simp [isCls, hk, this]
    obtain ⟨s1, a1, a2, a3, a4, a5, a6, a7⟩ := hstep
    rw [a1]
    have hshift : ∀ (j : ℕ) (y : (ℕ × ℕ) × CInfo), idLast osE osC neq s1 L j y = idLast osE osC neq s (x :: L) (j + 1) y := by
      intro j y
      unfold idLast
      rw [(a5 _).1, (a5 _).2, List.take_succ_cons, List.countP_cons, List.countP_cons]
      split <;> omega
    obtain ⟨s2, b1, b2, b3, b4, b5, b6, b7⟩ := ih s1 a2 a3 a4 (fun y hy => hL y (by simp [hy])) (fun j y hy => by
      rw [hshift]; exact hid (j + 1) y (by simpa using hy))
    refine ⟨s2, b1, b2, b3, b4, fun k => ?_, fun i => ?_, fun f => ?_⟩
    · rw [(b5 k).1, (b5 k).2, (a5 k).1, (a5 k).2, List.countP_cons, List.countP_cons]
      constructor <;> omega
    · rw [b6, a6]
      constructor
      · rintro (⟨j, y, hy, rfl⟩ | rfl | h)
        · exact Or.inl ⟨j + 1, y, by simpa using hy, hshift j y⟩
        · exact Or.inl ⟨0, x, rfl, rfl⟩
        · exact Or.inr h
      · rintro (⟨j, y, hy, rfl⟩ | h)
        · cases j with
          | zero => cases hy; exact Or.inr (Or.inl rfl)
          | succ j => exact Or.inl ⟨j, y, by simpa using hy, (hshift j y).symm⟩
        · exact Or.inr (Or.inr h)
    · rw [b7, a7]
      constructor
      · rintro (⟨y, hy, h⟩ | h | h)
        · exact Or.inl ⟨y, by simp [hy], h⟩
        · exact Or.inl ⟨x, by simp, h⟩
        · exact Or.inr h
      · rintro (⟨y, hy, h⟩ | h)
        · rcases List.mem_cons.mp hy with rfl | hy
          · exact Or.inr (Or.inl h)
          · exact Or.inl ⟨y, hy, h⟩
        · exact Or.inr (Or.inr h)

end

end NgsAMG.CMap
