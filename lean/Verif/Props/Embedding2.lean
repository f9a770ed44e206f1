import Verif.Props.Embedding1

/-!
# C96: the embedding puts values of vertices to the degrees of freedom that belong to them
-/

namespace NgsAMG.DofM
open NgsAMG NgsAMG.SparseMM NgsAMG.SparseLA NgsAMG.Spec Matrix

variable {K : Type*} [CommRing K] {a b c n : ℕ}

/-! ### `BuildED` -/

/-- vertices and components in the order of the loops -/
def edPairs (nv : ℕ) : List ℕ → ℕ → List (ℕ × ℕ)
  | [], _ => []
  | bz :: bs, os => ((List.range nv).flatMap fun v => (List.range bz).map fun j => (v, os + j)) ++ edPairs nv bs (os + bz)

theorem edLoop_eq (height nv : ℕ) (bs : List ℕ) (os : ℕ) (rows : Option (List (ℕ × Mt 1 b K))) :
    edLoop height nv bs os rows = (edPairs nv bs os).foldl (edPut height) rows := by
  induction bs generalizing os rows with
  | nil => rfl
  | cons bz bs ih =>
    simp only [edLoop, edPairs]
    rw [ih, List.foldl_append]
    congr 1
    unfold edBlock
    rw [List.foldl_flatMap]
    simp only [List.foldl_map]

theorem flat_get (nv bz os k : ℕ) (hb : 0 < bz) (hk : k < nv * bz) : ((List.range nv).flatMap fun v => (List.range bz).map fun j => (v, os + j))[k]? = some (k / bz, os + k % bz) := by
  induction nv with
  | zero => simp at hk
  | succ nv ih =>
    rw [List.range_succ, List.flatMap_append]
    have hl : ((List.range nv).flatMap fun v => (List.range bz).map fun j => (v, os + j)).length = nv * bz := by
      simp [List.length_flatMap]
    by_cases h : k < nv * bz
    · rw [List.getElem?_append_left (by rw [hl]; exact h)]
      exact ih h
    · rw [List.getElem?_append_right (by rw [hl]; omega), hl]
      have h1 : k - nv * bz < bz := by rw [Nat.succ_mul] at hk; omega
      have h2 : k / bz = nv := by
        rw [Nat.div_eq_iff hb]
        constructor
        · omega
        · rw [Nat.succ_mul] at hk; omega
      have h3 : k % bz = k - nv * bz := by
        have := Nat.div_add_mod k bz
        rw [h2, Nat.mul_comm] at this
        omega
      simp only [List.flatMap_cons, List.flatMap_nil, List.append_nil]
      rw [List.getElem?_map, List.getElem?_range h1]
      simp [h2, h3]

theorem flat_length (nv bz os : ℕ) : ((List.range nv).flatMap fun v => (List.range bz).map fun j => (v, os + j)).length = nv * bz := by
  simp [List.length_flatMap]

theorem edPairs_slot (nv : ℕ) (bs : List ℕ) (os k : ℕ) : (edPairs nv bs os)[k]? = (slot nv bs k).map fun p => (p.1, os + p.2) := by
  induction bs generalizing os k with
  | nil => rfl
  | cons bz bs ih =>
    simp only [edPairs, slot]
    by_cases hk : k < nv * bz
    · have hb : 0 < bz := by
        rcases Nat.eq_zero_or_pos bz with rfl | h
        · simp at hk
        · exact h
      rw [List.getElem?_append_left (by rw [flat_length]; exact hk), if_pos hk, flat_get _ _ _ _ hb hk]
      rfl
    · rw [List.getElem?_append_right (by rw [flat_length]; omega), flat_length, ih, if_neg hk, Option.map_map]
      congr 1
      funext p
      simp [Nat.add_assoc]

theorem edPairs_length (nv : ℕ) (bs : List ℕ) (os : ℕ) : (edPairs nv bs os).length = nv * bs.sum := by
  induction bs generalizing os with
  | nil => simp [edPairs]
  | cons bz bs ih => simp only [edPairs, List.length_append, flat_length, ih, List.sum_cons, Nat.mul_add]

theorem edFold (height : ℕ) (l : List (ℕ × ℕ)) (hl : l.length ≤ height) (hb : ∀ p ∈ l, p.2 < b) :
    ∃ rows : List (ℕ × Mt 1 b K), l.foldl (edPut height) (some []) = some rows ∧ rows.length = l.length ∧
      ∀ (k : ℕ) (p : ℕ × ℕ) (h : p.2 < b), l[k]? = some p → rows[k]? = some (p.1, unitRow ⟨p.2, h⟩) := by
  induction l using List.reverseRecOn with
  | nil => exact ⟨[], rfl, rfl, fun k p _ h => by simp at h⟩
  | append_singleton l x ih =>
    rw [List.length_append, List.length_singleton] at hl
    obtain ⟨rows, h1, h2, h3⟩ := ih (by omega) fun p hp => hb p (by simp [hp])
    have hx : x.2 < b := hb x (by simp)
    refine ⟨rows ++ [(x.1, unitRow ⟨x.2, hx⟩)], ?_, by simp [h2], ?_⟩
    · rw [List.foldl_append, h1]
      simp only [List.foldl_cons, List.foldl_nil, edPut, Option.bind_some]
      rw [if_pos (by omega), dif_pos hx]
    · intro k p h hk
      by_cases hkl : k < l.length
      · rw [List.getElem?_append_left hkl] at hk
        rw [List.getElem?_append_left (by omega)]
        exact h3 k p h hk
      · rw [List.getElem?_append_right (by omega), List.getElem?_singleton] at hk
        split at hk
        · rename_i h0
          cases hk
          rw [List.getElem?_append_right (by omega), List.getElem?_singleton, if_pos (by omega)]
        · cases hk

/-- the entry of a row of `E_D` -/
def edEntry (b nv : ℕ) (bs : List ℕ) (k : ℕ) : Option (ℕ × Mt 1 b K) := (slot nv bs k).bind fun p => if h : p.2 < b then some (p.1, unitRow ⟨p.2, h⟩) else none

theorem edScal_correct {height nv : ℕ} {bs : List ℕ} (hh : height = nv * bs.sum) (hb : bs.sum ≤ b) (junk : ℕ → ℕ × Mt 1 b K) :
    ∃ D, edScal b height nv bs junk = some D ∧ One D height nv (edEntry b nv bs) := by
  obtain ⟨rows, h1, h2, h3⟩ := edFold (K := K) (b := b) height (edPairs nv bs 0) (by rw [edPairs_length]; omega) (by
    intro p hp
    obtain ⟨k, hk⟩ := List.getElem?_of_mem hp
    rw [edPairs_slot] at hk
    obtain ⟨q, hq, rfl⟩ := Option.map_eq_some_iff.mp hk
    have := (slot_lt (v := q.1) (c := q.2) hq).2.1
    simp only [Nat.zero_add]
    omega)
  refine ⟨⟨height, nv, fun k => if k < height then [(rows[k]?).getD (junk k)] else []⟩, ?_, rfl, rfl, ?_, ?_, ?_⟩
  · unfold edScal
    rw [edLoop_eq, h1]
    rfl
  · intro i hi
    obtain ⟨v, cc, hs⟩ := slot_some (nv := nv) (bs := bs) (k := i) (by omega)
    have hc := (slot_lt hs).2.1
    have := h3 i (v, 0 + cc) (by simp only; omega) (by rw [edPairs_slot, hs]; rfl)
    unfold edEntry
    simp only [hs, Option.bind_some]
    rw [if_pos hi, this, dif_pos (by omega)]
    simp
  · intro i hi
    exact if_neg (by omega)
  · intro i hi e he
    unfold edEntry at he
    obtain ⟨p, h4, h5⟩ := Option.bind_eq_some_iff.mp he
    split at h5
    · cases h5
      exact (slot_lt (v := p.1) (c := p.2) h4).1
    · cases h5

theorem edDisp_correct (nv : ℕ) : ∃ D, (edDisp a b nv [1] : Option (CSR (Mt a b K))) = some D ∧ One D nv nv fun k => some (k, dispBlock a b) := by
  refine ⟨_, if_pos rfl, rfl, rfl, fun i hi => if_pos hi, fun i hi => if_neg (by omega), ?_⟩
  intro i hi e he
  cases he
  exact hi

theorem slot_one {nv k : ℕ} (h : k < nv) : slot nv [1] k = some (k, 0) := by
  unfold slot
  rw [if_pos (by omega)]
  simp [Nat.mod_one]

/-! ### the products -/

/-- `E_S * E_D` -/
theorem embDiff_one {nd m nv : ℕ} {D : List ℕ} (hD : D.Nodup) (hlt : ∀ d ∈ D, d < nd) (hm : D.length = m) {ES : Option (CSR (Mt a a K))} (hES : IsES nd D ES) {ED : CSR (Mt a b K)} {f : ℕ → Option (ℕ × Mt a b K)}
    (hED : One ED m nv f) {sort : Option (List ℕ)} (hs : ∀ s, sort = some s → s.Perm (List.range nv)) (hw : nv ≤ 2 ^ 30) (h1 h2 : Tables) :
    ∃ E, embDiff h1 h2 ES ED (permOf b sort) = some E ∧ One E nd nv fun d => (pos D d).bind fun k => (f k).map fun e => ((sort.getD (List.range nv)).getD e.1 0, e.2) := by
  have key : ∃ E1, esed h1 ES ED = some E1 ∧ One E1 nd nv fun d => (pos D d).bind f := by
    cases ES with
    | none =>
      have hDr : D = List.range nd := hES
      have hmn : m = nd := by rw [← hm, hDr, List.length_range]
      subst hmn
      refine ⟨ED, rfl, hED.congr fun i hi => ?_⟩
      rw [(pos_get hD (k := i) (d := i)).mpr (by rw [hDr, List.getElem?_range hi])]
      rfl
    | some S =>
      have hS : One S nd m fun d => (pos D d).map fun k => (k, 1) := by rw [← hm]; exact hES
      obtain ⟨E1, he, ho⟩ := hS.mul hED hw h1
      refine ⟨E1, he, ho.congr fun i hi => ?_⟩
      rcases pos D i with _ | k
      · rfl
      · simp only [Option.map_some, Option.bind_some, Matrix.one_mul]
        rcases f k with _ | e <;> rfl
  obtain ⟨E1, he1, ho1⟩ := key
  unfold embDiff
  rw [he1, Option.bind_some]
  cases sort with
  | none =>
    refine ⟨E1, rfl, ho1.congr fun i hi => ?_⟩
    rcases hp : pos D i with _ | k
    · rfl
    · have hk := pos_lt hp
      simp only [Option.bind_some, Option.getD_none]
      rcases hf : f k with _ | e
      · rfl
      · have := hED.lt k (by omega) e hf
        simp only [Option.map_some, Option.some.injEq]
        rw [List.getD_eq_getElem?_getD, List.getElem?_range this]
        rfl
  | some s =>
    have hp := hs s rfl
    have hl : s.length = nv := by rw [hp.length_eq, List.length_range]
    obtain ⟨E2, he2, ho2⟩ := ho1.mul (one_perm (n := b) (K := K) hp) hw h2
    refine ⟨E2, he2, ho2.congr fun i hi => ?_⟩
    rcases hpp : pos D i with _ | k
    · rfl
    · have hk := pos_lt hpp
      simp only [Option.bind_some, Option.getD_some]
      rcases hf : f k with _ | e
      · rfl
      · have := hED.lt k (by omega) e hf
        simp only [Option.bind_some, Option.map_some]
        rw [List.getD_eq_getElem?_getD, List.getElem?_eq_getElem (by omega)]
        simp

/-- `nullptr` or `E_S * P` -/
theorem embSame_one {nd nv : ℕ} {D : List ℕ} (hD : D.Nodup) (hlt : ∀ d ∈ D, d < nd) (hm : D.length = nv) {ES : Option (CSR (Mt n n K))} (hES : IsES nd D ES)
    {sort : Option (List ℕ)} (hs : ∀ s, sort = some s → s.Perm (List.range nv)) (hw : nv ≤ 2 ^ 30) (h1 : Tables) :
    ∃ E, embSame h1 ES (permOf n sort) = some E ∧ (match E with
      | none => D = List.range nd ∧ sort = none
      | some E => One E nd nv fun d => (pos D d).map fun k => ((sort.getD (List.range nv)).getD k 0, 1)) := by
  cases sort with
  | none =>
    refine ⟨ES, rfl, ?_⟩
    cases ES with
    | none => exact ⟨hES, rfl⟩
    | some S =>
      have hS : One S nd nv fun d => (pos D d).map fun k => (k, 1) := by rw [← hm]; exact hES
      refine hS.congr fun i hi => ?_
      rcases hp : pos D i with _ | k
      · rfl
      · have hk := pos_lt hp
        simp only [Option.map_some, Option.getD_none]
        rw [List.getD_eq_getElem?_getD, List.getElem?_range (by omega)]
        rfl
  | some s =>
    have hp := hs s rfl
    have hl : s.length = nv := by rw [hp.length_eq, List.length_range]
    cases ES with
    | none =>
      have hDr : D = List.range nd := hES
      have hmn : nv = nd := by rw [← hm, hDr, List.length_range]
      subst hmn
      refine ⟨_, rfl, (one_perm (n := n) (K := K) hp).congr fun i hi => ?_⟩
      rw [(pos_get hD (k := i) (d := i)).mpr (by rw [hDr, List.getElem?_range hi])]
      simp only [Option.map_some, Option.getD_some]
      rw [List.getD_eq_getElem?_getD, List.getElem?_eq_getElem (by omega)]
      rfl
    | some S =>
      have hS : One S nd nv fun d => (pos D d).map fun k => (k, 1) := by rw [← hm]; exact hES
      obtain ⟨E, he, ho⟩ := hS.mul (one_perm (n := n) (K := K) hp) hw h1
      refine ⟨some E, ?_, ho.congr fun i hi => ?_⟩
      · show (matMultAB _ _ _ S (permutationMatrix n s)).map some = _
        rw [he]
        rfl
      · rcases hpp : pos D i with _ | k
        · rfl
        · have hk := pos_lt hpp
          simp only [Option.map_some, Option.bind_some, Option.getD_some]
          rw [List.getD_eq_getElem?_getD, List.getElem?_eq_getElem (by omega)]
          simp

end NgsAMG.DofM
