import Verif.Props.MapEdges

/-!
# C76: `MapEdges`: the counts and the table of the first rounds
-/

namespace NgsAMG.CMap

open NgsAMG.EQC NgsAMG.RedTab NgsAMG.Exch NgsAMG.BTM

theorem incr_spec {l : List ℕ} {k : ℕ} (hk : k < l.length) : ∃ l', incr l k = some l' ∧ l'.length = l.length ∧
    ∀ j, l'.getD j 0 = l.getD j 0 + if j = k then 1 else 0 := by
  refine ⟨l.set k (l[k] + 1), by unfold incr; rw [List.getElem?_eq_getElem hk]; rfl, by simp, fun j => ?_⟩
  rw [List.getD_eq_getElem?_getD, List.getD_eq_getElem?_getD]
  by_cases hj : j = k
  · subst hj
    rw [List.getElem?_set_self hk, List.getElem?_eq_getElem hk]
    simp
  · rw [List.getElem?_set_ne (Ne.symm hj)]
    simp [hj]

theorem decr_spec {l : List ℕ} {k : ℕ} (hk : 0 < l.getD k 0) : ∃ l', decr l k = some l' ∧ l'.length = l.length ∧
    ∀ j, l'.getD j 0 = l.getD j 0 - if j = k then 1 else 0 := by
  have hkl : k < l.length := by
    by_contra h
    rw [List.getD_eq_getElem?_getD, List.getElem?_eq_none (by omega)] at hk
    simp at hk
  rw [List.getD_eq_getElem?_getD, List.getElem?_eq_getElem hkl, Option.getD_some] at hk
  refine ⟨l.set k (l[k] - 1), by unfold decr; rw [List.getElem?_eq_getElem hkl, Option.bind_some, if_pos hk], by simp, fun j => ?_⟩
  rw [List.getD_eq_getElem?_getD, List.getD_eq_getElem?_getD]
  by_cases hj : j = k
  · subst hj
    rw [List.getElem?_set_self hkl, List.getElem?_eq_getElem hkl]
    simp
  · rw [List.getElem?_set_ne (Ne.symm hj)]
    simp [hj]

/-- a first edge with a coarse edge in the class `k`, within the class (`t`) or between classes -/
def isCls (t : Bool) (k : ℕ) (y : (ℕ × ℕ) × CInfo) : Bool := y.2.cls == k && (t != y.2.cross)

/-- a first edge with a coarse edge in the class `k`, but in another class itself -/
def isAdd (k : ℕ) (y : (ℕ × ℕ) × CInfo) : Bool := y.2.cls == k && (y.2.cls != y.1.1)

/-- the first round -/
theorem round1 {n : ℕ} (V : Env) (L : List ((ℕ × ℕ) × CInfo)) (hL : ∀ y ∈ L, y.2.cls < n) (s : Cnts) (h1 : s.eq.length = n) (h2 : s.cr.length = n)
    (h3 : s.add.length = n) :
    ∃ c, L.foldlM (fun st x => lam1 st x.1.2 x.1.1 x.2 (feids V x.2.cv0 x.2.cv1)) s = some c ∧ c.eq.length = n ∧ c.cr.length = n ∧ c.add.length = n ∧
      ∀ k, c.eq.getD k 0 = s.eq.getD k 0 + L.countP (isCls true k) ∧ c.cr.getD k 0 = s.cr.getD k 0 + L.countP (isCls false k) ∧
        c.add.getD k 0 = s.add.getD k 0 + L.countP (isAdd k) := by
  induction L generalizing s with
  | nil => exact ⟨s, rfl, h1, h2, h3, fun k => by simp⟩
  | cons y L ih =>
    have hy := hL y (by simp)
    rw [List.foldlM_cons]
    have hadd : ∃ add, (if y.2.cls ≠ y.1.1 then incr s.add y.2.cls else some s.add) = some add ∧ add.length = n ∧
        ∀ k, add.getD k 0 = s.add.getD k 0 + if isAdd k y = true then 1 else 0 := by
      by_cases h : y.2.cls = y.1.1
      · rw [if_neg (by simpa using h)]
        exact ⟨_, rfl, h3, fun k => by simp [isAdd, h]⟩
      · rw [if_pos h]
        obtain ⟨l, a1, a2, a3⟩ := incr_spec (l := s.add) (k := y.2.cls) (by omega)
        refine ⟨l, a1, by omega, fun k => ?_⟩
        rw [a3]
        congr 1
        unfold isAdd
        by_cases hk : k = y.2.cls
        · simp [hk, h]
        · simp [hk, Ne.symm hk]
    obtain ⟨add, a1, a2, a3⟩ := hadd
    have hstep : ∃ c, lam1 s y.1.2 y.1.1 y.2 (feids V y.2.cv0 y.2.cv1) = some c ∧ c.eq.length = n ∧ c.cr.length = n ∧ c.add.length = n ∧
        ∀ k, c.eq.getD k 0 = s.eq.getD k 0 + (if isCls true k y = true then 1 else 0) ∧
          c.cr.getD k 0 = s.cr.getD k 0 + (if isCls false k y = true then 1 else 0) ∧
          c.add.getD k 0 = s.add.getD k 0 + if isAdd k y = true then 1 else 0 := by
      unfold lam1
      rw [a1, Option.bind_some]
      by_cases hc : y.2.cross = true
      · rw [if_pos hc]
        obtain ⟨l, b1, b2, b3⟩ := incr_spec (l := s.cr) (k := y.2.cls) (by omega)
        refine ⟨⟨s.eq, l, add⟩, by rw [b1]; rfl, h1, by simp only; omega, a2, fun k => ⟨by simp [isCls, hc], ?_, a3 k⟩⟩
        show l.getD k 0 = _
        rw [b3]
        congr 1
        unfold isCls
        by_cases hk : k = y.2.cls
        · simp [hk, hc]
        · simp [hk, Ne.symm hk]
      · rw [if_neg hc]
        obtain ⟨l, b1, b2, b3⟩ := incr_spec (l := s.eq) (k := y.2.cls) (by omega)
        refine ⟨⟨l, s.cr, add⟩, by rw [b1]; rfl, by simp only; omega, h2, a2, fun k => ⟨?_, by simp [isCls, hc], a3 k⟩⟩
        show l.getD k 0 = _
        rw [b3]
        congr 1
        unfold isCls
        by_cases hk : k = y.2.cls
        · simp [hk, hc]
        · simp [hk, Ne.symm hk]
    obtain ⟨c, c1, c2, c3, c4, c5⟩ := hstep
    rw [c1]
    obtain ⟨c', d1, d2, d3, d4, d5⟩ := ih (fun x hx => hL x (by simp [hx])) c c2 c3 c4
    refine ⟨c', d1, d2, d3, d4, fun k => ?_⟩
    obtain ⟨e1, e2, e3⟩ := d5 k
    obtain ⟨g1, g2, g3⟩ := c5 k
    rw [e1, e2, e3, g1, g2, g3, List.countP_cons, List.countP_cons, List.countP_cons]
    omega

/-- the name of a coarse edge -/
def nameOf (V : Env) (i : CInfo) : CNode := (tupOf V.CC i).getD default

/-- the second round -/
theorem round2 {n : ℕ} (V : Env) (L : List ((ℕ × ℕ) × CInfo)) (hL : ∀ y ∈ L, y.2.cls < n ∧ tupOf V.CC y.2 = some (nameOf V y.2)) (cnt : List ℕ)
    (s : List (List CNode)) (h1 : s.length = n) (h2 : ∀ k, (s.getD k []).length + L.countP (isAdd k) ≤ cnt.getD k 0) :
    ∃ r, L.foldlM (fun st x => lam2 V.CC cnt st x.1.2 x.1.1 x.2 (feids V x.2.cv0 x.2.cv1)) s = some r ∧ r.length = n ∧
      ∀ k < n, r[k]? = some (s.getD k [] ++ (L.filter (isAdd k)).map fun y => nameOf V y.2) := by
  induction L generalizing s with
  | nil =>
    refine ⟨s, rfl, h1, fun k hk => ?_⟩
    rw [List.getD_eq_getElem?_getD, List.getElem?_eq_getElem (by omega)]
    simp
  | cons y L ih =>
    obtain ⟨hy, ht⟩ := hL y (by simp)
    rw [List.foldlM_cons]
    have hL' := fun x (hx : x ∈ L) => hL x (by simp [hx])
    by_cases hq : y.2.cls = y.1.1
    · have hn : ∀ k, isAdd k y = false := fun k => by simp [isAdd, hq]
      have hstep : lam2 V.CC cnt s y.1.2 y.1.1 y.2 (feids V y.2.cv0 y.2.cv1) = some s := by unfold lam2; rw [if_neg (by simpa using hq)]
      rw [hstep]
      obtain ⟨r, r1, r2, r3⟩ := ih hL' s h1 (fun k => by have := h2 k; rw [List.countP_cons, hn k] at this; simpa using this)
      refine ⟨r, r1, r2, fun k hk => ?_⟩
      rw [r3 k hk, List.filter_cons, if_neg (by simp [hn k])]
    · have hyl : y.2.cls < s.length := by omega
      have hrow := List.getElem?_eq_getElem hyl
      have hyes : isAdd y.2.cls y = true := by simp [isAdd, hq]
      have hno : ∀ k, k ≠ y.2.cls → isAdd k y = false := fun k hk => by simp [isAdd, Ne.symm hk]
      have hcap : s[y.2.cls].length < cnt.getD y.2.cls 0 := by
        have := h2 y.2.cls
        rw [List.countP_cons, if_pos hyes, List.getD_eq_getElem?_getD, hrow, Option.getD_some] at this
        omega
      have hstep : lam2 V.CC cnt s y.1.2 y.1.1 y.2 (feids V y.2.cv0 y.2.cv1) = some (s.set y.2.cls (s[y.2.cls] ++ [nameOf V y.2])) := by
        unfold lam2
        rw [if_pos hq, ht, Option.bind_some, hrow, Option.bind_some, if_pos hcap]
      rw [hstep]
      have hget : ∀ k, (s.set y.2.cls (s[y.2.cls] ++ [nameOf V y.2])).getD k [] = s.getD k [] ++ if isAdd k y = true then [nameOf V y.2] else [] := by
        intro k
        rw [List.getD_eq_getElem?_getD, List.getD_eq_getElem?_getD]
        by_cases hk : k = y.2.cls
        · subst hk
          rw [List.getElem?_set_self hyl, hrow, if_pos hyes]; rfl
        · rw [List.getElem?_set_ne (Ne.symm hk), if_neg (by simp [hno k hk]), List.append_nil]
      obtain ⟨r, r1, r2, r3⟩ := ih hL' (s.set y.2.cls (s[y.2.cls] ++ [nameOf V y.2])) (by simpa using h1) (fun k => by
        have := h2 k
        rw [List.countP_cons] at this
        rw [hget, List.length_append]
        split at this <;> rename_i hk
        · rw [if_pos hk]; simp only [List.length_cons, List.length_nil]; omega
        · rw [if_neg hk]; simpa using this)
      refine ⟨r, r1, r2, fun k hk => ?_⟩
      rw [r3 k hk, hget, List.filter_cons]
      split <;> simp

/-- what the counts need -/
structure CntOK (V : Env) : Prop where
  loc : LocOK V
  cls : ∀ e i, keyOf V e = some i → i.cls < V.C.T.length ∧ tupOf V.CC i = some (nameOf V i)
  ord : ∀ x ∈ order V.C.T.length V.E, x.2 < V.E.nodes.length

theorem order_cls {n : ℕ} {E : FEdges} {x : ℕ × ℕ} (h : x ∈ order n E) : x.1 < n := by
  unfold order at h
  obtain ⟨k, hk, hx⟩ := List.mem_flatMap.mp h
  obtain ⟨e, -, rfl⟩ := List.mem_map.mp hx
  exact List.mem_range.mp hk

/-- the first edges of all coarse edges -/
def firstEdges (V : Env) : List ((ℕ × ℕ) × CInfo) := firsts (keyOf V) [] (order V.C.T.length V.E)

section
variable {V : Env} (hV : CntOK V)
include hV

theorem itEs_false {σ : Type} (lam : σ → ℕ → ℕ → CInfo → List ℕ → Option σ) (des : ℕ → Bool) (st : σ) :
    (itEs V false (fun _ _ => true) lam ⟨fun _ => false, des, st⟩ (order V.C.T.length V.E)).map (·.st) =
      (firstEdges V).foldlM (fun st x => lam st x.1.2 x.1.1 x.2 (feids V x.2.cv0 x.2.cv1)) st := by
  refine itEs_eq hV.loc false _ lam (fun m _ D => ∀ e i, keyOf V e = some i → (m e = true ↔ i ∈ D)) ?_ ?_ _ [] _ hV.ord ?_
    (fun h => by cases h) (fun h => by cases h) (fun h => by cases h)
  · intro m st D e i h hi
    simp only [Bool.and_true, Bool.not_eq_true', ← Bool.not_eq_true, h e i hi]
  · intro m st D e k i st' m' h hD hi _ hm f j hj
    rw [hm, h f j hj, hj]
    simp only [Option.some.injEq, List.mem_cons]
    tauto
  · intro e i _
    simp

theorem tentCE_spec : ∃ c tab, tentCE V = some (c, tab) ∧ c.eq.length = V.C.T.length ∧ c.cr.length = V.C.T.length ∧
    (∀ k, c.eq.getD k 0 = (firstEdges V).countP (isCls true k) ∧ c.cr.getD k 0 = (firstEdges V).countP (isCls false k)) ∧ tab.length = V.C.T.length ∧
    ∀ k < V.C.T.length, tab[k]? = some ((((firstEdges V).filter (isAdd k)).map fun y => nameOf V y.2).insertionSort fun a b => lessTup b a = false) := by
  have hmem : ∀ y ∈ firstEdges V, y.2.cls < V.C.T.length ∧ tupOf V.CC y.2 = some (nameOf V y.2) :=
    fun y hy => hV.cls _ _ (firsts_mem _ hy).2.1
  obtain ⟨c, c1, c2, c3, c4, c5⟩ := round1 (n := V.C.T.length) V (firstEdges V) (fun y hy => (hmem y hy).1)
    ⟨List.replicate V.C.T.length 0, List.replicate V.C.T.length 0, List.replicate V.C.T.length 0⟩ (by simp) (by simp) (by simp)
  have hz : ∀ k, (List.replicate V.C.T.length 0).getD k 0 = 0 := by
    intro k; rw [List.getD_eq_getElem?_getD, List.getElem?_replicate]; split <;> rfl
  simp only [hz, Nat.zero_add] at c5
  have h1 := itEs_false hV lam1 (fun _ => false) ⟨List.replicate V.C.T.length 0, List.replicate V.C.T.length 0, List.replicate V.C.T.length 0⟩
  rw [c1, Option.map_eq_some_iff] at h1
  obtain ⟨r, r1, r2⟩ := h1
  unfold tentCE
  dsimp only
  rw [r1, Option.bind_some, r2]
  by_cases hn : 1 < V.C.T.length
  · rw [if_pos hn]
    obtain ⟨t, t1, t2, t3⟩ := round2 (n := V.C.T.length) V (firstEdges V) hmem c.add (List.replicate V.C.T.length []) (by simp) (fun k => by
      rw [(c5 k).2.2, List.getD_eq_getElem?_getD, List.getElem?_replicate]
      split <;> simp)
    have h2 := itEs_false hV (lam2 V.CC c.add) r.desig (List.replicate V.C.T.length [])
    rw [t1, Option.map_eq_some_iff] at h2
    obtain ⟨r', r1', r2'⟩ := h2
    rw [r1', Option.map_some, r2']
    refine ⟨c, _, rfl, c2, c3, fun k => ⟨(c5 k).1, (c5 k).2.1⟩, by simpa using t2, fun k hk => ?_⟩
    rw [List.getElem?_map, t3 k hk, Option.map_some, List.getD_eq_getElem?_getD, List.getElem?_replicate, if_pos hk, Option.getD_some, List.nil_append]
  · rw [if_neg hn]
    have hno : ∀ k, (firstEdges V).filter (isAdd k) = [] := by
      intro k
      rw [List.filter_eq_nil_iff]
      intro y hy
      have := (hmem y hy).1
      have h2 := order_cls (firsts_mem _ hy).1
      have : y.2.cls = y.1.1 := by omega
      simp [isAdd, this]
    have hall : (c.add.all fun x => x == 0) = true := by
      rw [List.all_eq_true]
      intro x hx
      obtain ⟨k, hk⟩ := List.mem_iff_getElem?.mp hx
      have := (c5 k).2.2
      rw [List.getD_eq_getElem?_getD, hk, Option.getD_some, List.countP_eq_length_filter, hno] at this
      simpa using this
    rw [if_pos hall]
    refine ⟨c, _, rfl, c2, c3, fun k => ⟨(c5 k).1, (c5 k).2.1⟩, by simp, fun k hk => ?_⟩
    rw [hno, List.getElem?_replicate, if_pos hk]; rfl

end

/-! ### the counts after `ReduceTable` -/

theorem inter_empty {α : Type} [LinearOrder α] (i j : ℕ) (a b : List α) : Traversal.isIntersectEmpty a b = (Traversal.iterInter i a j b).isEmpty := by
  fun_induction Traversal.iterInter i a j b with
  | case1 => rw [Traversal.isIntersectEmpty]; rfl
  | case2 => rw [Traversal.isIntersectEmpty]; rfl
  | case3 i j x as bs ih => rw [Traversal.isIntersectEmpty]; simp
  | case4 i j x as y bs h1 h2 ih => rw [Traversal.isIntersectEmpty, if_neg h1, if_pos h2, ih]
  | case5 i j x as y bs h1 h2 ih => rw [Traversal.isIntersectEmpty, if_neg h1, if_neg h2, ih]

theorem has_iff (V : Env) (x y : ℕ) : ((V.c2f x).any fun v => !Traversal.isIntersectEmpty ((V.econ v).map Prod.fst) (V.c2f y)) = true ↔ ∃ f, f ∈ feids V x y := by
  rw [List.any_eq_true]
  unfold feids
  constructor
  · rintro ⟨v, hv, h⟩
    rw [inter_empty 0 0, Bool.not_eq_true', List.isEmpty_eq_false_iff] at h
    obtain ⟨ij, hij⟩ := List.exists_mem_of_ne_nil _ h
    exact ⟨_, List.mem_flatMap.mpr ⟨v, hv, List.mem_map.mpr ⟨ij, hij, rfl⟩⟩⟩
  · rintro ⟨f, hf⟩
    obtain ⟨v, hv, h⟩ := List.mem_flatMap.mp hf
    obtain ⟨ij, hij, -⟩ := List.mem_map.mp h
    refine ⟨v, hv, ?_⟩
    rw [inter_empty 0 0, Bool.not_eq_true', List.isEmpty_eq_false_iff]
    exact List.ne_nil_of_mem hij

/-- the entry has a fine edge on this process -/
def hasF (V : Env) (t : CNode) : Bool := (decodeTup V.CC t).any fun v => (V.c2f v.1).any fun x => !Traversal.isIntersectEmpty ((V.econ x).map Prod.fst) (V.c2f v.2)

/-- entries within the class, with a fine edge -/
def isInF (V : Env) (t : Bool) (c : CNode) : Bool := (t == c.isIn) && hasF V c

theorem isIn_iff {t : CNode} : (t.e1 ≠ t.e0) ↔ t.isIn = false := by
  unfold CNode.isIn
  rw [beq_eq_false_iff_ne]
  exact ne_comm

/-- the entries of a row -/
theorem adjust_row {n : ℕ} (V : Env) (k : ℕ) (hk : k < n) (row : List CNode) (hd : ∀ t ∈ row, ∃ v, decodeTup V.CC t = some v) (s : Cnts2) (h1 : s.aeq.length = n) (h2 : s.acr.length = n)
    (h3 : row.countP (isInF V true) ≤ s.eq.getD k 0) (h4 : row.countP (isInF V false) ≤ s.cr.getD k 0) :
    ∃ a, row.foldlM (adjust V k) s = some a ∧ a.eq.length = s.eq.length ∧ a.cr.length = s.cr.length ∧ a.aeq.length = n ∧ a.acr.length = n ∧
      (∀ j, j ≠ k → a.eq.getD j 0 = s.eq.getD j 0 ∧ a.cr.getD j 0 = s.cr.getD j 0 ∧ a.aeq.getD j 0 = s.aeq.getD j 0 ∧ a.acr.getD j 0 = s.acr.getD j 0) ∧
      a.eq.getD k 0 = s.eq.getD k 0 - row.countP (isInF V true) ∧ a.cr.getD k 0 = s.cr.getD k 0 - row.countP (isInF V false) ∧
      a.aeq.getD k 0 = s.aeq.getD k 0 + row.countP (fun c => c.isIn) ∧ a.acr.getD k 0 = s.acr.getD k 0 + row.countP (fun c => !c.isIn) := by
  induction row generalizing s with
  | nil => exact ⟨s, rfl, rfl, rfl, h1, h2, fun j _ => ⟨rfl, rfl, rfl, rfl⟩, by simp, by simp, by simp, by simp⟩
  | cons t row ih =>
    obtain ⟨v, hv⟩ := hd t (by simp)
    have hhas : ((V.c2f v.1).any fun x => !Traversal.isIntersectEmpty ((V.econ x).map Prod.fst) (V.c2f v.2)) = hasF V t := by
      unfold hasF; rw [hv]; rfl
    rw [List.foldlM_cons]
    rw [List.countP_cons] at h3 h4
    have hstep : ∃ a, adjust V k s t = some a ∧ a.eq.length = s.eq.length ∧ a.cr.length = s.cr.length ∧ a.aeq.length = n ∧ a.acr.length = n ∧
      (∀ j, j ≠ k → a.eq.getD j 0 = s.eq.getD j 0 ∧ a.cr.getD j 0 = s.cr.getD j 0 ∧ a.aeq.getD j 0 = s.aeq.getD j 0 ∧ a.acr.getD j 0 = s.acr.getD j 0) ∧
      a.eq.getD k 0 = s.eq.getD k 0 - (if isInF V true t = true then 1 else 0) ∧ a.cr.getD k 0 = s.cr.getD k 0 - (if isInF V false t = true then 1 else 0) ∧
      a.aeq.getD k 0 = s.aeq.getD k 0 + (if t.isIn = true then 1 else 0) ∧ a.acr.getD k 0 = s.acr.getD k 0 + (if (!t.isIn) = true then 1 else 0) := by
      unfold adjust
      rw [hv, Option.bind_some]
      dsimp only
      rw [hhas]
      cases hin : t.isIn
      · rw [if_pos (isIn_iff.mpr hin)]
        obtain ⟨l, a1, a2, a3⟩ := incr_spec (l := s.acr) (k := k) (by omega)
        rw [a1, Option.bind_some]
        by_cases hh : hasF V t = true
        · rw [if_pos hh]
          have hI : isInF V false t = true := by simp [isInF, hin, hh]
          have hI' : isInF V true t = false := by simp [isInF, hin]
          rw [if_pos hI] at h4
          obtain ⟨l', b1, b2, b3⟩ := decr_spec (l := s.cr) (k := k) (by omega)
          rw [b1, Option.map_some]
          refine ⟨_, rfl, rfl, b2, h1, by simp only; omega, fun j hj => ⟨rfl, ?_, rfl, ?_⟩, by simp [hI'], ?_, by simp, ?_⟩
          · show l'.getD j 0 = _; rw [b3, if_neg hj]; rfl
          · show l.getD j 0 = _; rw [a3, if_neg hj]; rfl
          · show l'.getD k 0 = _; rw [b3, if_pos rfl, if_pos hI]
          · show l.getD k 0 = _; rw [a3, if_pos rfl]; rfl
        · rw [if_neg hh]
          have hI : ∀ b, isInF V b t = false := by intro b; simp [isInF, hh]
          refine ⟨_, rfl, rfl, rfl, h1, by simp only; omega, fun j hj => ⟨rfl, rfl, rfl, ?_⟩, by simp [hI], by simp [hI], by simp, ?_⟩
          · show l.getD j 0 = _; rw [a3, if_neg hj]; rfl
          · show l.getD k 0 = _; rw [a3, if_pos rfl]; rfl
      · rw [if_neg (by rw [isIn_iff, hin]; simp)]
        obtain ⟨l, a1, a2, a3⟩ := incr_spec (l := s.aeq) (k := k) (by omega)
        rw [a1, Option.bind_some]
        by_cases hh : hasF V t = true
        · rw [if_pos hh]
          have hI : isInF V true t = true := by simp [isInF, hin, hh]
          have hI' : isInF V false t = false := by simp [isInF, hin]
          rw [if_pos hI] at h3
          obtain ⟨l', b1, b2, b3⟩ := decr_spec (l := s.eq) (k := k) (by omega)
          rw [b1, Option.map_some]
          refine ⟨_, rfl, b2, rfl, by simp only; omega, h2, fun j hj => ⟨?_, rfl, ?_, rfl⟩, ?_, by simp [hI'], ?_, by simp⟩
          · show l'.getD j 0 = _; rw [b3, if_neg hj]; rfl
          · show l.getD j 0 = _; rw [a3, if_neg hj]; rfl
          · show l'.getD k 0 = _; rw [b3, if_pos rfl, if_pos hI]
          · show l.getD k 0 = _; rw [a3, if_pos rfl]; rfl
        · rw [if_neg hh]
          have hI : ∀ b, isInF V b t = false := by intro b; simp [isInF, hh]
          refine ⟨_, rfl, rfl, rfl, by simp only; omega, h2, fun j hj => ⟨rfl, rfl, ?_, rfl⟩, by simp [hI], by simp [hI], ?_, by simp⟩
          · show l.getD j 0 = _; rw [a3, if_neg hj]; rfl
          · show l.getD k 0 = _; rw [a3, if_pos rfl]; rfl
    obtain ⟨a, a1, a2, a3, a4, a5, a6, a7, a8, a9, a10⟩ := hstep
    rw [a1]
    obtain ⟨b, b1, b2, b3, b4, b5, b6, b7, b8, b9, b10⟩ := ih (fun t ht => hd t (by simp [ht])) a a4 a5 (by omega) (by omega)
    refine ⟨b, b1, b2.trans a2, b3.trans a3, b4, b5, fun j hj => ?_, ?_, ?_, ?_, ?_⟩
    · obtain ⟨c1, c2, c3, c4⟩ := b6 j hj
      obtain ⟨d1, d2, d3, d4⟩ := a6 j hj
      exact ⟨c1.trans d1, c2.trans d2, c3.trans d3, c4.trans d4⟩
    · rw [b7, a7, List.countP_cons]; omega
    · rw [b8, a8, List.countP_cons]; omega
    · rw [b9, a9, List.countP_cons]; omega
    · rw [b10, a10, List.countP_cons]; omega

/-- all rows -/
theorem adjusts_spec {n : ℕ} (V : Env) (rows : List (List CNode)) (hd : ∀ row ∈ rows, ∀ t ∈ row, ∃ v, decodeTup V.CC t = some v) (hn : rows.length = n)
    (s : Cnts2) (h1 : s.aeq.length = n) (h2 : s.acr.length = n)
    (h3 : ∀ (k : ℕ) (row : List CNode), rows[k]? = some row → row.countP (isInF V true) ≤ s.eq.getD k 0 ∧ row.countP (isInF V false) ≤ s.cr.getD k 0) :
    ∃ a, adjusts V s rows = some a ∧ a.eq.length = s.eq.length ∧ a.cr.length = s.cr.length ∧ a.aeq.length = n ∧ a.acr.length = n ∧
      ∀ (k : ℕ) (row : List CNode), rows[k]? = some row →
        a.eq.getD k 0 = s.eq.getD k 0 - row.countP (isInF V true) ∧ a.cr.getD k 0 = s.cr.getD k 0 - row.countP (isInF V false) ∧
        a.aeq.getD k 0 = s.aeq.getD k 0 + row.countP (fun c => c.isIn) ∧ a.acr.getD k 0 = s.acr.getD k 0 + row.countP (fun c => !c.isIn) := by
  have key : ∀ (rs : List (List CNode)) (o : ℕ) (s : Cnts2), (∀ row ∈ rs, ∀ t ∈ row, ∃ v, decodeTup V.CC t = some v) → o + rs.length ≤ n →
      s.aeq.length = n → s.acr.length = n →
      (∀ (k : ℕ) (row : List CNode), rs[k]? = some row → row.countP (isInF V true) ≤ s.eq.getD (o + k) 0 ∧ row.countP (isInF V false) ≤ s.cr.getD (o + k) 0) →
      ∃ a, (rs.zipIdx o).foldlM (fun s r => r.1.foldlM (adjust V r.2) s) s = some a ∧ a.eq.length = s.eq.length ∧ a.cr.length = s.cr.length ∧
        a.aeq.length = n ∧ a.acr.length = n ∧
        (∀ j < o, a.eq.getD j 0 = s.eq.getD j 0 ∧ a.cr.getD j 0 = s.cr.getD j 0 ∧ a.aeq.getD j 0 = s.aeq.getD j 0 ∧ a.acr.getD j 0 = s.acr.getD j 0) ∧
        ∀ (k : ℕ) (row : List CNode), rs[k]? = some row →
          a.eq.getD (o + k) 0 = s.eq.getD (o + k) 0 - row.countP (isInF V true) ∧ a.cr.getD (o + k) 0 = s.cr.getD (o + k) 0 - row.countP (isInF V false) ∧
          a.aeq.getD (o + k) 0 = s.aeq.getD (o + k) 0 + row.countP (fun c => c.isIn) ∧
          a.acr.getD (o + k) 0 = s.acr.getD (o + k) 0 + row.countP (fun c => !c.isIn) := by
    intro rs
    induction rs with
    | nil => intro o s _ _ h1 h2 _; exact ⟨s, rfl, rfl, rfl, h1, h2, fun j _ => ⟨rfl, rfl, rfl, rfl⟩, fun k row h => by simp at h⟩
    | cons r rs ih =>
      intro o s hd ho h1 h2 h3
      rw [List.length_cons] at ho
      rw [List.zipIdx_cons, List.foldlM_cons]
      have h30 := h3 0 r (by simp)
      rw [Nat.add_zero] at h30
      obtain ⟨a, a1, a2, a3, a4, a5, a6, a7, a8, a9, a10⟩ := adjust_row (n := n) V o (by omega) r (hd r (by simp)) s h1 h2 h30.1 h30.2
      dsimp only
      rw [a1]
      obtain ⟨b, b1, b2, b3, b4, b5, b6, b7⟩ := ih (o + 1) a (fun row hr => hd row (by simp [hr])) (by omega) a4 a5 (by
        intro k row hrow
        obtain ⟨c1, c2, -⟩ := a6 (o + 1 + k) (by omega)
        rw [c1, c2]
        have := h3 (k + 1) row (by simpa using hrow)
        rwa [show o + (k + 1) = o + 1 + k by omega] at this)
      refine ⟨b, b1, b2.trans a2, b3.trans a3, b4, b5, fun j hj => ?_, fun k row hrow => ?_⟩
      · obtain ⟨c1, c2, c3, c4⟩ := b6 j (by omega)
        obtain ⟨d1, d2, d3, d4⟩ := a6 j (by omega)
        exact ⟨c1.trans d1, c2.trans d2, c3.trans d3, c4.trans d4⟩
      · cases k with
        | zero =>
          simp only [List.getElem?_cons_zero, Option.some.injEq] at hrow
          subst hrow
          obtain ⟨c1, c2, c3, c4⟩ := b6 o (by omega)
          rw [Nat.add_zero, c1, c2, c3, c4]
          exact ⟨a7, a8, a9, a10⟩
        | succ k =>
          have := b7 k row (by simpa using hrow)
          obtain ⟨c1, c2, c3, c4⟩ := a6 (o + 1 + k) (by omega)
          rw [show o + (k + 1) = o + 1 + k by omega]
          rwa [c1, c2, c3, c4] at this
  obtain ⟨a, a1, a2, a3, a4, a5, -, a7⟩ := key rows 0 s hd (by omega) h1 h2 (by intro k row h; rw [Nat.zero_add]; exact h3 k row h)
  refine ⟨a, a1, a2, a3, a4, a5, fun k row h => ?_⟩
  have := a7 k row h
  rwa [Nat.zero_add] at this

end NgsAMG.CMap
