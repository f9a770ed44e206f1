import Verif.Props.MapEdges3

/-!
# C76: `MapEdges`: the coarse edges of one process
-/

namespace NgsAMG.CMap

open NgsAMG.EQC NgsAMG.RedTab NgsAMG.Exch NgsAMG.BTM

/-- the coarse edge is in the merged table -/
def inRow (V : Env) (rows : List (List CNode)) (i : CInfo) : Bool := decide (pr i ∈ (rows.getD i.cls []).map (prT V))

/-- the coarse edges of the class `k` with both ends in it (`t`) or not: first those that are not in the table -/
def newB (V : Env) (rows : List (List CNode)) (t : Bool) (k : ℕ) : List (ℕ × ℕ) :=
  ((firstEdges V).filter fun y => isCls t k y && !inRow V rows y.2).map (fun y => pr y.2) ++ ((rows.getD k []).filter fun c => t == c.isIn).map (prT V)

/-- all blocks -/
def blocksE (V : Env) (rows : List (List CNode)) (t : Bool) : List (List (ℕ × ℕ)) := (List.range V.C.T.length).map (newB V rows t)

/-- all coarse edges -/
def allCE (V : Env) (rows : List (List CNode)) : List (ℕ × ℕ) := (blocksE V rows true).flatten ++ (blocksE V rows false).flatten

theorem split_first {row : List CNode} (h : row.Pairwise fun s t => t.isIn = true → s.isIn = true) :
    row = (row.filter fun c => true == c.isIn) ++ row.filter fun c => false == c.isIn := by
  induction row with
  | nil => rfl
  | cons s row ih =>
    obtain ⟨h1, h2⟩ := List.pairwise_cons.mp h
    cases hs : s.isIn with
    | true =>
      rw [List.filter_cons, List.filter_cons, hs]
      simp only [BEq.rfl, if_true, show (false == true) = false from rfl, Bool.false_eq_true, if_false, List.cons_append]
      rw [← ih h2]
    | false =>
      have hn : ∀ t ∈ row, t.isIn = false := by
        intro t ht
        cases hti : t.isIn with
        | false => rfl
        | true => rw [h1 t ht hti] at hs; cases hs
      rw [List.filter_eq_nil_iff.mpr, List.filter_eq_self.mpr, List.nil_append]
      · intro t ht
        rcases List.mem_cons.mp ht with rfl | ht
        · rw [hs]; rfl
        · rw [hn t ht]; rfl
      · intro t ht
        rcases List.mem_cons.mp ht with rfl | ht
        · rw [hs]; simp
        · rw [hn t ht]; simp

theorem off_blocks (V : Env) (rows : List (List CNode)) (t : Bool) {k : ℕ} (hk : k ≤ V.C.T.length) :
    off (blocksE V rows t) k = ((List.range k).map fun j => (newB V rows t j).length).sum := by
  unfold off blocksE
  rw [← List.map_take, List.take_range, Nat.min_eq_left hk, List.map_map]
  rfl

theorem blocksE_get (V : Env) (rows : List (List CNode)) (t : Bool) {k : ℕ} (hk : k < V.C.T.length) : (blocksE V rows t)[k]? = some (newB V rows t k) := by
  unfold blocksE
  rw [List.getElem?_map, List.getElem?_range hk]; rfl

theorem allCE_in (V : Env) (rows : List (List CNode)) {k j : ℕ} {x : ℕ × ℕ} (hk : k < V.C.T.length) (hx : (newB V rows true k)[j]? = some x) :
    (allCE V rows)[off (blocksE V rows true) k + j]? = some x := by
  have hj := (List.getElem?_eq_some_iff.mp hx).1
  have h := flatten_get (blocksE V rows true) (blocksE_get V rows true hk) hj
  rw [hx] at h
  unfold allCE
  rw [List.getElem?_append_left (List.getElem?_eq_some_iff.mp h).1, h]

theorem allCE_cr (V : Env) (rows : List (List CNode)) {k j : ℕ} {x : ℕ × ℕ} (hk : k < V.C.T.length) (hx : (newB V rows false k)[j]? = some x) :
    (allCE V rows)[(blocksE V rows true).flatten.length + off (blocksE V rows false) k + j]? = some x := by
  have hj := (List.getElem?_eq_some_iff.mp hx).1
  have h := flatten_get (blocksE V rows false) (blocksE_get V rows false hk) hj
  rw [hx] at h
  unfold allCE
  rw [List.getElem?_append_right (by omega), show (blocksE V rows true).flatten.length + off (blocksE V rows false) k + j - (blocksE V rows true).flatten.length =
    off (blocksE V rows false) k + j by omega, h]

/-- the coarse edges are in the blocks -/
theorem allCE_index (V : Env) (rows : List (List CNode)) {id : ℕ} (h : id < (allCE V rows).length) :
    ∃ k j, k < V.C.T.length ∧ ((j < (newB V rows true k).length ∧ id = off (blocksE V rows true) k + j) ∨
      (j < (newB V rows false k).length ∧ id = (blocksE V rows true).flatten.length + off (blocksE V rows false) k + j)) := by
  unfold allCE at h
  rw [List.length_append] at h
  have get : ∀ (t : Bool) (k : ℕ) (b : List (ℕ × ℕ)), (blocksE V rows t)[k]? = some b → k < V.C.T.length ∧ b = newB V rows t k := by
    intro t k b hb
    have hk : k < V.C.T.length := by
      have := (List.getElem?_eq_some_iff.mp hb).1
      unfold blocksE at this
      simpa using this
    rw [blocksE_get V rows t hk] at hb
    exact ⟨hk, (Option.some.inj hb).symm⟩
  by_cases hid : id < (blocksE V rows true).flatten.length
  · obtain ⟨k, j, b, h1, h2, h3⟩ := flatten_index _ hid
    obtain ⟨hk, rfl⟩ := get _ _ _ h1
    exact ⟨k, j, hk, Or.inl ⟨h2, h3⟩⟩
  · obtain ⟨k, j, b, h1, h2, h3⟩ := flatten_index (blocksE V rows false) (i := id - (blocksE V rows true).flatten.length) (by omega)
    obtain ⟨hk, rfl⟩ := get _ _ _ h1
    exact ⟨k, j, hk, Or.inr ⟨h2, by omega⟩⟩

section
variable {V : Env} (hV : CntOK V) {rows : List (List CNode)} (hR : RowsE V rows)
include hV hR

/-- the entries of a block -/
theorem mem_newB {t : Bool} {k : ℕ} {x : ℕ × ℕ} (hk : k < V.C.T.length) : x ∈ newB V rows t k ↔
    (∃ e i, keyOf V e = some i ∧ pr i = x ∧ i.cls = k ∧ i.cross = !t ∧ inRow V rows i = false) ∨ ∃ c ∈ rows.getD k [], c.isIn = t ∧ prT V c = x := by
  unfold newB
  rw [List.mem_append, List.mem_map, List.mem_map]
  refine or_congr ⟨?_, ?_⟩ ⟨?_, ?_⟩
  · rintro ⟨y, hy, rfl⟩
    rw [List.mem_filter, Bool.and_eq_true, Bool.not_eq_true'] at hy
    obtain ⟨h1, h2, h3⟩ := hy
    have := firsts_mem _ h1
    unfold isCls at h2
    rw [Bool.and_eq_true, beq_iff_eq, bne_iff_ne] at h2
    refine ⟨y.1.2, y.2, this.2.1, rfl, h2.1, ?_, h3⟩
    obtain ⟨-, h2⟩ := h2
    revert h2
    cases y.2.cross <;> cases t <;> simp
  · rintro ⟨e, i, h1, rfl, rfl, h3, h4⟩
    obtain ⟨l, hl⟩ := hR.cover e i h1
    obtain ⟨y, hy⟩ := firsts_cover (keyOf V) (D := []) hl h1 (by simp)
    refine ⟨(y, i), ?_, rfl⟩
    rw [List.mem_filter]
    refine ⟨hy, ?_⟩
    unfold isCls
    rw [h4, h3]
    cases t <;> simp
  · rintro ⟨c, hc, rfl⟩
    rw [List.mem_filter, beq_iff_eq] at hc
    exact ⟨c, hc.1, hc.2.symm, rfl⟩
  · rintro ⟨c, hc, rfl, rfl⟩
    exact ⟨c, by rw [List.mem_filter]; exact ⟨hc, by simp⟩, rfl⟩

theorem rows_get {k : ℕ} (hk : k < V.C.T.length) : rows[k]? = some (rows.getD k []) := by
  have : k < rows.length := by rw [hR.len]; exact hk
  rw [List.getD_eq_getElem?_getD, List.getElem?_eq_getElem this]; rfl

/-- an entry of two blocks -/
theorem newB_unique {t t' : Bool} {k k' : ℕ} {x : ℕ × ℕ} (hk : k < V.C.T.length) (hk' : k' < V.C.T.length) (h : x ∈ newB V rows t k) (h' : x ∈ newB V rows t' k') :
    t = t' ∧ k = k' := by
  rw [mem_newB hV hR hk] at h
  rw [mem_newB hV hR hk'] at h'
  have hneg : ∀ {e i k} {c : CNode}, keyOf V e = some i → c ∈ rows.getD k [] → k < V.C.T.length → pr i = prT V c → inRow V rows i = true := by
    intro e i k c hi hc hk hpr
    have := (hR.cls k _ (rows_get hV hR hk) c hc e i hi hpr).1
    unfold inRow
    rw [decide_eq_true_iff, this, hpr]
    exact List.mem_map_of_mem hc
  rcases h with ⟨e, i, a1, rfl, rfl, a3, a4⟩ | ⟨c, a1, rfl, rfl⟩
  · rcases h' with ⟨e', i', b1, b2, rfl, b3, b4⟩ | ⟨c, b1, rfl, b2⟩
    · have := pr_inj hV.loc b1 a1 b2
      subst this
      rw [a3] at b3
      refine ⟨?_, rfl⟩
      revert b3; cases t <;> cases t' <;> simp
    · rw [hneg a1 b1 hk' b2.symm] at a4; cases a4
  · rcases h' with ⟨e', i', b1, b2, rfl, b3, b4⟩ | ⟨c', b1, rfl, b2⟩
    · rw [hneg b1 a1 hk b2] at b4; cases b4
    · obtain ⟨h1, h2⟩ := hR.inj k k' _ _ (rows_get hV hR hk) (rows_get hV hR hk') c a1 c' b1 b2.symm
      subst h1 h2
      exact ⟨rfl, rfl⟩

theorem firstEdges_pr : ((firstEdges V).map fun y => pr y.2).Nodup := by
  have hn := firsts_nodup (keyOf V) [] (order V.C.T.length V.E)
  have : (firstEdges V).map (fun y => pr y.2) = ((firstEdges V).map Prod.snd).map pr := by rw [List.map_map]; rfl
  rw [this]
  refine (List.nodup_map_iff_inj_on hn).mpr ?_
  intro a ha b hb hab
  obtain ⟨y, hy, rfl⟩ := List.mem_map.mp ha
  obtain ⟨z, hz, rfl⟩ := List.mem_map.mp hb
  exact pr_inj hV.loc (firsts_mem _ hy).2.1 (firsts_mem _ hz).2.1 hab

theorem newB_nodup {t : Bool} {k : ℕ} (hk : k < V.C.T.length) : (newB V rows t k).Nodup := by
  unfold newB
  rw [List.nodup_append']
  refine ⟨?_, ?_, ?_⟩
  · exact (firstEdges_pr hV hR).sublist (List.filter_sublist.map _)
  · refine (List.nodup_map_iff_inj_on ((hR.nodup k _ (rows_get hV hR hk)).filter _)).mpr ?_
    intro a ha b hb hab
    rw [List.mem_filter] at ha hb
    exact (hR.inj k k _ _ (rows_get hV hR hk) (rows_get hV hR hk) a ha.1 b hb.1 hab).2
  · intro x hx hx'
    obtain ⟨y, hy, rfl⟩ := List.mem_map.mp hx
    obtain ⟨c, hc, hcy⟩ := List.mem_map.mp hx'
    rw [List.mem_filter, Bool.and_eq_true, Bool.not_eq_true'] at hy
    rw [List.mem_filter] at hc
    have h1 := (firsts_mem _ hy.1).2.1
    have h2 := (hR.cls k _ (rows_get hV hR hk) c hc.1 _ _ h1 hcy.symm).1
    have : inRow V rows y.2 = true := by
      unfold inRow
      rw [decide_eq_true_iff, h2, ← hcy]
      exact List.mem_map_of_mem hc.1
    rw [this] at hy
    exact absurd hy.2.2 (by simp)

theorem allCE_nodup : (allCE V rows).Nodup := by
  have hb : ∀ t, (blocksE V rows t).flatten.Nodup := by
    intro t
    unfold blocksE
    rw [List.nodup_flatten]
    constructor
    · intro l hl
      obtain ⟨k, hk, rfl⟩ := List.mem_map.mp hl
      exact newB_nodup hV hR (List.mem_range.mp hk)
    · rw [List.pairwise_map]
      refine (List.nodup_range (n := V.C.T.length)).imp_of_mem ?_
      intro a b ha hb hab
      intro x hx hx'
      exact hab (newB_unique hV hR (List.mem_range.mp ha) (List.mem_range.mp hb) hx hx').2
  unfold allCE
  rw [List.nodup_append']
  refine ⟨hb true, hb false, ?_⟩
  intro x hx hx'
  obtain ⟨l, hl, hxl⟩ := List.mem_flatten.mp hx
  obtain ⟨l', hl', hxl'⟩ := List.mem_flatten.mp hx'
  unfold blocksE at hl hl'
  obtain ⟨k, hk, rfl⟩ := List.mem_map.mp hl
  obtain ⟨k', hk', rfl⟩ := List.mem_map.mp hl'
  exact absurd (newB_unique hV hR (List.mem_range.mp hk) (List.mem_range.mp hk') hxl hxl').1 (by simp)

theorem hasF_iff {k : ℕ} (hk : k < V.C.T.length) {c : CNode} (hc : c ∈ rows.getD k []) : hasF V c = true ↔ ∃ y ∈ firstEdges V, pr y.2 = prT V c := by
  obtain ⟨v, hv, hne⟩ := hR.dec k _ (rows_get hV hR hk) c hc
  have hp : prT V c = norm v := by unfold prT; rw [hv]; rfl
  unfold hasF
  rw [hv, Option.any_some, has_iff, hp]
  constructor
  · rintro ⟨f, hf⟩
    obtain ⟨i, hi, hpi⟩ := (feids_norm hV.loc hne f).mp hf
    obtain ⟨l, hl⟩ := hR.cover f i hi
    obtain ⟨y, hy⟩ := firsts_cover (keyOf V) (D := []) hl hi (by simp)
    exact ⟨(y, i), hy, hpi⟩
  · rintro ⟨y, hy, hyp⟩
    exact ⟨y.1.2, (feids_norm hV.loc hne _).mpr ⟨y.2, (firsts_mem _ hy).2.1, hyp⟩⟩

/-- the entries with fine edges on this process are the coarse edges of this process in the table -/
theorem count_rows (t : Bool) {k : ℕ} (hk : k < V.C.T.length) :
    (rows.getD k []).countP (isInF V t) = (firstEdges V).countP fun y => isCls t k y && inRow V rows y.2 := by
  rw [List.countP_eq_length_filter, List.countP_eq_length_filter, ← List.length_map (f := prT V), ← List.length_map (as := (firstEdges V).filter _) (f := fun y => pr y.2)]
  refine List.Perm.length_eq ?_
  have hrow := rows_get hV hR hk
  rw [List.perm_ext_iff_of_nodup]
  · intro x
    rw [List.mem_map, List.mem_map]
    constructor
    · rintro ⟨c, hc, rfl⟩
      rw [List.mem_filter] at hc
      obtain ⟨hc, hf⟩ := hc
      unfold isInF at hf
      rw [Bool.and_eq_true, beq_iff_eq, hasF_iff hV hR hk hc] at hf
      obtain ⟨hin, y, hy, hyp⟩ := hf
      obtain ⟨h1, h2⟩ := hR.cls k _ hrow c hc _ _ (firsts_mem _ hy).2.1 hyp
      refine ⟨y, ?_, hyp⟩
      rw [List.mem_filter]
      refine ⟨hy, ?_⟩
      unfold isCls inRow
      rw [Bool.and_eq_true, decide_eq_true_iff, h1, h2, hyp, hin]
      refine ⟨?_, List.mem_map_of_mem hc⟩
      cases c.isIn <;> simp
    · rintro ⟨y, hy, rfl⟩
      rw [List.mem_filter, Bool.and_eq_true] at hy
      obtain ⟨hy, h1, h2⟩ := hy
      unfold isCls at h1
      unfold inRow at h2
      rw [decide_eq_true_iff] at h2
      rw [Bool.and_eq_true, beq_iff_eq, bne_iff_ne] at h1
      rw [h1.1] at h2
      obtain ⟨c, hc, hcp⟩ := List.mem_map.mp h2
      refine ⟨c, ?_, hcp⟩
      rw [List.mem_filter]
      refine ⟨hc, ?_⟩
      obtain ⟨-, h4⟩ := hR.cls k _ hrow c hc _ _ (firsts_mem _ hy).2.1 hcp.symm
      unfold isInF
      rw [Bool.and_eq_true, hasF_iff hV hR hk hc]
      refine ⟨?_, y, hy, hcp.symm⟩
      have := h1.2
      rw [h4] at this
      revert this
      cases t <;> cases c.isIn <;> simp
  · refine (List.nodup_map_iff_inj_on ((hR.nodup k _ hrow).filter _)).mpr ?_
    intro a ha b hb hab
    rw [List.mem_filter] at ha hb
    exact (hR.inj k k _ _ hrow hrow a ha.1 b hb.1 hab).2
  · exact (firstEdges_pr hV hR).sublist (List.filter_sublist.map _)

theorem count_new (t : Bool) {k : ℕ} (hk : k < V.C.T.length) : (rows.getD k []).countP (isInF V t) ≤ (firstEdges V).countP (isCls t k) ∧
    (firstEdges V).countP (isCls t k) - (rows.getD k []).countP (isInF V t) = ((firstEdges V).filter fun y => isCls t k y && !inRow V rows y.2).length := by
  rw [count_rows hV hR t hk, ← List.countP_eq_length_filter]
  have : (firstEdges V).countP (isCls t k) = (firstEdges V).countP (fun y => isCls t k y && inRow V rows y.2) +
      (firstEdges V).countP (fun y => isCls t k y && !inRow V rows y.2) := by
    induction firstEdges V with
    | nil => rfl
    | cons y l ih =>
      rw [List.countP_cons, List.countP_cons, List.countP_cons, ih]
      cases isCls t k y <;> cases inRow V rows y.2 <;> simp <;> omega
  omega

/-- **the coarse edges of one process** -/
theorem finishCE_spec {c : Cnts} (hc1 : c.eq.length = V.C.T.length) (hc2 : c.cr.length = V.C.T.length)
    (hc : ∀ k, c.eq.getD k 0 = (firstEdges V).countP (isCls true k) ∧ c.cr.getD k 0 = (firstEdges V).countP (isCls false k)) :
    ∃ R, finishCE V c rows = some R ∧ R.dE = (List.range (V.C.T.length + 1)).map (off (blocksE V rows true)) ∧
      R.dC = (List.range (V.C.T.length + 1)).map (off (blocksE V rows false)) ∧ R.nodes = (allCE V rows).map some ∧
      R.emap.length = V.E.nodes.length ∧ (∀ f id : ℕ, R.emap[f]? = some (some id) ↔ ∃ i, keyOf V f = some i ∧ (allCE V rows)[id]? = some (pr i)) ∧
      R.nE = (blocksE V rows true).map List.length ∧ R.nC = (blocksE V rows false).map List.length := by
  have hcount : ∀ (k : ℕ) (row : List CNode), rows[k]? = some row → k < V.C.T.length ∧ row = rows.getD k [] := by
    intro k row h
    have hk : k < V.C.T.length := by rw [← hR.len]; exact (List.getElem?_eq_some_iff.mp h).1
    rw [rows_get hV hR hk] at h
    exact ⟨hk, (Option.some.inj h).symm⟩
  obtain ⟨a, a1, a2, a3, a4, a5, a6⟩ := adjusts_spec (n := V.C.T.length) V rows
    (fun row hr t ht => by
      obtain ⟨k, hk⟩ := List.mem_iff_getElem?.mp hr
      obtain ⟨v, hv, -⟩ := hR.dec k row hk t ht
      exact ⟨v, hv⟩) hR.len ⟨c.eq, c.cr, List.replicate V.C.T.length 0, List.replicate V.C.T.length 0⟩ (by simp) (by simp)
    (fun k row hrow => by
      obtain ⟨hk, rfl⟩ := hcount k row hrow
      dsimp only
      rw [(hc k).1, (hc k).2]
      exact ⟨(count_new hV hR true hk).1, (count_new hV hR false hk).1⟩)
  have hz : ∀ k, (List.replicate V.C.T.length 0).getD k 0 = 0 := by
    intro k; rw [List.getD_eq_getElem?_getD, List.getElem?_replicate]; split <;> rfl
  have hcnt : ∀ k < V.C.T.length, a.eq.getD k 0 = ((firstEdges V).filter fun y => isCls true k y && !inRow V rows y.2).length ∧
      a.cr.getD k 0 = ((firstEdges V).filter fun y => isCls false k y && !inRow V rows y.2).length ∧
      a.aeq.getD k 0 = ((rows.getD k []).filter fun c => true == c.isIn).length ∧ a.acr.getD k 0 = ((rows.getD k []).filter fun c => false == c.isIn).length := by
    intro k hk
    obtain ⟨b1, b2, b3, b4⟩ := a6 k _ (rows_get hV hR hk)
    dsimp only at b1 b2 b3 b4
    rw [hz, Nat.zero_add, List.countP_eq_length_filter] at b3 b4
    rw [(hc k).1] at b1
    rw [(hc k).2] at b2
    refine ⟨b1.trans (count_new hV hR true hk).2, b2.trans (count_new hV hR false hk).2, ?_, ?_⟩
    · rw [b3]; congr 2; funext c; cases c.isIn <;> rfl
    · rw [b4]; congr 2; funext c; cases c.isIn <;> rfl
  have hlenE : ∀ k < V.C.T.length, (newB V rows true k).length = a.eq.getD k 0 + a.aeq.getD k 0 := by
    intro k hk
    obtain ⟨b1, b2, b3, b4⟩ := hcnt k hk
    rw [b1, b3]; unfold newB; rw [List.length_append, List.length_map, List.length_map]
  have hlenC : ∀ k < V.C.T.length, (newB V rows false k).length = a.cr.getD k 0 + a.acr.getD k 0 := by
    intro k hk
    obtain ⟨b1, b2, b3, b4⟩ := hcnt k hk
    rw [b2, b4]; unfold newB; rw [List.length_append, List.length_map, List.length_map]
  have hzip : ∀ (l m : List ℕ) (B : Bool), l.length = V.C.T.length → m.length = V.C.T.length → (∀ k < V.C.T.length, (newB V rows B k).length = l.getD k 0 + m.getD k 0) →
      List.zipWith (· + ·) l m = (List.range V.C.T.length).map fun k => (newB V rows B k).length := by
    intro l m B hl hm h
    apply List.ext_getElem
    · simp [hl, hm]
    · intro k h1 h2
      have hk : k < V.C.T.length := by simpa using h2
      rw [List.getElem_zipWith, List.getElem_map, List.getElem_range, h k hk, List.getD_eq_getElem?_getD, List.getD_eq_getElem?_getD,
        List.getElem?_eq_getElem (by omega), List.getElem?_eq_getElem (by omega)]
      rfl
  have hoffs : ∀ (l m : List ℕ) (B : Bool), l.length = V.C.T.length → m.length = V.C.T.length → (∀ k < V.C.T.length, (newB V rows B k).length = l.getD k 0 + m.getD k 0) →
      offsets l m = (List.range (V.C.T.length + 1)).map (off (blocksE V rows B)) := by
    intro l m B hl hm h
    unfold offsets
    rw [hzip l m B hl hm h]
    obtain ⟨o1, o2, -⟩ := offs_of (fun k => (newB V rows B k).length) V.C.T.length
    apply List.ext_getElem?
    intro k
    by_cases hk : k ≤ V.C.T.length
    · rw [o2 k hk, List.getElem?_map, List.getElem?_range (by omega), Option.map_some, off_blocks V rows B hk]
    · rw [List.getElem?_eq_none (by omega), List.getElem?_eq_none (by simp; omega)]
  have hE := hoffs a.eq a.aeq true (a2.trans hc1) a4 hlenE
  have hC := hoffs a.cr a.acr false (a3.trans hc2) a5 hlenC
  have hlast : ∀ B, ((List.range (V.C.T.length + 1)).map (off (blocksE V rows B))).getLastD 0 = (blocksE V rows B).flatten.length := by
    intro B
    refine getLastD_of_get (n := V.C.T.length) (by simp) ?_
    rw [List.getElem?_map, List.getElem?_range (by omega), Option.map_some, ← off_all]
    congr 2
    unfold blocksE; simp
  have hget : ∀ B k, k < V.C.T.length → ((List.range (V.C.T.length + 1)).map (off (blocksE V rows B))).getD k 0 = off (blocksE V rows B) k := by
    intro B k hk
    rw [List.getD_eq_getElem?_getD, List.getElem?_map, List.getElem?_range (by omega)]; rfl
  unfold finishCE
  dsimp only
  rw [a1, Option.bind_some, hE, hC, hlast, hlast]
  have hN : (blocksE V rows true).flatten.length + (blocksE V rows false).flatten.length = (allCE V rows).length := by
    unfold allCE; rw [List.length_append]
  rw [hN]
  have hw0 : WOK V (allCE V rows) ⟨List.replicate (allCE V rows).length none, List.replicate V.E.nodes.length none⟩ := by
    refine ⟨by simp, by simp, ?_, ?_⟩
    · intro id x h
      rw [List.getElem?_replicate] at h
      split at h <;> simp at h
    · intro f id h
      rw [List.getElem?_replicate] at h
      split at h <;> simp at h
  -- the rows
  have hidRow : ∀ (k : ℕ) (row : List CNode), rows[k]? = some row → ∀ (j : ℕ) (t : CNode), row[j]? = some t →
      (allCE V rows)[idRow ((List.range (V.C.T.length + 1)).map (off (blocksE V rows true))) ((List.range (V.C.T.length + 1)).map (off (blocksE V rows false)))
        (blocksE V rows true).flatten.length a k j]? = some (prT V t) := by
    intro k row hrow j t ht
    have hfst := hR.first k row hrow
    obtain ⟨hk, rfl⟩ := hcount k row hrow
    obtain ⟨b1, b2, b3, b4⟩ := hcnt k hk
    unfold idRow
    rw [hget _ k hk, hget _ k hk]
    rw [split_first hfst] at ht
    split
    · rename_i hj
      rw [Nat.add_assoc]
      refine allCE_in V rows hk ?_
      rw [List.getElem?_append_left (by rw [← b3]; exact hj)] at ht
      unfold newB
      rw [List.getElem?_append_right (by rw [List.length_map, b1]; omega), List.length_map, b1, Nat.add_sub_cancel_left, List.getElem?_map, ht]
      rfl
    · rename_i hj
      rw [Nat.add_assoc _ (a.cr.getD k 0)]
      refine allCE_cr V rows hk ?_
      rw [List.getElem?_append_right (by rw [← b3]; omega), ← b3] at ht
      unfold newB
      rw [List.getElem?_append_right (by rw [List.length_map, b2]; omega), List.length_map, b2, Nat.add_sub_cancel_left, List.getElem?_map, ht]
      rfl
  obtain ⟨w, w1, w2, w3, w4⟩ := setRows_ok hV.loc hw0 _ _ _ a rows hR.zero (fun k row h t ht => hR.dec k row h t ht) hidRow
  rw [w1, Option.bind_some]
  -- the last round
  have hem0 : ∀ f i, keyOf V f = some i → (em w f ↔ inRow V rows i = true) := by
    intro f i hi
    rw [w4]
    unfold inRow
    rw [decide_eq_true_iff]
    constructor
    · rintro (⟨k, row, hrow, j, hj, hm⟩ | ⟨id, h⟩)
      · rw [hi] at hj; cases hj
        obtain ⟨t, ht, htp⟩ := List.mem_map.mp hm
        have := (hR.cls k row hrow t ht f i hi htp.symm).1
        rw [this]
        obtain ⟨-, rfl⟩ := hcount k row hrow
        exact hm
      · rw [List.getElem?_replicate] at h
        split at h <;> simp at h
    · intro h
      have hk := (hV.cls f i hi).1
      exact Or.inl ⟨i.cls, _, rows_get hV hR hk, i, hi, h⟩
  set D0 : List CInfo := ((firstEdges V).filter fun y => inRow V rows y.2).map Prod.snd with hD0
  have hmemD : ∀ f i, keyOf V f = some i → (i ∈ D0 ↔ inRow V rows i = true) := by
    intro f i hi
    rw [hD0, List.mem_map]
    constructor
    · rintro ⟨y, hy, rfl⟩
      rw [List.mem_filter] at hy
      exact hy.2
    · intro h
      obtain ⟨l, hl⟩ := hR.cover f i hi
      obtain ⟨y, hy⟩ := firsts_cover (keyOf V) (D := []) hl hi (by simp)
      exact ⟨(y, i), by rw [List.mem_filter]; exact ⟨hy, h⟩, rfl⟩
  have hnot : ∀ x ∈ order V.C.T.length V.E, ∀ i, keyOf V x.2 = some i → i ∉ D0 → i.cls = x.1 ∧ eqcOf V.E.dE V.E.dC x.2 = some x.1 := by
    intro x hx i hi hD
    refine hR.all x hx i hi fun row hrow hm => hD ((hmemD _ _ hi).mpr ?_)
    obtain ⟨-, rfl⟩ := hcount _ row hrow
    unfold inRow
    rw [decide_eq_true_iff]
    exact hm
  have hround := itEs_eq hV.loc true (fun s e => s.w.emap[e]? == some none)
    (lam3 ((List.range (V.C.T.length + 1)).map (off (blocksE V rows true))) ((List.range (V.C.T.length + 1)).map (off (blocksE V rows false))) (blocksE V rows true).flatten.length)
    (fun m st D => st.w.emap.length = V.E.nodes.length ∧ ∀ e i, keyOf V e = some i → (em st.w e ↔ i ∈ D) ∧ (m e = true → i ∈ D)) ?_ ?_
    (order V.C.T.length V.E) D0 ⟨fun _ => false, fun _ => false, ⟨List.replicate V.C.T.length 0, List.replicate V.C.T.length 0, w⟩⟩ hV.ord ?_ ?_ ?_ ?_
  rotate_left
  · intro m st D e i hJ hi
    obtain ⟨hl, hJ⟩ := hJ
    obtain ⟨h1, h2⟩ := hJ e i hi
    rw [Bool.and_eq_true, Bool.not_eq_true', beq_iff_eq, ← h1]
    constructor
    · rintro ⟨-, h⟩ ⟨id, h'⟩
      rw [h] at h'; cases h'
    · intro h
      refine ⟨?_, ?_⟩
      · rw [← Bool.not_eq_true]
        exact fun hm => h (h1.mpr (h2 hm))
      · have he : e < st.w.emap.length := by rw [hl]; exact keyOf_lt hi
        cases hx : st.w.emap[e]? with
        | none => rw [List.getElem?_eq_none_iff] at hx; omega
        | some o =>
          cases o with
          | none => rfl
          | some id => exact absurd ⟨id, hx⟩ h
  · intro m st D e k i st' m' hJ hD hi hlam hm
    obtain ⟨hl, hJ⟩ := hJ
    have hput : ∃ id pe, putCE st.w id pe (feids V i.cv0 i.cv1) = some st'.w := by
      unfold lam3 at hlam
      split at hlam
      · obtain ⟨l, -, hlam⟩ := Option.bind_eq_some_iff.mp hlam
        obtain ⟨o, -, hlam⟩ := Option.bind_eq_some_iff.mp hlam
        obtain ⟨w', hw', rfl⟩ := Option.map_eq_some_iff.mp hlam
        exact ⟨_, _, hw'⟩
      · obtain ⟨l, -, hlam⟩ := Option.bind_eq_some_iff.mp hlam
        obtain ⟨o, -, hlam⟩ := Option.bind_eq_some_iff.mp hlam
        obtain ⟨w', hw', rfl⟩ := Option.map_eq_some_iff.mp hlam
        exact ⟨_, _, hw'⟩
    obtain ⟨id, pe, hput⟩ := hput
    obtain ⟨-, -, -, hlen, -⟩ := putCE_some hput
    refine ⟨hlen.trans hl, fun f j hj => ?_⟩
    rw [putCE_em hput, feids_key hV.loc hi, (hJ f j hj).1, hm, hj]
    simp only [Option.some.injEq, List.mem_cons]
    refine ⟨trivial, ?_⟩
    rintro (h | h)
    · exact Or.inr ((hJ f j hj).2 h)
    · exact Or.inl h
  · refine ⟨w2.le, fun e i hi => ⟨?_, fun h => by cases h⟩⟩
    rw [hem0 e i hi, hmemD e i hi]
  · intro _ x hx i hi hD f hf
    obtain ⟨k, hk⟩ := hR.cover f i hf
    obtain ⟨h1, -⟩ := hnot x hx i hi hD
    obtain ⟨h2, h3⟩ := hnot (k, f) hk i hf hD
    rw [h3, ← h2, h1]
  · intro _ f i hi _
    exact hR.cover f i hi
  · intro _
    exact hR.asc
  dsimp only at hround
  set L := firsts (keyOf V) D0 (order V.C.T.length V.E) with hLdef
  have hLF : L = (firstEdges V).filter fun y => !inRow V rows y.2 := by
    rw [hLdef, firsts_done]
    refine List.filter_congr ?_
    intro y hy
    have := hmemD _ _ (firsts_mem _ hy).2.1
    by_cases h : y.2 ∈ D0
    · simp [h, this.mp h]
    · have h' : inRow V rows y.2 = false := by rw [← Bool.not_eq_true]; exact fun hh => h (this.mpr hh)
      simp [h, h']
  have hLk : ∀ t k, L.filter (isCls t k) = (firstEdges V).filter fun y => isCls t k y && !inRow V rows y.2 := by
    intro t k
    rw [hLF, List.filter_filter]
  have hLmem : ∀ y ∈ L, keyOf V y.1.2 = some y.2 ∧ y.2.cls < V.C.T.length := by
    intro y hy
    have := (firsts_mem _ hy).2.1
    exact ⟨this, (hV.cls _ _ this).1⟩
  have hlastE : ∀ (t : Bool) (j : ℕ) (y : (ℕ × ℕ) × CInfo), L[j]? = some y → isCls t y.2.cls y = true →
      (newB V rows t y.2.cls)[(L.take j).countP (isCls t y.2.cls)]? = some (pr y.2) := by
    intro t j y hy hcl
    have h1 := filter_get (isCls t y.2.cls) L hy hcl
    rw [hLk] at h1
    have h2 := (List.getElem?_eq_some_iff.mp h1).1
    unfold newB
    rw [List.getElem?_append_left (by rw [List.length_map]; exact h2), List.getElem?_map, h1]
    rfl
  have hidL : ∀ (j : ℕ) (y : (ℕ × ℕ) × CInfo), L[j]? = some y →
      idLast ((List.range (V.C.T.length + 1)).map (off (blocksE V rows true))) ((List.range (V.C.T.length + 1)).map (off (blocksE V rows false)))
        (blocksE V rows true).flatten.length ⟨List.replicate V.C.T.length 0, List.replicate V.C.T.length 0, w⟩ L j y =
      if y.2.cross then (blocksE V rows true).flatten.length + off (blocksE V rows false) y.2.cls + (L.take j).countP (isCls false y.2.cls)
      else off (blocksE V rows true) y.2.cls + (L.take j).countP (isCls true y.2.cls) := by
    intro j y hy
    have hk := (hLmem y (List.mem_of_getElem? hy)).2
    unfold idLast
    dsimp only
    rw [hget _ _ hk, hget _ _ hk, hz, Nat.zero_add, Nat.zero_add]
  obtain ⟨s, s1, s2, s3, s4, s5, s6, s7⟩ := last_ok hV.loc (N := allCE V rows)
    ((List.range (V.C.T.length + 1)).map (off (blocksE V rows true))) ((List.range (V.C.T.length + 1)).map (off (blocksE V rows false)))
    (blocksE V rows true).flatten.length V.C.T.length (by simp) (by simp) L ⟨List.replicate V.C.T.length 0, List.replicate V.C.T.length 0, w⟩ w2 (by simp) (by simp) hLmem
    (fun j y hy => by
      rw [hidL j y hy]
      have hk := (hLmem y (List.mem_of_getElem? hy)).2
      cases hcr : y.2.cross with
      | true => exact allCE_cr V rows hk (hlastE false j y hy (by simp [isCls, hcr]))
      | false => exact allCE_in V rows hk (hlastE true j y hy (by simp [isCls, hcr])))
  rw [s1, Option.map_eq_some_iff] at hround
  obtain ⟨r, hr1, hr2⟩ := hround
  rw [hr1, Option.map_some, hr2]
  refine ⟨_, rfl, rfl, rfl, ?_, s2.le, ?_, ?_, ?_⟩
  · -- all are written
    dsimp only
    have hall : ∀ id < (allCE V rows).length, wr s.w id := by
      intro id hid
      rw [s6, w3]
      obtain ⟨k, j, hk, hj⟩ := allCE_index V rows hid
      obtain ⟨b1, b2, b3, b4⟩ := hcnt k hk
      have hrow := rows_get hV hR hk
      have hsp := split_first (hR.first k _ hrow)
      have hlen := congrArg List.length hsp
      rw [List.length_append, ← b3, ← b4] at hlen
      rcases hj with ⟨hj, rfl⟩ | ⟨hj, rfl⟩
      · by_cases hj' : j < a.eq.getD k 0
        · left
          obtain ⟨y, hy⟩ : ∃ y, (L.filter (isCls true k))[j]? = some y := ⟨_, List.getElem?_eq_getElem (by rw [hLk, ← b1]; exact hj')⟩
          obtain ⟨i, hi, hP, hci⟩ := filter_index _ _ hy
          refine ⟨i, y, hi, ?_⟩
          rw [hidL i y hi]
          unfold isCls at hP
          rw [Bool.and_eq_true, beq_iff_eq, bne_iff_ne] at hP
          have hcr : y.2.cross = false := by
            have := hP.2; revert this; cases y.2.cross <;> simp
          rw [hcr, if_neg (by simp), hP.1, hci]
        · right; left
          rw [hlenE k hk] at hj
          refine ⟨k, _, hrow, j - a.eq.getD k 0, by omega, ?_⟩
          unfold idRow
          rw [if_pos (by omega), hget _ k hk]
          omega
      · by_cases hj' : j < a.cr.getD k 0
        · left
          obtain ⟨y, hy⟩ : ∃ y, (L.filter (isCls false k))[j]? = some y := ⟨_, List.getElem?_eq_getElem (by rw [hLk, ← b2]; exact hj')⟩
          obtain ⟨i, hi, hP, hci⟩ := filter_index _ _ hy
          refine ⟨i, y, hi, ?_⟩
          rw [hidL i y hi]
          unfold isCls at hP
          rw [Bool.and_eq_true, beq_iff_eq, bne_iff_ne] at hP
          have hcr : y.2.cross = true := by
            have := hP.2; revert this; cases y.2.cross <;> simp
          rw [hcr, if_pos rfl, hP.1, hci]
        · right; left
          rw [hlenC k hk] at hj
          refine ⟨k, _, hrow, a.aeq.getD k 0 + (j - a.cr.getD k 0), by omega, ?_⟩
          unfold idRow
          rw [if_neg (by omega), hget _ k hk]
          omega
    apply List.ext_getElem?
    intro id
    rw [List.getElem?_map]
    by_cases hid : id < (allCE V rows).length
    · obtain ⟨x, hx⟩ := hall id hid
      rw [hx, s2.ce id x hx]; rfl
    · rw [List.getElem?_eq_none (by rw [s2.lc]; omega), List.getElem?_eq_none (by omega)]; rfl
  · intro f id
    dsimp only
    constructor
    · exact s2.em f id
    · rintro ⟨i, hi, hid⟩
      have hem : em s.w f := by
        rw [s7]
        by_cases h : inRow V rows i = true
        · exact Or.inr ((hem0 f i hi).mpr h)
        · left
          obtain ⟨l, hl⟩ := hR.cover f i hi
          obtain ⟨y, hy⟩ := firsts_cover (keyOf V) (D := D0) hl hi (fun hD => h ((hmemD f i hi).mp hD))
          exact ⟨(y, i), hy, hi⟩
      obtain ⟨id', hid'⟩ := hem
      obtain ⟨i', hi', hN'⟩ := s2.em f id' hid'
      rw [hi] at hi'; cases hi'
      rw [hid']
      have h1 := (List.getElem?_eq_some_iff.mp hid).1
      have h2 := (List.getElem?_eq_some_iff.mp hN').1
      have := (List.getElem?_inj h1 (allCE_nodup hV hR)).mp (hid.trans hN'.symm)
      rw [this]
  · dsimp only
    have := hzip s.eq a.aeq true s3 a4 (fun k hk => by
      rw [(s5 k).1, hz, Nat.zero_add, List.countP_eq_length_filter, hLk, hlenE k hk, (hcnt k hk).1])
    rw [this]; unfold blocksE; rw [List.map_map]; rfl
  · dsimp only
    have := hzip s.cr a.acr false s4 a5 (fun k hk => by
      rw [(s5 k).2, hz, Nat.zero_add, List.countP_eq_length_filter, hLk, hlenC k hk, (hcnt k hk).2.1])
    rw [this]; unfold blocksE; rw [List.map_map]; rfl

end

end NgsAMG.CMap
