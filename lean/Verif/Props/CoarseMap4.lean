import Verif.Props.CoarseMap3

/-!
# C75: the vertices of the coarse mesh on all processes
-/

namespace NgsAMG.CMap

open NgsAMG.EQC NgsAMG.RedTab NgsAMG.Exch NgsAMG.BTM

/-! ### offsets from counts -/

theorem offs_of (f : ℕ → ℕ) (n : ℕ) : (0 :: partialSum 0 ((List.range n).map f)).length = n + 1 ∧
    (∀ k ≤ n, (0 :: partialSum 0 ((List.range n).map f))[k]? = some (((List.range k).map f).sum)) ∧
    Offsets (0 :: partialSum 0 ((List.range n).map f)) := by
  have hl : (0 :: partialSum 0 ((List.range n).map f)).length = n + 1 := by simp [partialSum_length]
  have hg : ∀ k ≤ n, (0 :: partialSum 0 ((List.range n).map f))[k]? = some (((List.range k).map f).sum) := by
    intro k hk
    cases k with
    | zero => simp
    | succ k =>
      rw [List.getElem?_cons_succ, partialSum_get _ _ _ (by simp; omega), ← List.map_take, List.take_range, Nat.min_eq_left (by omega)]
      simp
  refine ⟨hl, hg, ?_⟩
  unfold Offsets
  rw [List.pairwise_iff_getElem]
  intro i j hi hj hij
  rw [hl] at hi hj
  have h1 := hg i (by omega)
  have h2 := hg j (by omega)
  rw [List.getElem?_eq_getElem (by rw [hl]; omega), Option.some.injEq] at h1 h2
  rw [h1, h2]
  obtain ⟨m, rfl⟩ := Nat.exists_eq_add_of_lt hij
  rw [Nat.add_assoc, List.range_add, List.map_append, List.sum_append]
  omega

/-! ### specification -/

/-- the vertex `v` of process `p` is in the agglomerate `a` of process `m`: `m` is the smallest process that has the vertex, and its copy there is in `a` -/
def InAgg (C : ℕ → Ctx) (v2agg : ℕ → List (Option ℕ)) (p v m a : ℕ) : Prop :=
  ∃ S r w, IsVert p (C p) v S r ∧ m ∈ S ∧ (∀ q ∈ S, m ≤ q) ∧ IsVert m (C m) w S r ∧ (v2agg m)[w]? = some (some a)

/-- the agglomerate `a` of process `m` has its center in the class of the processes `S` -/
def AggAt (C : ℕ → Ctx) (aggs : ℕ → List Agg) (m a : ℕ) (S : Finset ℕ) : Prop :=
  ∃ g r, (aggs m)[a]? = some g ∧ IsVert m (C m) g.center S r

/-- the coarse vertices are those of a mesh (C71); each is the image of one agglomerate: `num m a` is the number, within its class, of the coarse
vertex of the agglomerate `a` of process `m` -/
structure CoarseVerts (np : ℕ) (C : ℕ → Ctx) (aggs : ℕ → List Agg) (v2agg : ℕ → List (Option ℕ)) (disps : ℕ → List ℕ)
    (vmap : ℕ → List (Option ℕ)) (num : ℕ → ℕ → ℕ) : Prop where
  mesh : Mesh np fun p => coarseCtx (C p) (disps p)
  len : ∀ p < np, (vmap p).length = (C p).nv
  img : ∀ p < np, ∀ v m a S, InAgg C v2agg p v m a → AggAt C aggs m a S →
    ∃ x, (vmap p)[v]? = some (some x) ∧ IsVert p (coarseCtx (C p) (disps p)) x S (num m a)
  dir : ∀ p < np, ∀ v < (C p).nv, (∀ m a, ¬ InAgg C v2agg p v m a) → (vmap p)[v]? = some none
  pre : ∀ p < np, ∀ x S c, IsVert p (coarseCtx (C p) (disps p)) x S c → ∃ m a, m < np ∧ AggAt C aggs m a S ∧ num m a = c
  uniq : ∀ m < np, ∀ m' < np, ∀ a a' S, AggAt C aggs m a S → AggAt C aggs m' a' S → num m a = num m' a' → m = m' ∧ a = a'

section
variable {np : ℕ} {C : ℕ → Ctx} (hM : Mesh np C) {aggs : ℕ → List Agg} {v2agg : ℕ → List (Option ℕ)} (hA : AggsOK np C aggs v2agg)

/-- class `k` of process `p` is the class `l` of its master `m` -/
def Mast (C : ℕ → Ctx) (p k m l : ℕ) : Prop :=
  ∃ d e, (C p).T[k]? = some d ∧ (C m).T[l]? = some e ∧ members m e = members p d ∧ m ∈ members p d ∧ ∀ q ∈ members p d, m ≤ q

include hM

theorem mast_lt {p k m l : ℕ} (hp : p < np) (h : Mast C p k m l) : m < np := by
  obtain ⟨d, e, h1, -, -, h4, -⟩ := h
  rcases mem_members.mp h4 with rfl | h4
  · exact hp
  · exact ((hM.tabs.ok p hp).2 d (List.mem_of_getElem? h1)).range m h4

theorem mast_unique {p q k k' m m' l l' : ℕ} {d d' : List ℕ} (hp : p < np) (hd : (C p).T[k]? = some d) (hd' : (C q).T[k']? = some d')
    (he : members p d = members q d') (h : Mast C p k m l) (h' : Mast C q k' m' l') : m = m' ∧ l = l' := by
  have hm := mast_lt hM hp h
  obtain ⟨d1, e1, h1, h2, h3, h4, h5⟩ := h
  obtain ⟨d2, e2, g1, g2, g3, g4, g5⟩ := h'
  rw [hd] at h1; cases h1
  rw [hd'] at g1; cases g1
  rw [he] at h3 h4 h5
  have : m = m' := le_antisymm (h5 _ g4) (g5 _ h4)
  subst this
  exact ⟨rfl, cls_eq (hM.tabs.ok m hm) h2 g2 (h3.trans g3.symm)⟩

include hA

/-- the processes of the class of an agglomerate: the first one has it -/
theorem aggAt_min {m a : ℕ} {S : Finset ℕ} (hm : m < np) (h : AggAt C aggs m a S) : m ∈ S ∧ ∀ q ∈ S, m ≤ q := by
  obtain ⟨g, r, h1, h2⟩ := h
  exact ⟨isVert_self h2, (hA.own m hm g (List.mem_of_getElem? h1) g.center (hA.cen m hm g (List.mem_of_getElem? h1)) _ _ _ _ h2 h2).2⟩

theorem aggAt_cen {m a : ℕ} {S : Finset ℕ} (hm : m < np) (h : AggAt C aggs m a S) :
    ∃ k d, cen (C m) (aggs m) a = some k ∧ (C m).T[k]? = some d ∧ members m d = S := by
  obtain ⟨g, r, h1, h2⟩ := h
  obtain ⟨k, d, r', i, c1, c2, c3, -, -⟩ := cen_spec hM hA hm h1
  exact ⟨k, d, c1, c2, (isVert_unique hM hm c3 h2).1⟩

theorem cen_aggAt {m a k : ℕ} {d : List ℕ} (hm : m < np) (hk : cen (C m) (aggs m) a = some k) (hd : (C m).T[k]? = some d) :
    AggAt C aggs m a (members m d) := by
  obtain ⟨g, g1, -⟩ := Option.bind_eq_some_iff.mp hk
  obtain ⟨k', d', r, i, c1, c2, c3, -, -⟩ := cen_spec hM hA hm g1
  rw [hk] at c1; cases c1
  rw [hd] at c2; cases c2
  exact ⟨g, r, g1, c3⟩

/-- the agglomerate of a vertex has all processes of the vertex in its class -/
theorem inAgg_sub {p v m a : ℕ} {S S' : Finset ℕ} {r : ℕ} (hp : p < np) (h : InAgg C v2agg p v m a) (hS : IsVert p (C p) v S r)
    (h' : AggAt C aggs m a S') : m < np ∧ S ⊆ S' := by
  obtain ⟨S1, r1, w, h1, h2, h3, h4, h5⟩ := h
  obtain ⟨rfl, rfl⟩ := isVert_unique hM hp hS h1
  have hm := (vert_partner hM hp h1 h2).1
  obtain ⟨g, g1, g2⟩ := (hA.v2a m hm w a).mp h5
  obtain ⟨g', r', g1', g3⟩ := h'
  rw [g1] at g1'; cases g1'
  exact ⟨hm, (hA.own m hm g (List.mem_of_getElem? g1) w g2 _ _ _ _ h4 g3).1⟩

/-- a member of an agglomerate of this process -/
theorem inAgg_own {p v a : ℕ} (hp : p < np) (h : (v2agg p)[v]? = some (some a)) : InAgg C v2agg p v p a := by
  obtain ⟨g, g1, g2⟩ := (hA.v2a p hp v a).mp h
  have hlt := mem_lt hM hA hp (List.mem_of_getElem? g1) g2
  obtain ⟨S, r, h1, h2⟩ := isVert_exists hM hp hlt
  have hc := hA.cen p hp g (List.mem_of_getElem? g1)
  obtain ⟨S', r', c1, c2⟩ := isVert_exists hM hp (mem_lt hM hA hp (List.mem_of_getElem? g1) hc)
  obtain ⟨o1, o2⟩ := hA.own p hp g (List.mem_of_getElem? g1) v g2 _ _ _ _ h1 c1
  exact ⟨S, r, v, h1, h2, fun q hq => o2 q (o1 hq), h1, h⟩

theorem inAgg_unique {p v m m' a a' : ℕ} (hp : p < np) (h : InAgg C v2agg p v m a) (h' : InAgg C v2agg p v m' a') : m = m' ∧ a = a' := by
  obtain ⟨S, r, w, h1, h2, h3, h4, h5⟩ := h
  obtain ⟨S', r', w', g1, g2, g3, g4, g5⟩ := h'
  obtain ⟨rfl, rfl⟩ := isVert_unique hM hp h1 g1
  have : m = m' := le_antisymm (h3 _ g2) (g3 _ h2)
  subst this
  have hm := (vert_partner hM hp h1 h2).1
  obtain rfl := isVert_inj hM hm h4 g4
  rw [h5] at g5
  simpa using g5

theorem inAgg_exists_at {p v m a : ℕ} (hp : p < np) (h : InAgg C v2agg p v m a) : m < np ∧ ∃ S, AggAt C aggs m a S := by
  obtain ⟨S, r, w, h1, h2, h3, h4, h5⟩ := h
  have hm := (vert_partner hM hp h1 h2).1
  obtain ⟨g, g1, g2⟩ := (hA.v2a m hm w a).mp h5
  obtain ⟨S', r', c1, -⟩ := isVert_exists hM hm (mem_lt hM hA hm (List.mem_of_getElem? g1) (hA.cen m hm g (List.mem_of_getElem? g1)))
  exact ⟨hm, S', g, r', g1, c1⟩

variable {st : ℕ → VSt} {rows : ℕ → List VRow} (hex : ∀ p < np, exData (C p) p (aggs p) (v2agg p) = some (st p, rows p))
  {out : ℕ → List VRow} (hout : ∀ p < np, Scattered (fun p => (C p).T) (fun p k => members p ((C p).T.getD k [])) rows p (out p))
include hex

theorem good {p : ℕ} (hp : p < np) : (rows p).length = (C p).T.length ∧
    (∀ k, 0 < k → k < (C p).T.length → ∃ row, (rows p)[k]? = some ((st p).cnt.getD k 0, row) ∧ RowOK (C p) p (v2agg p) (st p) k row) ∧
    (∀ row, (rows p)[0]? = some row → row = (0, [])) ∧ Good (C p) (aggs p) (st p) := by
  obtain ⟨s, r, h1, h2⟩ := exData_spec hM hA hp
  rw [hex p hp] at h1
  cases h1
  exact h2

include hout

/-- the row that a process ends with is that of the master -/
theorem out_row {p k : ℕ} {d : List ℕ} (hp : p < np) (hk : (C p).T[k]? = some d) (h0 : k ≠ 0) :
    ∃ m l row, Mast C p k m l ∧ l ≠ 0 ∧ (out p)[k]? = some ((st m).cnt.getD l 0, row) ∧ row.length = (vertsOf (C m) l).length ∧
      List.Forall₂ (EntryOK (C m) (v2agg m) (st m)) (vertsOf (C m) l) row := by
  obtain ⟨m, l, h1, h2, h3, h4, h5⟩ := (hout p hp).2 k d hk
  replace h3 : l < (C m).T.length := h3
  replace h4 : members m ((C m).T.getD l []) = members p ((C p).T.getD k []) := h4
  have hmm : m ∈ members p d := mem_members.mpr h1
  have hmin : ∀ q ∈ members p d, m ≤ q := fun q hq => h2 q (mem_members.mp hq)
  have hl := List.getElem?_eq_getElem h3
  have hkey : members m (C m).T[l] = members p d := by
    rw [List.getD_eq_getElem?_getD, List.getD_eq_getElem?_getD, hl, hk] at h4
    exact h4
  have hM' : Mast C p k m l := ⟨d, _, hk, hl, hkey, hmm, hmin⟩
  have hm := mast_lt hM hp hM'
  have hl0 : l ≠ 0 := fun h => h0 ((cls_pos hM hp hm hk hl hkey.symm).mpr h)
  obtain ⟨row, r1, r2, r3⟩ := (good hM hA hex hm).2.1 l (by omega) h3
  refine ⟨m, l, row, hM', hl0, by rw [h5, r1], r2, r3 ?_⟩
  rw [List.getD_eq_getElem?_getD, hl, Option.getD_some, isMaster_members ((hM.tabs.ok m hm).2 _ (List.mem_of_getElem? hl)), hkey]
  exact hmin

/-- the counts of process `p` -/
theorem cnts_spec {p k : ℕ} (hp : p < np) (hk : k < (C p).T.length) : ∃ m l, Mast C p k m l ∧
    (if k = 0 then (aggs p).countP (isLoc (C p)) else ((out p).getD k (0, [])).1) = cntOf (C m) (aggs m) (st m) l := by
  have hd := List.getElem?_eq_getElem hk
  by_cases h0 : k = 0
  · subst h0
    refine ⟨p, 0, ⟨_, _, hd, hd, rfl, mem_members.mpr (Or.inl rfl), ?_⟩, by simp [cntOf]⟩
    intro q hq
    rw [(cls0_iff hM hA hp hd).mp rfl, Finset.mem_singleton] at hq
    omega
  · obtain ⟨m, l, row, h1, h2, h3, -⟩ := out_row hM hA hex hout hp hd h0
    refine ⟨m, l, h1, ?_⟩
    rw [if_neg h0, List.getD_eq_getElem?_getD, h3]
    simp [cntOf, h2]

end

end NgsAMG.CMap
