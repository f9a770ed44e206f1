import Verif.Props.CoarseMapSV1
import Mathlib.Data.Finset.Sort

/-!
# C93: `MapVerts_sv`, the numbers of the coarse vertices
-/

namespace NgsAMG.CMap

open NgsAMG.EQC NgsAMG.RedTab NgsAMG.Exch NgsAMG.BTM

/-- what `MapVerts_sv` asks for (agglomerate_map.cpp:290-294): members are vertices of the process; the center of an agglomerate is a member; the processes
that have a member also have the center; copies of a vertex are in one agglomerate at most, of whatever process. (It is not asked that every vertex is in an
agglomerate.) -/
structure SolidAggs (np : ℕ) (C : ℕ → Ctx) (aggs : ℕ → List Agg) : Prop where
  lt : ∀ p < np, ∀ g ∈ aggs p, ∀ v ∈ g.mems, v < (C p).nv
  cen : ∀ p < np, ∀ g ∈ aggs p, g.center ∈ g.mems
  sub : ∀ p < np, ∀ g ∈ aggs p, ∀ v ∈ g.mems, ∀ S r S' r', IsVert p (C p) v S r → IsVert p (C p) g.center S' r' → S ⊆ S'
  disj : ∀ p < np, ∀ q < np, ∀ (a b : ℕ) (g h : Agg), (aggs p)[a]? = some g → (aggs q)[b]? = some h → ∀ v ∈ g.mems, ∀ w ∈ h.mems, ∀ S r,
    IsVert p (C p) v S r → IsVert q (C q) w S r → p = q ∧ a = b

/-- the processes of a class in ascending order -/
def ord (S : Finset ℕ) : List ℕ := S.sort

theorem ord_sl (S : Finset ℕ) : SL (ord S) := List.SortedLT.pairwise (Finset.sortedLT_sort S)

theorem mem_ord {S : Finset ℕ} {x : ℕ} : x ∈ ord S ↔ x ∈ S := Finset.mem_sort _

theorem ord_members {np p : ℕ} {d : List ℕ} (h : Valid np p d) : (p :: d).insertionSort (· ≤ ·) = ord (members p d) := by
  have hnd : (p :: d).Nodup := List.nodup_cons.mpr ⟨h.notSelf, h.sorted.imp fun h => Nat.ne_of_lt h⟩
  refine sl_ext (sl_insertionSort hnd) (ord_sl _) fun x => ?_
  rw [(List.perm_insertionSort _ _).mem_iff, mem_ord, mem_members, List.mem_cons]

/-- the position of a process within its class -/
def kp (S : Finset ℕ) (p : ℕ) : ℕ := (ord S).idxOf p

theorem kp_get {S : Finset ℕ} {p : ℕ} (h : p ∈ S) : (ord S)[kp S p]? = some p := List.getElem?_idxOf (mem_ord.mpr h)

theorem kp_eq {S : Finset ℕ} {p j : ℕ} (h : (ord S)[j]? = some p) : j = kp S p := by
  have hp : p ∈ ord S := List.mem_of_getElem? h
  have h2 : (ord S)[kp S p]? = some p := List.getElem?_idxOf hp
  obtain ⟨a1, a2⟩ := List.getElem?_eq_some_iff.mp h
  obtain ⟨b1, b2⟩ := List.getElem?_eq_some_iff.mp h2
  exact (List.Nodup.getElem_inj_iff ((ord_sl S).imp fun h => Nat.ne_of_lt h)).mp (a2.trans b2.symm)

theorem kpOf_eq {np p : ℕ} {d : List ℕ} (h : Valid np p d) : kpOf p d = some (kp (members p d) p) := by
  obtain ⟨j, h1, h2, h3, h4⟩ := SortedArray.mergePos_correct p d (h.sorted.imp fun h => Nat.le_of_lt h)
  have hlist : d.take j ++ p :: d.drop j = ord (members p d) := by
    refine sl_ext ?_ (ord_sl _) fun x => ?_
    · have hd := h.sorted
      unfold SL at hd ⊢
      rw [← List.take_append_drop j d, List.pairwise_append] at hd
      obtain ⟨d1, d2, d3⟩ := hd
      have hlow : ∀ x ∈ d.take j, x < p := by
        intro x hx
        obtain ⟨i, hi⟩ := List.mem_iff_getElem?.mp hx
        rw [List.getElem?_take] at hi
        split at hi
        · rename_i hij
          have := h3 i x hi hij
          have : x ≠ p := fun he => h.notSelf (he ▸ List.mem_of_getElem? hi)
          omega
        · cases hi
      have hhigh : ∀ x ∈ d.drop j, p < x := by
        intro x hx
        obtain ⟨i, hi⟩ := List.mem_iff_getElem?.mp hx
        rw [List.getElem?_drop] at hi
        exact h4 _ _ hi (by omega)
      rw [List.pairwise_append, List.pairwise_cons]
      refine ⟨d1, ⟨hhigh, d2⟩, fun a ha b hb => ?_⟩
      rcases List.mem_cons.mp hb with rfl | hb
      · exact hlow a ha
      · exact d3 a ha b hb
    · rw [mem_ord, mem_members, List.mem_append, List.mem_cons]
      conv_rhs => rw [← List.take_append_drop j d, List.mem_append]
      tauto
  unfold kpOf
  rw [h1]
  simp only [Option.some.injEq]
  refine kp_eq ?_
  rw [← hlist, List.getElem?_append_right (by rw [List.length_take]; omega), List.length_take, Nat.min_eq_left h2]
  simp

/-! ### counts -/

/-- the class with the processes `S` on process `q` -/
def clsOf (C : ℕ → Ctx) (q : ℕ) (S : Finset ℕ) : ℕ := (C q).T.findIdx fun d => decide (members q d = S)

/-- the number of agglomerates of process `q` with the center in the class `S` -/
def cntS (C : ℕ → Ctx) (aggs : ℕ → List Agg) (S : Finset ℕ) (q : ℕ) : ℕ := (aggs q).countP (cenIn (C q) (clsOf C q S))

/-- the processes of the class `k` of process `p` -/
def mem (C : ℕ → Ctx) (p k : ℕ) : Finset ℕ := members p ((C p).T.getD k [])

/-- the counts of all processes of the class `S` -/
def cnts (C : ℕ → Ctx) (aggs : ℕ → List Agg) (S : Finset ℕ) : List ℕ := (ord S).map (cntS C aggs S)

/-- the number of the coarse vertex of the agglomerate `a` of process `m`, within its class `S` -/
def numS (C : ℕ → Ctx) (aggs : ℕ → List Agg) (S : Finset ℕ) (m a : ℕ) : ℕ :=
  ((cnts C aggs S).take (kp S m)).sum + ((aggs m).take a).countP (cenIn (C m) (clsOf C m S))

section
variable {np : ℕ} {C : ℕ → Ctx} (hM : Mesh np C) {aggs : ℕ → List Agg}

theorem mem_get {p k : ℕ} {d : List ℕ} (h : (C p).T[k]? = some d) : mem C p k = members p d := by
  unfold mem
  rw [List.getD_eq_getElem?_getD, h, Option.getD_some]

include hM

theorem clsOf_get {q j : ℕ} {e : List ℕ} {S : Finset ℕ} (hq : q < np) (h : (C q).T[j]? = some e) (hS : members q e = S) : clsOf C q S = j := by
  have hlt : clsOf C q S < (C q).T.length := List.findIdx_lt_length_of_exists ⟨e, List.mem_of_getElem? h, by simpa using hS⟩
  have hg := List.findIdx_getElem (w := hlt)
  have hg' : members q ((C q).T[clsOf C q S]) = S := of_decide_eq_true hg
  exact cls_eq (hM.tabs.ok q hq) (List.getElem?_eq_getElem hlt) h (hg'.trans hS.symm)

/-- the class of a vertex on each of its processes -/
theorem cls_at {m q k : ℕ} {d : List ℕ} (hm : m < np) (h : (C m).T[k]? = some d) (hq : q ∈ members m d) :
    q < np ∧ ∃ e, (C q).T[clsOf C q (members m d)]? = some e ∧ members q e = members m d := by
  rcases mem_members.mp hq with rfl | hq'
  · exact ⟨hm, d, by rw [clsOf_get hM hm h rfl]; exact h, rfl⟩
  · have hqn := ((hM.tabs.ok m hm).2 d (List.mem_of_getElem? h)).range q hq'
    obtain ⟨j, e, g1, -, g3⟩ := (rows_of_tables hM.tabs).partner m hm k d h q hq'
    exact ⟨hqn, e, by rw [clsOf_get hM hqn g1 g3]; exact g1, g3⟩

variable (hA : SolidAggs np C aggs)
include hA

theorem sv_cen {p a : ℕ} {g : Agg} (hp : p < np) (hg : (aggs p)[a]? = some g) :
    ∃ k d r i, (C p).eqcV g.center = some k ∧ (C p).T[k]? = some d ∧ IsVert p (C p) g.center (members p d) r ∧ (C p).ids[k]? = some i := by
  have hmem := List.mem_of_getElem? hg
  have hlt := hA.lt p hp g hmem _ (hA.cen p hp g hmem)
  obtain ⟨k, x, y, d, h1, h2, h3, h4, h5⟩ := vert_block hM hp hlt
  obtain ⟨q1, -, i, q3⟩ := vert_query hM hp h1 h2 h3 h4 h5
  exact ⟨k, d, _, i, q1, h1, ⟨k, x, y, d, h1, rfl, h2, h3, (Nat.add_sub_cancel' h4).symm, h5⟩, q3⟩

theorem sv_at {m a : ℕ} {S : Finset ℕ} (hm : m < np) : AggAt C aggs m a S ↔
    ∃ g d, (aggs m)[a]? = some g ∧ (C m).T[clsOf C m S]? = some d ∧ members m d = S ∧ cenIn (C m) (clsOf C m S) g = true := by
  constructor
  · rintro ⟨g, r, h1, h2⟩
    obtain ⟨k, d, r', i, c1, c2, c3, -⟩ := sv_cen hM hA hm h1
    obtain ⟨rfl, -⟩ := isVert_unique hM hm h2 c3
    have := clsOf_get hM hm c2 rfl
    refine ⟨g, d, h1, by rw [this]; exact c2, rfl, ?_⟩
    unfold cenIn
    rw [this, c1]
    simp
  · rintro ⟨g, d, h1, h2, h3, h4⟩
    obtain ⟨k, d', r', i, c1, c2, c3, -⟩ := sv_cen hM hA hm h1
    unfold cenIn at h4
    rw [c1] at h4
    simp at h4
    rw [← h4] at h2
    rw [c2] at h2; cases h2
    exact ⟨g, r', h1, h3 ▸ c3⟩

theorem sv_at_mem {m a : ℕ} {S : Finset ℕ} (hm : m < np) (h : AggAt C aggs m a S) : m ∈ S := by
  obtain ⟨g, d, -, -, h3, -⟩ := (sv_at hM hA hm).mp h
  rw [← h3]; exact mem_members.mpr (Or.inl rfl)

theorem sv_num {m a : ℕ} {S : Finset ℕ} (hm : m < np) (h : AggAt C aggs m a S) :
    (cnts C aggs S)[kp S m]? = some (cntS C aggs S m) ∧ ((aggs m).take a).countP (cenIn (C m) (clsOf C m S)) < cntS C aggs S m := by
  obtain ⟨g, d, h1, h2, h3, h4⟩ := (sv_at hM hA hm).mp h
  refine ⟨?_, countP_take_lt _ _ h1 h4⟩
  unfold cnts
  rw [List.getElem?_map, kp_get (sv_at_mem hM hA hm h)]
  rfl

theorem sv_num_lt {m a : ℕ} {S : Finset ℕ} (hm : m < np) (h : AggAt C aggs m a S) : numS C aggs S m a < (cnts C aggs S).sum := by
  obtain ⟨h1, h2⟩ := sv_num hM hA hm h
  exact locate_lt _ h1 h2

theorem sv_num_inj {m m' a a' : ℕ} {S : Finset ℕ} (hm : m < np) (hm' : m' < np) (h : AggAt C aggs m a S) (h' : AggAt C aggs m' a' S)
    (he : numS C aggs S m a = numS C aggs S m' a') : m = m' ∧ a = a' := by
  obtain ⟨h1, h2⟩ := sv_num hM hA hm h
  obtain ⟨h1', h2'⟩ := sv_num hM hA hm' h'
  obtain ⟨e1, e2⟩ := locate_unique _ h1 h1' h2 h2' he
  have g1 := kp_get (sv_at_mem hM hA hm h)
  have g2 := kp_get (sv_at_mem hM hA hm' h')
  rw [e1, g2] at g1
  cases g1
  refine ⟨rfl, ?_⟩
  obtain ⟨g, d, x1, -, -, x4⟩ := (sv_at hM hA hm).mp h
  obtain ⟨g', d', y1, -, -, y4⟩ := (sv_at hM hA hm').mp h'
  rcases Nat.lt_trichotomy a a' with hlt | rfl | hlt
  · have := countP_take_mono _ _ x1 x4 hlt
    omega
  · rfl
  · have := countP_take_mono _ _ y1 y4 hlt
    omega

theorem sv_num_surj {p k c : ℕ} {d : List ℕ} (hp : p < np) (hk : (C p).T[k]? = some d) (hc : c < (cnts C aggs (members p d)).sum) :
    ∃ m a, m < np ∧ AggAt C aggs m a (members p d) ∧ numS C aggs (members p d) m a = c := by
  obtain ⟨i, b, j, h1, h2, h3⟩ := locate _ hc
  unfold cnts at h1
  rw [List.getElem?_map, Option.map_eq_some_iff] at h1
  obtain ⟨m, m1, rfl⟩ := h1
  obtain ⟨hm, e, e1, e2⟩ := cls_at hM hp hk (mem_ord.mp (List.mem_of_getElem? m1))
  obtain ⟨a, g, a1, a2, a3⟩ := countP_take_surj _ _ h2
  refine ⟨m, a, hm, (sv_at hM hA hm).mpr ⟨g, e, a1, e1, e2, a2⟩, ?_⟩
  unfold numS
  rw [← kp_eq m1, a3, h3]

end

/-! ### offsets -/

/-- the offsets of process `p` -/
def dispsSV (C : ℕ → Ctx) (aggs : ℕ → List Agg) (p : ℕ) : List ℕ :=
  0 :: partialSum 0 ((List.range (C p).T.length).map fun k => (cnts C aggs (mem C p k)).sum)

/-- the offset of the class `k` of process `p` -/
def offSV (C : ℕ → Ctx) (aggs : ℕ → List Agg) (p k : ℕ) : ℕ := ((List.range k).map fun k => (cnts C aggs (mem C p k)).sum).sum

theorem isVert_sv {C : ℕ → Ctx} {aggs : ℕ → List Agg} {p x c : ℕ} {S : Finset ℕ} : IsVert p (coarseCtx (C p) (dispsSV C aggs p)) x S c ↔
    ∃ k d, (C p).T[k]? = some d ∧ members p d = S ∧ x = offSV C aggs p k + c ∧ c < (cnts C aggs S).sum := by
  obtain ⟨-, h2, -⟩ := offs_of (fun k => (cnts C aggs (mem C p k)).sum) (C p).T.length
  constructor
  · rintro ⟨k, a, b, d, g1, g2, g3, g4, g5, g6⟩
    have hkl := (List.getElem?_eq_some_iff.mp g1).1
    replace g1 : (C p).T[k]? = some d := g1
    replace hkl : k < (C p).T.length := hkl
    replace g3 : (dispsSV C aggs p)[k]? = some a := g3
    replace g4 : (dispsSV C aggs p)[k + 1]? = some b := g4
    unfold dispsSV at g3 g4
    rw [h2 k (by omega)] at g3
    rw [h2 (k + 1) (by omega)] at g4
    cases g3
    cases g4
    rw [List.range_succ, List.map_append, List.sum_append] at g6
    simp only [List.map_cons, List.map_nil, List.sum_cons, List.sum_nil, Nat.add_zero, mem_get g1, g2] at g6
    exact ⟨k, d, g1, g2, g5, by omega⟩
  · rintro ⟨k, d, g1, g2, g3, g4⟩
    have hkl := (List.getElem?_eq_some_iff.mp g1).1
    refine ⟨k, _, _, d, g1, g2, h2 k (by omega), h2 (k + 1) (by omega), g3, ?_⟩
    rw [List.range_succ, List.map_append, List.sum_append]
    simp only [List.map_cons, List.map_nil, List.sum_cons, List.sum_nil, Nat.add_zero, mem_get g1, g2]
    unfold offSV at g3
    omega

theorem coarse_mesh_sv {np : ℕ} {C : ℕ → Ctx} (hM : Mesh np C) (aggs : ℕ → List Agg) : Mesh np fun p => coarseCtx (C p) (dispsSV C aggs p) := by
  refine ⟨hM.tabs, hM.inter, hM.loc, hM.idl, hM.ids, hM.ind, ?_, ?_, ?_, ?_⟩
  · intro p _; exact (offs_of _ (C p).T.length).1
  · intro p _; rfl
  · intro p _; exact (offs_of _ (C p).T.length).2.2
  · intro p hp q hq i j a b a' b' d e hi hj hm ha hb ha' hb'
    replace hi : (C p).T[i]? = some d := hi
    replace hj : (C q).T[j]? = some e := hj
    have hil := (List.getElem?_eq_some_iff.mp hi).1
    have hjl := (List.getElem?_eq_some_iff.mp hj).1
    have hp2 := (offs_of (fun k => (cnts C aggs (mem C p k)).sum) (C p).T.length).2.1
    have hq2 := (offs_of (fun k => (cnts C aggs (mem C q k)).sum) (C q).T.length).2.1
    replace ha : (dispsSV C aggs p)[i]? = some a := ha
    replace hb : (dispsSV C aggs p)[i + 1]? = some b := hb
    replace ha' : (dispsSV C aggs q)[j]? = some a' := ha'
    replace hb' : (dispsSV C aggs q)[j + 1]? = some b' := hb'
    unfold dispsSV at ha hb ha' hb'
    rw [hp2 i (by omega)] at ha
    rw [hp2 (i + 1) (by omega)] at hb
    rw [hq2 j (by omega)] at ha'
    rw [hq2 (j + 1) (by omega)] at hb'
    cases ha; cases hb; cases ha'; cases hb'
    rw [List.range_succ, List.range_succ, List.map_append, List.map_append, List.sum_append, List.sum_append]
    simp only [List.map_cons, List.map_nil, List.sum_cons, List.sum_nil, Nat.add_zero]
    rw [Nat.add_sub_cancel_left, Nat.add_sub_cancel_left, mem_get hi, mem_get hj, hm]

/-! ### what the first `ReduceTable` gives -/

section
variable {np : ℕ} {C : ℕ → Ctx} (hM : Mesh np C) {aggs : ℕ → List Agg}

/-- the counts that process `p` sends -/
def tentOf (C : ℕ → Ctx) (aggs : ℕ → List Agg) (p : ℕ) : List (List ℕ) := (List.range (C p).T.length).map fun k => [(aggs p).countP (cenIn (C p) k)]

include hM

theorem red_cnts {out : ℕ → List (Option (List ℕ))}
    (hout : ∀ p < np, Reduced np (fun p => (C p).T) (fun p k => members p ((C p).T.getD k [])) (tentOf C aggs) (fun _ _ ins => ins.map fun row => row.headD 0) p (out p))
    {p : ℕ} (hp : p < np) : (out p).mapM id = some ((List.range (C p).T.length).map fun k => cnts C aggs (mem C p k)) := by
  obtain ⟨h1, h2⟩ := hout p hp
  have hmap : out p = (List.range (C p).T.length).map fun k => some (cnts C aggs (mem C p k)) := by
    refine List.ext_getElem? fun k => ?_
    by_cases hk : k < (C p).T.length
    · have hd := List.getElem?_eq_getElem hk
      obtain ⟨m, l, ins, -, -, -, -, hrows, ho⟩ := h2 k _ hd
      rw [ho, List.getElem?_map, List.getElem?_range hk, Option.map_some]
      congr 2
      have hval := (hM.tabs.ok p hp).2 _ (List.getElem_mem hk)
      rw [ord_members hval] at hrows
      have hkey : members p ((C p).T.getD k []) = members p ((C p).T[k]) := by rw [List.getD_eq_getElem?_getD, hd, Option.getD_some]
      unfold RowsWithKey at hrows
      dsimp only at hrows
      rw [hkey] at hrows
      show List.map _ ins = _
      clear ho
      unfold cnts
      rw [mem_get hd]
      have hall : ∀ r ∈ ord (members p ((C p).T[k])), r ∈ members p ((C p).T[k]) := fun r hr => mem_ord.mp hr
      generalize ord (members p ((C p).T[k])) = P at hrows hall
      induction hrows with
      | nil => rfl
      | @cons r row rs rows hr _ ih =>
        rw [List.map_cons, List.map_cons, ih (fun r hr => hall r (List.mem_cons_of_mem _ hr))]
        congr 1
        obtain ⟨j, j1, j2⟩ := hr
        obtain ⟨hr, e, e1, e2⟩ := cls_at hM hp hd (hall r (by simp))
        unfold tentOf at j2
        rw [List.getElem?_map, Option.map_eq_some_iff] at j2
        obtain ⟨j', a1, a2⟩ := j2
        rw [List.getElem?_eq_some_iff] at a1
        obtain ⟨b1, b2⟩ := a1
        rw [List.length_range] at b1
        rw [List.getElem_range] at b2
        subst b2
        have hj := List.getElem?_eq_getElem b1
        rw [List.getD_eq_getElem?_getD, hj, Option.getD_some] at j1
        rw [← a2, cntS, clsOf_get hM hr hj j1]
        rfl
    · rw [List.getElem?_eq_none (by rw [h1]; simpa using hk), List.getElem?_eq_none (by simpa using hk)]
  rw [hmap]
  rw [List.mapM_map]
  exact mapM_some_of _ _ _ fun k _ => rfl

/-- the table of the offsets -/
def redOf (C : ℕ → Ctx) (aggs : ℕ → List Agg) (p : ℕ) : List (List ℕ) :=
  (prefixRows 0 ((List.range (C p).T.length).map fun k => cnts C aggs (mem C p k))).1

omit hM in
theorem redOf_get {p k j : ℕ} (hk : k < (C p).T.length) (hj : j < (cnts C aggs (mem C p k)).length) :
    ((redOf C aggs p)[k]?).bind (fun row => row[j]?) = some (offSV C aggs p k + ((cnts C aggs (mem C p k)).take j).sum) := by
  unfold redOf
  rw [(prefixRows_spec _ _).2, List.getElem?_map, List.getElem?_range hk, Option.map_some, Option.map_some, Option.bind_some, (prefixRow_spec _ _).2, if_pos hj,
    ← List.map_take, List.take_range, Nat.min_eq_left (by omega), List.map_map]
  unfold offSV
  rw [Nat.zero_add]
  rfl

omit hM in
theorem redOf_row {p k : ℕ} (hk : k < (C p).T.length) : ∃ row, (redOf C aggs p)[k]? = some row ∧ row.length = (ord (mem C p k)).length := by
  unfold redOf
  rw [(prefixRows_spec _ _).2, List.getElem?_map, List.getElem?_range hk, Option.map_some, Option.map_some]
  exact ⟨_, rfl, by rw [prefixRow_length, cnts, List.length_map]⟩

theorem offsets_sv {out : ℕ → List (Option (List ℕ))}
    (hout : ∀ p < np, Reduced np (fun p => (C p).T) (fun p k => members p ((C p).T.getD k [])) (tentOf C aggs) (fun _ _ ins => ins.map fun row => row.headD 0) p (out p))
    {p : ℕ} (hp : p < np) : offsetsSV (out p) = some (redOf C aggs p, dispsSV C aggs p) := by
  unfold offsetsSV
  rw [red_cnts hM hout hp, Option.map_some]
  congr 1
  refine Prod.ext rfl ?_
  show _ = dispsSV C aggs p
  rw [(prefixRows_spec _ _).1, List.map_map]
  rfl

end

end NgsAMG.CMap
