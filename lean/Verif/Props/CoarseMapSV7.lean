import Verif.Props.CoarseMapSV6
import Verif.Props.CoarseMap6
import Verif.Props.MapEdges7

/-!
# C93: consequences of `MapVerts_sv`, examples
-/

namespace NgsAMG.CMap

open NgsAMG.EQC NgsAMG.RedTab NgsAMG.Exch NgsAMG.BTM

section
variable {np : ℕ} {C : ℕ → Ctx} (hM : Mesh np C) {aggs : ℕ → List Agg} (hA : SolidAggs np C aggs)
  {disps : ℕ → List ℕ} {vmap : ℕ → List (Option ℕ)} {num : ℕ → ℕ → ℕ} (hV : CoarseSV np C aggs disps vmap num)
include hM hA hV

/-- **C93 (images).** A vertex has a coarse vertex exactly if a copy of it is in an agglomerate, of whatever process. -/
theorem mapVertsSV_some {p v : ℕ} (hp : p < np) (hv : v < (C p).nv) :
    (∃ x, (vmap p)[v]? = some (some x)) ↔ ∃ m a, InAggS C aggs p v m a := by
  constructor
  · rintro ⟨x, hx⟩
    by_contra h
    push Not at h
    rw [hV.dir p hp v hv h] at hx
    simp at hx
  · rintro ⟨m, a, h⟩
    obtain ⟨-, -, -, -, -, -, -, -, -, -, hS⟩ := inAggS_facts hM hA hp h
    obtain ⟨x, hx, -⟩ := hV.img p hp v m a _ h hS
    exact ⟨x, hx⟩

/-- **C93 (copies).** The images of two vertices, of whatever processes, are copies of one coarse vertex exactly if the vertices are in the same
agglomerate. -/
theorem mapVertsSV_same {p q v w m m' a a' x y : ℕ} (hp : p < np) (hq : q < np) (h : InAggS C aggs p v m a) (h' : InAggS C aggs q w m' a')
    (hx : (vmap p)[v]? = some (some x)) (hy : (vmap q)[w]? = some (some y)) :
    (∃ S r, IsVert p (coarseCtx (C p) (disps p)) x S r ∧ IsVert q (coarseCtx (C q) (disps q)) y S r) ↔ m = m' ∧ a = a' := by
  obtain ⟨-, -, -, -, hm, -, -, -, -, -, hS⟩ := inAggS_facts hM hA hp h
  obtain ⟨-, -, -, -, hm', -, -, -, -, -, hS'⟩ := inAggS_facts hM hA hq h'
  obtain ⟨x0, x1, x2⟩ := hV.img p hp v m a _ h hS
  obtain ⟨y0, y1, y2⟩ := hV.img q hq w m' a' _ h' hS'
  rw [hx] at x1; cases x1
  rw [hy] at y1; cases y1
  constructor
  · rintro ⟨T, r, t1, t2⟩
    obtain ⟨e1, e2⟩ := isVert_unique hV.mesh hp x2 t1
    obtain ⟨f1, f2⟩ := isVert_unique hV.mesh hq y2 t2
    have : setS C aggs m a = setS C aggs m' a' := e1.trans f1.symm
    rw [this] at hS
    exact hV.uniq m hm m' hm' a a' _ hS hS' (e2.trans f2.symm)
  · rintro ⟨rfl, rfl⟩
    exact ⟨_, _, x2, y2⟩

/-- **C93 (copies of a vertex).** Copies of a fine vertex are mapped to copies of a coarse vertex, which is on at least their processes, or none of them is
mapped. -/
theorem mapVertsSV_copies {p q v w r : ℕ} {S : Finset ℕ} (hp : p < np) (hq : q < np) (h : IsVert p (C p) v S r) (h' : IsVert q (C q) w S r) :
    ((vmap p)[v]? = some none ∧ (vmap q)[w]? = some none) ∨ ∃ x y T c, (vmap p)[v]? = some (some x) ∧ (vmap q)[w]? = some (some y) ∧
      IsVert p (coarseCtx (C p) (disps p)) x T c ∧ IsVert q (coarseCtx (C q) (disps q)) y T c ∧ S ⊆ T := by
  have hiff : ∀ m a, InAggS C aggs p v m a ↔ InAggS C aggs q w m a := by
    intro m a
    constructor
    · rintro ⟨S', r', u, g, h1, h2⟩
      obtain ⟨rfl, rfl⟩ := isVert_unique hM hp h h1
      exact ⟨S, r, u, g, h', h2⟩
    · rintro ⟨S', r', u, g, h1, h2⟩
      obtain ⟨rfl, rfl⟩ := isVert_unique hM hq h' h1
      exact ⟨S, r, u, g, h, h2⟩
  by_cases hin : ∃ m a, InAggS C aggs p v m a
  · right
    obtain ⟨m, a, hin⟩ := hin
    obtain ⟨S1, r1, w1, g1, hm, k1, k2, -, -, hsub, hT⟩ := inAggS_facts hM hA hp hin
    obtain ⟨rfl, rfl⟩ := isVert_unique hM hp h k1
    obtain ⟨x, x1, x2⟩ := hV.img p hp v m a _ hin hT
    obtain ⟨y, y1, y2⟩ := hV.img q hq w m a _ ((hiff m a).mp hin) hT
    exact ⟨x, y, _, _, x1, y1, x2, y2, hsub⟩
  · push Not at hin
    exact Or.inl ⟨hV.dir p hp v (isVert_lt hM hp h) hin, hV.dir q hq w (isVert_lt hM hq h') fun m a hh => hin m a ((hiff m a).mpr hh)⟩

/-- the map of the vertices is one that C76 (`MapEdges`) can work with -/
theorem vmaps_of_sv : VMaps np C disps vmap := ⟨hM, hV.mesh, hV.len, fun _ hp _ hq _ _ _ _ h h' => mapVertsSV_copies hM hA hV hp hq h h'⟩

theorem sv_center {p m a : ℕ} {g : Agg} (hm : m < np) (hg : (aggs m)[a]? = some g) (hpS : p ∈ setS C aggs m a) :
    p < np ∧ AggAt C aggs m a (setS C aggs m a) ∧ ∃ v x, InAggS C aggs p v m a ∧ (vmap p)[v]? = some (some x) ∧
      IsVert p (coarseCtx (C p) (disps p)) x (setS C aggs m a) (num m a) := by
  obtain ⟨d, r, c1, c2, c3, c4, -⟩ := cenS hM hA hm hg
  have hat : AggAt C aggs m a (setS C aggs m a) := ⟨g, r, hg, c4⟩
  obtain ⟨hp, v, hv⟩ := vert_partner hM hm c4 hpS
  have hin : InAggS C aggs p v m a := ⟨_, r, g.center, g, hv, c4, hg, hA.cen m hm g (List.mem_of_getElem? hg)⟩
  obtain ⟨x, h1, h2⟩ := hV.img p hp v m a _ hin hat
  exact ⟨hp, hat, v, x, hin, h1, h2⟩

/-- **C93 (onto).** Every coarse vertex of a process is the image of a vertex of the process. -/
theorem mapVertsSV_onto {p x : ℕ} (hp : p < np) (hx : x < (coarseCtx (C p) (disps p)).nv) : ∃ v : ℕ, (vmap p)[v]? = some (some x) := by
  obtain ⟨S, c, h, hpS⟩ := isVert_exists hV.mesh hp hx
  obtain ⟨m, a, hm, hat, hc⟩ := hV.pre p hp x S c h
  have e := at_set hM hA hm hat
  subst e
  obtain ⟨g, r, g1, g2⟩ := id hat
  obtain ⟨-, -, v, y, -, h1, h2⟩ := sv_center hM hA hV hm g1 hpS
  rw [hc] at h2
  exact ⟨v, by rw [h1, isVert_inj hV.mesh hp h2 h]⟩

/-- **C93 (number of coarse vertices).** The global number of coarse vertices (every vertex counted by the smallest process that has it) is the number of
agglomerates of all processes. -/
theorem mapVertsSV_count : ((List.range np).map fun p => nMaster p (C p).T (disps p)).sum = ((List.range np).map fun p => (aggs p).length).sum := by
  classical
  have key : ∀ e : ℕ × ℕ, ∃ y : ℕ × ℕ, e.1 < np → e.2 < (aggs e.1).length →
      y.1 < np ∧ AggAt C aggs e.1 e.2 (setS C aggs e.1 e.2) ∧ IsVert y.1 (coarseCtx (C y.1) (disps y.1)) y.2 (setS C aggs e.1 e.2) (num e.1 e.2) ∧
      ∀ q ∈ setS C aggs e.1 e.2, y.1 ≤ q := by
    rintro ⟨m, a⟩
    by_cases h : m < np ∧ a < (aggs m).length
    · obtain ⟨hm, ha⟩ := h
      have hg := List.getElem?_eq_getElem ha
      obtain ⟨d, r, c1, c2, c3, c4, -⟩ := cenS hM hA hm hg
      have hne : (setS C aggs m a).Nonempty := ⟨m, isVert_self c4⟩
      obtain ⟨h1, h2, v, x, -, -, h3⟩ := sv_center hM hA hV hm hg (Finset.min'_mem _ hne)
      exact ⟨(_, x), fun _ _ => ⟨h1, h2, h3, fun q hq => Finset.min'_le _ _ hq⟩⟩
    · exact ⟨(0, 0), fun h1 h2 => absurd ⟨h1, h2⟩ h⟩
  choose f hf using key
  have e1 : ((List.range np).map fun p => nMaster p (C p).T (disps p)).sum =
      ((List.range np).flatMap fun p => (masterVerts p (coarseCtx (C p) (disps p))).map fun x => (p, x)).length := by
    rw [List.length_flatMap]
    congr 1
    apply List.map_congr_left
    intro p _
    rw [List.length_map]
    exact (masterVerts_length p (coarseCtx (C p) (disps p))).symm
  have e2 : ((List.range np).map fun p => (aggs p).length).sum =
      (((List.range np).flatMap fun m => (List.range (aggs m).length).map fun a => (m, a)).map f).length := by
    rw [List.length_map, List.length_flatMap]
    congr 1
    apply List.map_congr_left
    intro p _
    rw [List.length_map, List.length_range]
  rw [e1, e2]
  have hmem : ∀ e : ℕ × ℕ, e ∈ ((List.range np).flatMap fun m => (List.range (aggs m).length).map fun a => (m, a)) ↔ e.1 < np ∧ e.2 < (aggs e.1).length := by
    rintro ⟨m, a⟩
    simp
  refine List.Perm.length_eq ((List.perm_ext_iff_of_nodup ?_ ?_).mpr ?_)
  · rw [List.nodup_flatMap]
    constructor
    · intro p hp
      exact (nodup_masterVerts hV.mesh (List.mem_range.mp hp)).map fun a b h => by simpa using h
    · refine List.Pairwise.imp_of_mem ?_ List.nodup_range
      intro p q _ _ hne y hy hy'
      obtain ⟨x, -, rfl⟩ := List.mem_map.mp hy
      obtain ⟨x', -, h⟩ := List.mem_map.mp hy'
      exact hne (Prod.ext_iff.mp h).1.symm
  · refine (List.nodup_map_iff_inj_on ?_).mpr ?_
    · rw [List.nodup_flatMap]
      constructor
      · intro p _
        exact List.nodup_range.map fun a b h => by simpa using h
      · refine List.Pairwise.imp_of_mem ?_ List.nodup_range
        intro p q _ _ hne y hy hy'
        obtain ⟨x, -, rfl⟩ := List.mem_map.mp hy
        obtain ⟨x', -, h⟩ := List.mem_map.mp hy'
        exact hne (Prod.ext_iff.mp h).1.symm
    · intro e he e' he' hff
      obtain ⟨a1, a2⟩ := (hmem e).mp he
      obtain ⟨b1, b2⟩ := (hmem e').mp he'
      obtain ⟨c1, c2, c3, -⟩ := hf e a1 a2
      obtain ⟨d1, d2, d3, -⟩ := hf e' b1 b2
      rw [hff] at c3
      obtain ⟨g1, g2⟩ := isVert_unique hV.mesh d1 c3 d3
      rw [g1] at c2
      have := hV.uniq _ a1 _ b1 _ _ _ c2 d2 g2
      exact Prod.ext this.1 this.2
  · rintro ⟨p, x⟩
    simp only [List.mem_flatMap, List.mem_range, List.mem_map, Prod.mk.injEq]
    constructor
    · rintro ⟨q, hq, y, hy, rfl, rfl⟩
      obtain ⟨S, c, hx, hmin⟩ := (mem_masterVerts hV.mesh hq).mp hy
      obtain ⟨m, a, hm, hat, hc⟩ := hV.pre q hq y S c hx
      obtain rfl := at_set hM hA hm hat
      obtain ⟨g, r, g1, g2⟩ := id hat
      have hlt := (List.getElem?_eq_some_iff.mp g1).1
      obtain ⟨c1, c2, c3, c4⟩ := hf (m, a) hm hlt
      refine ⟨(m, a), ⟨m, hm, a, hlt, rfl⟩, ?_⟩
      have hpq : (f (m, a)).1 = q := le_antisymm (c4 _ (isVert_self hx)) (hmin _ (isVert_self c3))
      refine Prod.ext hpq ?_
      dsimp only at c3 ⊢
      rw [hpq, hc] at c3
      exact isVert_inj hV.mesh hq c3 hx
    · rintro ⟨⟨m, a⟩, ⟨m', hm, a', ha, h1⟩, h⟩
      cases h1
      obtain ⟨c1, c2, c3, c4⟩ := hf (m, a) hm ha
      rw [h] at c1 c3 c4
      exact ⟨p, c1, x, (mem_masterVerts hV.mesh c1).mpr ⟨_, _, c3, c4⟩, rfl, rfl⟩

end

/-- **C93 (existence).** There are complete schedules of both exchanges, one after the other. -/
theorem mapVertsSV_total {np : ℕ} {C : ℕ → Ctx} (hM : Mesh np C) {aggs : ℕ → List Agg} (hA : SolidAggs np C aggs) :
    ∃ (tc : ℕ → List (List ℕ)) (n : ℕ) (s : _) (red : ℕ → List (List ℕ)) (disps : ℕ → List ℕ) (sv : ℕ → SVSt) (n' : ℕ) (s' : _) (vmap : ℕ → List (Option ℕ)) (num : ℕ → ℕ → ℕ),
      (∀ p < np, tentCnts (C p) (aggs p) = some (tc p)) ∧ DReach np (cntProg np C tc) (fun _ => {}) n s ∧ DFinal np (cntProg np C tc) s ∧
      (∀ p < np, offsetsSV (s.vec p).out = some (red p, disps p) ∧ exvSV (C p) p (aggs p) (red p) = some (sv p)) ∧
      DReach np (exProg np C fun p => (sv p).ex) (fun _ => {}) n' s' ∧ DFinal np (exProg np C fun p => (sv p).ex) s' ∧
      (∀ p < np, finishSV (C p) (red p) (sv p).vm (s'.vec p).out = some (vmap p)) ∧ CoarseSV np C aggs disps vmap num := by
  have hR := rows_of_tables hM.tabs
  have htab : ∀ p < np, (tentOf C aggs p).length = (C p).T.length := by intro p _; simp [tentOf]
  obtain ⟨n, s, h1, h2⟩ := dexists_final (matched hR (tentOf C aggs) (fun _ _ ins => ins.map fun row => row.headD 0) htab)
  obtain ⟨h3, -⟩ := reduceTable_correct hR _ _ htab h1 h2
  obtain ⟨sv, hsv⟩ := exv_total hM hA
  have htab' : ∀ p < np, ((sv p).ex).length = (C p).T.length := fun p hp => ex_tab hM hA (fun p hp => (hsv p hp).2) hp
  obtain ⟨n', s', h1', h2'⟩ := dexists_final (matched hR (fun p => (sv p).ex) (fun _ _ ins => lastSet ins) htab')
  obtain ⟨g1, -⟩ := reduceTable_correct hR _ _ htab' h1' h2'
  obtain ⟨vmap, v1, v2⟩ := coarse_sv hM hA (fun p hp => (hsv p hp).2) (out := fun p => (s'.vec p).out) (fun p hp => (g1 p hp).2)
  refine ⟨tentOf C aggs, n, s, redOf C aggs, dispsSV C aggs, sv, n', s', vmap, _, ?_, h1, h2, ?_, h1', h2', v1, v2⟩
  · intro p hp
    refine tentCnts_spec fun g hg => ?_
    obtain ⟨a, ha⟩ := List.mem_iff_getElem?.mp hg
    obtain ⟨k, d, r, i, c1, c2, -⟩ := sv_cen hM hA hp ha
    exact ⟨k, c1, (List.getElem?_eq_some_iff.mp c2).1⟩
  · intro p hp
    exact ⟨offsets_sv hM (out := fun p => (s.vec p).out) (fun p hp => (h3 p hp).2) hp, (hsv p hp).1⟩

/-! ### example -/

/-- the vertices `v` of `p` and `w` of `q` are not copies of one vertex -/
def NoCopy (C D : Ctx) (p q v w : ℕ) : Prop := ∀ k < C.T.length, ∀ l < D.T.length,
  C.disp.getD k 0 ≤ v → v < C.disp.getD (k + 1) 0 → D.disp.getD l 0 ≤ w → w < D.disp.getD (l + 1) 0 →
  members p (C.T.getD k []) = members q (D.T.getD l []) → v - C.disp.getD k 0 ≠ w - D.disp.getD l 0

set_option synthInstance.maxHeartbeats 400000 in
set_option synthInstance.maxSize 1000 in
instance (C D : Ctx) (p q v w : ℕ) : Decidable (NoCopy C D p q v w) := by unfold NoCopy; infer_instance

/-- agglomerates can be checked by evaluation -/
theorem solid_of_check {np : ℕ} {C : ℕ → Ctx} (hM : Mesh np C) {aggs : ℕ → List Agg}
    (h1 : ∀ p < np, ∀ g ∈ aggs p, (∀ v ∈ g.mems, v < (C p).nv) ∧ g.center ∈ g.mems)
    (h2 : ∀ p < np, ∀ g ∈ aggs p, ∀ v ∈ g.mems, ∀ k < (C p).T.length, ∀ l < (C p).T.length,
      (C p).disp.getD k 0 ≤ v → v < (C p).disp.getD (k + 1) 0 → (C p).disp.getD l 0 ≤ g.center → g.center < (C p).disp.getD (l + 1) 0 →
      members p ((C p).T.getD k []) ⊆ members p ((C p).T.getD l []))
    (h3 : ∀ p < np, ∀ q < np, ∀ a < (aggs p).length, ∀ b < (aggs q).length, ¬ (p = q ∧ a = b) →
      ∀ v ∈ ((aggs p).getD a ⟨0, []⟩).mems, ∀ w ∈ ((aggs q).getD b ⟨0, []⟩).mems, NoCopy (C p) (C q) p q v w) :
    SolidAggs np C aggs := by
  have gd : ∀ {α : Type} {l : List α} {i : ℕ} {x : α} (y : α), l[i]? = some x → l.getD i y = x := by
    intro α l i x y h; rw [List.getD_eq_getElem?_getD, h]; rfl
  refine ⟨fun p hp g hg => (h1 p hp g hg).1, fun p hp g hg => (h1 p hp g hg).2, ?_, ?_⟩
  · rintro p hp g hg v hv S r S' r' ⟨k, a, b, d, c1, c2, c3, c4, c5, c6⟩ ⟨l, a', b', d', e1, e2, e3, e4, e5, e6⟩
    have := h2 p hp g hg v hv k (List.getElem?_eq_some_iff.mp c1).1 l (List.getElem?_eq_some_iff.mp e1).1
    rw [gd 0 c3, gd 0 c4, gd 0 e3, gd 0 e4, gd [] c1, gd [] e1, c2, e2] at this
    exact this (by omega) c6 (by omega) e6
  · rintro p hp q hq a b g h hg hh v hv w hw S r ⟨k, x, y, d, c1, c2, c3, c4, c5, c6⟩ ⟨l, x', y', d', e1, e2, e3, e4, e5, e6⟩
    by_contra hne
    have := h3 p hp q hq a (List.getElem?_eq_some_iff.mp hg).1 b (List.getElem?_eq_some_iff.mp hh).1 hne v (by rw [gd _ hg]; exact hv) w (by rw [gd _ hh]; exact hw)
      k (List.getElem?_eq_some_iff.mp c1).1 l (List.getElem?_eq_some_iff.mp e1).1
    rw [gd 0 c3, gd 0 c4, gd 0 e3, gd 0 e4, gd [] c1, gd [] e1, c2, e2] at this
    exact this (by omega) c6 (by omega) e6 rfl (by omega)

/-- process 0: its two own vertices; process 1, which is not the smallest process of its center: the vertex of all three processes, the one shared with 0 and
its own one; process 2, also not the smallest: the vertex shared with 1 -/
def exAggsSV : ℕ → List Agg
  | 0 => [⟨1, [0, 1]⟩]
  | 1 => [⟨3, [0, 1, 3]⟩]
  | 2 => [⟨1, [1]⟩]
  | _ => []

set_option synthInstance.maxHeartbeats 4000000 in
set_option synthInstance.maxSize 5000 in
theorem exAggsSV_ok : SolidAggs 3 exC exAggsSV := solid_of_check exC_mesh (by decide) (by decide) (by decide)

/-- the hypotheses are met; the vertex shared by 0 and 1 has copies on the three processes although 2 does not have it -/
example : ∃ (disps : ℕ → List ℕ) (vmap : ℕ → List (Option ℕ)) (num : ℕ → ℕ → ℕ), CoarseSV 3 exC exAggsSV disps vmap num := by
  obtain ⟨-, -, -, -, disps, -, -, -, vmap, num, -, -, -, -, -, -, -, h⟩ := mapVertsSV_total exC_mesh exAggsSV_ok
  exact ⟨disps, vmap, num, h⟩

/-- the first exchange -/
def exRed (p : ℕ) : Option (List (List ℕ) × List ℕ) :=
  offsetsSV (drun (cntProg 3 exC fun q => (tentCnts (exC q) (exAggsSV q)).getD []) (fun _ => {}) p).out

/-- both exchanges -/
def exResSV (p : ℕ) : Option (List ℕ × List (Option ℕ)) :=
  (exRed p).bind fun r => (exvSV (exC p) p (exAggsSV p) r.1).bind fun sv =>
    (finishSV (exC p) r.1 sv.vm (drun (exProg 3 exC fun q => ((exRed q).bind fun r => (exvSV (exC q) q (exAggsSV q) r.1).map (·.ex)).getD []) (fun _ => {}) p).out).map
      fun vm => (r.2, vm)

example : (List.range 3).map exResSV =
    [some ([0, 1, 1, 2], [some 0, some 0, some 1, some 1]), some ([0, 0, 0, 1, 2], [some 1, some 1, some 0, some 1]),
     some ([0, 0, 1, 2], [none, some 0, some 1])] := by
  decide +kernel

end NgsAMG.CMap
