import Verif.Props.CoarseMap4

/-!
# C75: `MapVerts`, the theorem
-/

namespace NgsAMG.CMap

open NgsAMG.EQC NgsAMG.RedTab NgsAMG.Exch NgsAMG.BTM

/-- the counts of process `p` -/
def cntsOf (C : ℕ → Ctx) (aggs : ℕ → List Agg) (out : ℕ → List VRow) (p k : ℕ) : ℕ :=
  if k = 0 then (aggs p).countP (isLoc (C p)) else ((out p).getD k (0, [])).1

/-- the offsets of process `p` -/
def dispsOf (C : ℕ → Ctx) (aggs : ℕ → List Agg) (out : ℕ → List VRow) (p : ℕ) : List ℕ :=
  0 :: partialSum 0 ((List.range (C p).T.length).map (cntsOf C aggs out p))

/-- the offset of the class `k` -/
def offOf (C : ℕ → Ctx) (aggs : ℕ → List Agg) (out : ℕ → List VRow) (p k : ℕ) : ℕ := ((List.range k).map (cntsOf C aggs out p)).sum

section
variable {np : ℕ} {C : ℕ → Ctx} (hM : Mesh np C) {aggs : ℕ → List Agg} {v2agg : ℕ → List (Option ℕ)} (hA : AggsOK np C aggs v2agg)
  {st : ℕ → VSt} {rows : ℕ → List VRow} (hex : ∀ p < np, exData (C p) p (aggs p) (v2agg p) = some (st p, rows p))
  {out : ℕ → List VRow} (hout : ∀ p < np, Scattered (fun p => (C p).T) (fun p k => members p ((C p).T.getD k [])) rows p (out p))

theorem isVert' {p x c : ℕ} {S : Finset ℕ} : IsVert p (coarseCtx (C p) (dispsOf C aggs out p)) x S c ↔
    ∃ k d, (C p).T[k]? = some d ∧ members p d = S ∧ x = offOf C aggs out p k + c ∧ c < cntsOf C aggs out p k := by
  obtain ⟨-, h2, -⟩ := offs_of (cntsOf C aggs out p) (C p).T.length
  constructor
  · rintro ⟨k, a, b, d, g1, g2, g3, g4, g5, g6⟩
    have hkl := (List.getElem?_eq_some_iff.mp g1).1
    replace g1 : (C p).T[k]? = some d := g1
    replace hkl : k < (C p).T.length := hkl
    replace g3 : (dispsOf C aggs out p)[k]? = some a := g3
    replace g4 : (dispsOf C aggs out p)[k + 1]? = some b := g4
    unfold dispsOf at g3 g4
    rw [h2 k (by omega)] at g3
    rw [h2 (k + 1) (by omega)] at g4
    cases g3
    cases g4
    rw [List.range_succ, List.map_append, List.sum_append] at g6
    simp only [List.map_cons, List.map_nil, List.sum_cons, List.sum_nil, Nat.add_zero] at g6
    exact ⟨k, d, g1, g2, g5, by omega⟩
  · rintro ⟨k, d, g1, g2, g3, g4⟩
    have hkl := (List.getElem?_eq_some_iff.mp g1).1
    refine ⟨k, _, _, d, g1, g2, h2 k (by omega), h2 (k + 1) (by omega), g3, ?_⟩
    rw [List.range_succ, List.map_append, List.sum_append]
    simp only [List.map_cons, List.map_nil, List.sum_cons, List.sum_nil, Nat.add_zero]
    unfold offOf at g3
    omega

include hM hA hex hout

theorem coarse_mesh : Mesh np fun p => coarseCtx (C p) (dispsOf C aggs out p) := by
  refine ⟨hM.tabs, hM.inter, hM.loc, hM.idl, hM.ids, hM.ind, ?_, ?_, ?_, ?_⟩
  · intro p _; exact (offs_of (cntsOf C aggs out p) (C p).T.length).1
  · intro p _; rfl
  · intro p _; exact (offs_of (cntsOf C aggs out p) (C p).T.length).2.2
  · intro p hp q hq i j a b a' b' d e hi hj hm ha hb ha' hb'
    replace hi : (C p).T[i]? = some d := hi
    replace hj : (C q).T[j]? = some e := hj
    have hil := (List.getElem?_eq_some_iff.mp hi).1
    have hjl := (List.getElem?_eq_some_iff.mp hj).1
    have hp2 := (offs_of (cntsOf C aggs out p) (C p).T.length).2.1
    have hq2 := (offs_of (cntsOf C aggs out q) (C q).T.length).2.1
    replace ha : (dispsOf C aggs out p)[i]? = some a := ha
    replace hb : (dispsOf C aggs out p)[i + 1]? = some b := hb
    replace ha' : (dispsOf C aggs out q)[j]? = some a' := ha'
    replace hb' : (dispsOf C aggs out q)[j + 1]? = some b' := hb'
    unfold dispsOf at ha hb ha' hb'
    rw [hp2 i (by omega)] at ha
    rw [hp2 (i + 1) (by omega)] at hb
    rw [hq2 j (by omega)] at ha'
    rw [hq2 (j + 1) (by omega)] at hb'
    cases ha; cases hb; cases ha'; cases hb'
    rw [List.range_succ, List.range_succ, List.map_append, List.map_append, List.sum_append, List.sum_append]
    simp only [List.map_cons, List.map_nil, List.sum_cons, List.sum_nil, Nat.add_zero]
    rw [Nat.add_sub_cancel_left, Nat.add_sub_cancel_left]
    obtain ⟨m, l, m1, m2⟩ := cnts_spec hM hA hex hout hp hil
    obtain ⟨m', l', n1, n2⟩ := cnts_spec hM hA hex hout hq hjl
    obtain ⟨rfl, rfl⟩ := mast_unique hM hp hi hj hm m1 n1
    unfold cntsOf
    rw [m2, n2]

/-- the coarse vertex of an agglomerate, on each process of its class -/
theorem coarse_at {p m a : ℕ} {S : Finset ℕ} (hp : p < np) (hm : m < np) (h : AggAt C aggs m a S) (hS : p ∈ S) :
    ∃ (k : ℕ) (d : List ℕ), (C p).T[k]? = some d ∧ members p d = S ∧ numOf (C m) (aggs m) (st m) a < cntsOf C aggs out p k := by
  obtain ⟨l, e, c1, c2, c3⟩ := aggAt_cen hM hA hm h
  obtain ⟨m1, m2⟩ := aggAt_min hM hA hm h
  have hkd : ∃ (k : ℕ) (d : List ℕ), (C p).T[k]? = some d ∧ members p d = S := by
    rw [← c3] at hS
    rcases mem_members.mp hS with rfl | hpe
    · exact ⟨l, e, c2, c3⟩
    · obtain ⟨k, d, k1, -, k3⟩ := (rows_of_tables hM.tabs).partner m hm l e c2 p hpe
      exact ⟨k, d, k1, k3.trans c3⟩
  obtain ⟨k, d, k1, k2⟩ := hkd
  refine ⟨k, d, k1, k2, ?_⟩
  obtain ⟨m', l', n1, n2⟩ := cnts_spec hM hA hex hout hp (List.getElem?_eq_some_iff.mp k1).1
  have hmast : Mast C p k m l := ⟨d, e, k1, c2, c3.trans k2.symm, k2 ▸ m1, k2 ▸ m2⟩
  obtain ⟨rfl, rfl⟩ := mast_unique hM hp k1 k1 rfl hmast n1
  unfold cntsOf
  rw [n2]
  exact num_lt (good hM hA hex hm).2.2.2 c1

theorem coarse_uniq {m m' a a' : ℕ} {S : Finset ℕ} (hm : m < np) (hm' : m' < np) (h : AggAt C aggs m a S) (h' : AggAt C aggs m' a' S)
    (he : numOf (C m) (aggs m) (st m) a = numOf (C m') (aggs m') (st m') a') : m = m' ∧ a = a' := by
  obtain ⟨m1, m2⟩ := aggAt_min hM hA hm h
  obtain ⟨n1, n2⟩ := aggAt_min hM hA hm' h'
  have : m = m' := le_antisymm (m2 _ n1) (n2 _ m1)
  subst this
  obtain ⟨l, e, c1, c2, c3⟩ := aggAt_cen hM hA hm h
  obtain ⟨l', e', d1, d2, d3⟩ := aggAt_cen hM hA hm' h'
  have := cls_eq (hM.tabs.ok m hm) c2 d2 (c3.trans d3.symm)
  subst this
  exact ⟨rfl, num_inj (good hM hA hex hm).2.2.2 c1 d1 he⟩

theorem coarse_pre {p x c : ℕ} {S : Finset ℕ} (hp : p < np) (h : IsVert p (coarseCtx (C p) (dispsOf C aggs out p)) x S c) :
    ∃ m a, m < np ∧ AggAt C aggs m a S ∧ numOf (C m) (aggs m) (st m) a = c := by
  obtain ⟨k, d, g1, g2, g3, g4⟩ := isVert'.mp h
  obtain ⟨m, l, n1, n2⟩ := cnts_spec hM hA hex hout hp (List.getElem?_eq_some_iff.mp g1).1
  have hm := mast_lt hM hp n1
  unfold cntsOf at g4
  rw [n2] at g4
  obtain ⟨a, a1, a2⟩ := num_surj (good hM hA hex hm).2.2.2 g4
  obtain ⟨d', e, q1, q2, q3, -, -⟩ := n1
  rw [g1] at q1; cases q1
  refine ⟨m, a, hm, ?_, a2⟩
  rw [← g2, ← q3]
  exact cen_aggAt hM hA hm a1 q2

/-- the coarse vertex of a vertex -/
theorem target (p : ℕ) (hp : p < np) : ∃ tgt : ℕ → Option ℕ, ∀ v,
    (∀ m a S, InAgg C v2agg p v m a → AggAt C aggs m a S → ∃ x, tgt v = some x ∧
      IsVert p (coarseCtx (C p) (dispsOf C aggs out p)) x S (numOf (C m) (aggs m) (st m) a)) ∧
    ((∀ m a, ¬ InAgg C v2agg p v m a) → tgt v = none) := by
  have key : ∀ v, ∃ t : Option ℕ, (∀ m a S, InAgg C v2agg p v m a → AggAt C aggs m a S → ∃ x, t = some x ∧
      IsVert p (coarseCtx (C p) (dispsOf C aggs out p)) x S (numOf (C m) (aggs m) (st m) a)) ∧
    ((∀ m a, ¬ InAgg C v2agg p v m a) → t = none) := by
    intro v
    by_cases h : ∃ m a, InAgg C v2agg p v m a
    · obtain ⟨m, a, h⟩ := h
      obtain ⟨hm, S, hS⟩ := inAgg_exists_at hM hA hp h
      obtain ⟨S0, r0, w, h1, -⟩ := id h
      have hsub := (inAgg_sub hM hA hp h h1 hS).2
      obtain ⟨k, d, k1, k2, k3⟩ := coarse_at hM hA hex hout hp hm hS (hsub (isVert_self h1))
      refine ⟨some (offOf C aggs out p k + numOf (C m) (aggs m) (st m) a), ?_, fun hn => absurd h (hn m a)⟩
      intro m' a' S' h' hS'
      obtain ⟨rfl, rfl⟩ := inAgg_unique hM hA hp h h'
      have : S = S' := by
        obtain ⟨g, r, g1, g2⟩ := hS
        obtain ⟨g', r', g1', g2'⟩ := hS'
        rw [g1] at g1'; cases g1'
        exact (isVert_unique hM hm g2 g2').1
      subst this
      exact ⟨_, rfl, isVert'.mpr ⟨k, d, k1, k2, rfl, k3⟩⟩
    · push Not at h
      exact ⟨none, fun m a S h' => absurd h' (h m a), fun _ => rfl⟩
  choose tgt ht using key
  exact ⟨tgt, ht⟩

/-- `MapVerts` on one process -/
theorem after_spec {p : ℕ} (hp : p < np) : ∃ vmap, mapVertsAfter (C p) (aggs p) (v2agg p) (st p) (out p) = some (dispsOf C aggs out p, vmap) ∧
    vmap.length = (C p).nv ∧
    (∀ v m a S, InAgg C v2agg p v m a → AggAt C aggs m a S →
      ∃ x, vmap[v]? = some (some x) ∧ IsVert p (coarseCtx (C p) (dispsOf C aggs out p)) x S (numOf (C m) (aggs m) (st m) a)) ∧
    ∀ v < (C p).nv, (∀ m a, ¬ InAgg C v2agg p v m a) → vmap[v]? = some none := by
  obtain ⟨tgt, htgt⟩ := target hM hA hex hout p hp
  have hG := (good hM hA hex hp).2.2.2
  have hCM := coarse_mesh hM hA hex hout
  -- local agglomerates
  have hdisj : (aggs p).Pairwise fun g h => ∀ v ∈ g.mems, v ∉ h.mems := by
    rw [List.pairwise_iff_getElem]
    intro i j hi hj hij v h1 h2
    have a1 := (hA.v2a p hp v i).mpr ⟨_, List.getElem?_eq_getElem hi, h1⟩
    have a2 := (hA.v2a p hp v j).mpr ⟨_, List.getElem?_eq_getElem hj, h2⟩
    rw [a1] at a2
    simp only [Option.some.injEq] at a2
    omega
  obtain ⟨vm, l1, l2, l3, l4⟩ := localAggs_spec (C p) (aggs p) ((st p).cnt.getD 0 0) (List.replicate (C p).nv none)
    (by intro g hg
        obtain ⟨a, ha⟩ := List.mem_iff_getElem?.mp hg
        obtain ⟨k, -, -, -, c1, -⟩ := cen_spec hM hA hp ha
        unfold cen at c1
        rw [ha] at c1
        exact ⟨k, c1⟩)
    (by intro g hg v hv; rw [List.length_replicate]; exact mem_lt hM hA hp hg hv) hdisj
  rw [good_cnt0 hG] at l1 l3
  simp only [Nat.zero_add] at l1 l3
  rw [List.length_replicate] at l2
  -- rows
  have htodo : ∃ todo, (List.range' 1 ((C p).T.length - 1)).mapM (rowTodo (C p) (out p)) = some todo ∧
      ∀ x, x ∈ todo.flatten ↔ ∃ (k r : ℕ) (row : VRow), 0 < k ∧ k < (C p).T.length ∧ (out p)[k]? = some row ∧
        (vertsOf (C p) k)[r]? = some x.1 ∧ row.2[r]? = some x.2 := by
    have hrow : ∀ k ∈ List.range' 1 ((C p).T.length - 1), rowTodo (C p) (out p) k =
        some ((vertsOf (C p) k).zip ((out p).getD k (0, [])).2) ∧ ∃ row, (out p)[k]? = some row ∧ row.2.length = (vertsOf (C p) k).length := by
      intro k hk
      rw [List.mem_range'_1] at hk
      have hkl : k < (C p).T.length := by omega
      obtain ⟨m, l, row, r1, -, r3, r4, -⟩ := out_row hM hA hex hout hp (List.getElem?_eq_getElem hkl) (by omega)
      have hm := mast_lt hM hp r1
      obtain ⟨d, e, q1, q2, q3, -, -⟩ := r1
      have hlen : row.length = (vertsOf (C p) k).length := by
        rw [r4]
        apply le_antisymm
        · by_contra hlt
          push Not at hlt
          obtain ⟨w, hw⟩ : ∃ w, (vertsOf (C m) l)[(vertsOf (C p) k).length]? = some w := ⟨_, List.getElem?_eq_getElem hlt⟩
          have h1 := (vertsOf_get hM hm q2).mp hw
          rw [q3] at h1
          obtain ⟨-, v, hv⟩ := vert_partner hM hm h1 (mem_members.mpr (Or.inl rfl) : p ∈ members p d)
          have := (vertsOf_get hM hp q1).mpr hv
          simp at this
        · by_contra hlt
          push Not at hlt
          obtain ⟨w, hw⟩ : ∃ w, (vertsOf (C p) k)[(vertsOf (C m) l).length]? = some w := ⟨_, List.getElem?_eq_getElem hlt⟩
          have h1 := (vertsOf_get hM hp q1).mp hw
          rw [← q3] at h1
          obtain ⟨-, v, hv⟩ := vert_partner hM hp h1 (mem_members.mpr (Or.inl rfl) : m ∈ members m e)
          have := (vertsOf_get hM hm q2).mpr hv
          simp at this
      refine ⟨?_, _, r3, hlen⟩
      have hg : (out p).getD k (0, []) = ((st m).cnt.getD l 0, row) := by rw [List.getD_eq_getElem?_getD, r3]; rfl
      unfold rowTodo
      rw [r3, Option.bind_some, if_pos (by simp [hlen]), hg]
    refine ⟨_, mapM_some_of _ _ _ fun k hk => (hrow k hk).1, fun x => ?_⟩
    rw [List.mem_flatten]
    constructor
    · rintro ⟨L, hL, hx⟩
      obtain ⟨k, hk, rfl⟩ := List.mem_map.mp hL
      obtain ⟨-, row, r1, r2⟩ := hrow k hk
      rw [List.mem_range'_1] at hk
      rw [List.getD_eq_getElem?_getD, r1, Option.getD_some] at hx
      obtain ⟨r, hr⟩ := List.mem_iff_getElem?.mp hx
      rw [List.getElem?_zip_eq_some] at hr
      exact ⟨k, r, row, by omega, by omega, r1, hr.1, hr.2⟩
    · rintro ⟨k, r, row, h1, h2, h3, h4, h5⟩
      refine ⟨_, List.mem_map.mpr ⟨k, by rw [List.mem_range'_1]; omega, rfl⟩, ?_⟩
      rw [List.getD_eq_getElem?_getD, h3, Option.getD_some]
      exact List.mem_of_getElem? (List.getElem?_zip_eq_some.mpr ⟨h4, h5⟩)
  obtain ⟨todo, t1, t2⟩ := htodo
  -- what the entry of a vertex says
  have hentry : ∀ x ∈ todo.flatten, ∃ S r, IsVert p (C p) x.1 S r ∧ S ≠ {p} ∧
      ((x.2 = none ∧ ∀ m a, ¬ InAgg C v2agg p x.1 m a) ∨ ∃ m a k id c, InAgg C v2agg p x.1 m a ∧ x.2 = some (c, id) ∧
        (C p).eqcOfID id = some k ∧ (dispsOf C aggs out p)[k]? = some (offOf C aggs out p k) ∧ tgt x.1 = some (offOf C aggs out p k + c)) := by
    intro x hx
    obtain ⟨k, r, row, h1, h2, h3, h4, h5⟩ := (t2 x).mp hx
    have hd := List.getElem?_eq_getElem h2
    obtain ⟨m, l, row', r1, r2, r3, r4, r5⟩ := out_row hM hA hex hout hp hd (by omega)
    rw [h3] at r3; cases r3
    have hm := mast_lt hM hp r1
    obtain ⟨d, e, q1, q2, q3, q4, q5⟩ := r1
    rw [hd] at q1; cases q1
    have hv := (vertsOf_get hM hp hd).mp h4
    have hne : members p (C p).T[k] ≠ {p} := fun h => by have := (cls0_iff hM hA hp hd).mpr h; omega
    refine ⟨_, r, hv, hne, ?_⟩
    obtain ⟨-, w, hw⟩ := vert_partner hM hp hv q4
    have hwr := (vertsOf_get hM hm q2).mpr (q3 ▸ hw)
    have hE : EntryOK (C m) (v2agg m) (st m) w x.2 := by
      have h6 := (List.forall₂_iff_get.mp r5).2 r (List.getElem?_eq_some_iff.mp hwr).1 (List.getElem?_eq_some_iff.mp h5).1
      simp only [List.get_eq_getElem] at h6
      rwa [(List.getElem?_eq_some_iff.mp hwr).2, (List.getElem?_eq_some_iff.mp h5).2] at h6
    rcases hE with ⟨e1, e2⟩ | ⟨a, c, k', id, e1, e2, e3, e4⟩
    · refine Or.inl ⟨e2, ?_⟩
      rintro m' a' ⟨S', r', w', f1, f2, f3, f4, f5⟩
      obtain ⟨rfl, rfl⟩ := isVert_unique hM hp hv f1
      have : m = m' := le_antisymm (q5 _ f2) (f3 _ q4)
      subst this
      obtain rfl := isVert_inj hM hm hw f4
      rw [e1] at f5
      simp at f5
    · right
      have hGm := (good hM hA hex hm).2.2.2
      have hin : InAgg C v2agg p x.1 m a := ⟨_, r, w, hv, q4, q5, hw, e1⟩
      obtain ⟨k0, hk0, hcen⟩ := (hGm.mem a).mp ⟨_, e2⟩
      have := (hGm.ok a c k' e2).1
      rw [hcen] at this
      cases this
      have hc : c = numOf (C m) (aggs m) (st m) a := by
        have := good_agg hGm hcen hk0
        rw [e2] at this
        simpa using this
      have hkl' : k' < (C m).T.length := by rw [← hM.idl m hm]; exact (List.getElem?_eq_some_iff.mp e3).1
      have hd' := List.getElem?_eq_getElem hkl'
      have hat := cen_aggAt hM hA hm hcen hd'
      have hsub := (inAgg_sub hM hA hp hin hv hat).2
      obtain ⟨i, d'', i1, i2, i3⟩ := coarse_at hM hA hex hout hp hm hat (hsub (isVert_self hv))
      have hid : (C p).ind[id]? = some (some i) := (hM.ind p hp m hm k' id _ e3 hd' i).mpr ⟨d'', i1, i2⟩
      obtain ⟨y, y1, y2⟩ := (htgt x.1).1 m a _ hin hat
      have hy := isVert_inj hCM hp y2 (isVert'.mpr ⟨i, d'', i1, i2, rfl, i3⟩)
      refine ⟨m, a, i, id, c, hin, e4, by unfold Ctx.eqcOfID; rw [hid]; rfl, ?_, by rw [y1, hy, hc]⟩
      exact (offs_of (cntsOf C aggs out p) (C p).T.length).2.1 i (List.getElem?_eq_some_iff.mp i1).1.le
  -- an agglomerate whose members are written
  have hmemtgt : ∀ (a : ℕ) (g : Agg) (y : ℕ), (aggs p)[a]? = some g → y ∈ g.mems → tgt y = tgt g.center := by
    intro a g y hg hy
    have h1 := inAgg_own hM hA hp ((hA.v2a p hp y a).mpr ⟨g, hg, hy⟩)
    have h2 := inAgg_own hM hA hp ((hA.v2a p hp g.center a).mpr ⟨g, hg, hA.cen p hp g (List.mem_of_getElem? hg)⟩)
    obtain ⟨-, S, hS⟩ := inAgg_exists_at hM hA hp h1
    obtain ⟨x, x1, x2⟩ := (htgt y).1 p a S h1 hS
    obtain ⟨x', x1', x2'⟩ := (htgt g.center).1 p a S h2 hS
    rw [x1, x1', isVert_inj hCM hp x2 x2']
  obtain ⟨vmap, f1, f2, f3⟩ := finishVs_spec (C := C p) (aggs := aggs p) (v2agg := v2agg p) (disps := dispsOf C aggs out p) (tgt := tgt) (vm := vm)
    todo.flatten (by
      intro x hx
      obtain ⟨S, r, hv, -, h⟩ := hentry x hx
      have hlt := isVert_lt hM hp hv
      refine ⟨by rw [l2]; exact hlt, fun c id hxe => ?_⟩
      rcases h with ⟨h, -⟩ | ⟨m, a, k, id', c', h1, h2, h3, h4, h5⟩
      · rw [h] at hxe; simp at hxe
      · rw [hxe] at h2; cases h2
        have hl2 : x.1 < (v2agg p).length := by rw [hA.len p hp]; exact hlt
        refine ⟨k, _, _, h3, h4, h5, List.getElem?_eq_getElem hl2, fun a' ha' => ?_⟩
        obtain ⟨g, g1, g2⟩ := (hA.v2a p hp x.1 a').mp (by rw [List.getElem?_eq_getElem hl2, ha'])
        refine ⟨g, g1, fun hc y hy => ⟨by rw [l2]; exact mem_lt hM hA hp (List.mem_of_getElem? g1) hy, ?_⟩⟩
        rw [hmemtgt a' g y g1 hy, hc, h5])
  refine ⟨vmap, ?_, by rw [f2, l2], ?_⟩
  · unfold mapVertsAfter
    rw [show (C p).disp.getLastD 0 = (C p).nv from rfl, good_cnt0 hG, l1, Option.bind_some]
    dsimp only
    rw [t1, Option.bind_some]
    have : (0 :: partialSum 0 ((List.range (C p).T.length).map fun k => if k = 0 then (aggs p).countP (isLoc (C p)) else ((out p).getD k (0, [])).1)) =
        dispsOf C aggs out p := rfl
    rw [this, f1]
    rfl
  -- the map is the target
  have hmap : ∀ v < (C p).nv, vmap[v]? = some (tgt v) := by
    intro v hv
    by_cases hw : ∃ x ∈ todo.flatten, Writes (aggs p) (v2agg p) x v
    · exact (f3 v).1 hw
    · rw [(f3 v).2 hw]
      by_cases hin : ∃ m a, InAgg C v2agg p v m a
      · obtain ⟨m, a, hin⟩ := hin
        obtain ⟨S, r, w, h1, h2, h3, h4, h5⟩ := id hin
        by_cases hS : S = {p}
        · -- a local vertex
          subst hS
          rw [Finset.mem_singleton] at h2
          subst h2
          obtain rfl := isVert_inj hM hp h1 h4
          obtain ⟨g, g1, g2⟩ := (hA.v2a m hp v a).mp h5
          obtain ⟨k, d, r', i, c1, c2, c3, c4, -⟩ := cen_spec hM hA hp g1
          by_cases hk : k = 0
          · subst hk
            have heq : (C m).eqcV g.center = some 0 := by unfold cen at c1; rw [g1] at c1; exact c1
            rw [l3 a g v g1 heq g2]
            obtain ⟨x, x1, x2⟩ := (htgt v).1 m a _ hin ⟨g, r', g1, c3⟩
            obtain ⟨k', d', k1, k2, k3, k4⟩ := isVert'.mp x2
            have : k' = 0 := cls_eq (hM.tabs.ok m hp) k1 c2 k2
            subst this
            rw [x1, k3]
            simp [offOf, numOf, c1]
          · exfalso
            apply hw
            have hcv := (vertsOf_get hM hp c2).mpr c3
            have hkl := (List.getElem?_eq_some_iff.mp c2).1
            obtain ⟨m', l, row, r1, -, r3, r4, r5⟩ := out_row hM hA hex hout hp c2 hk
            -- the entry of the center
            have hm' : m' = m := by
              obtain ⟨d', e, q1, q2, q3, q4, q5⟩ := r1
              rw [c2] at q1; cases q1
              have := (hA.own m hp g (List.mem_of_getElem? g1) g.center (hA.cen m hp g (List.mem_of_getElem? g1)) _ _ _ _ c3 c3).2
              exact le_antisymm (q5 _ (mem_members.mpr (Or.inl rfl))) (this _ q4)
            subst hm'
            have hll : l = k := by
              obtain ⟨d', e, q1, q2, q3, q4, q5⟩ := r1
              rw [c2] at q1; cases q1
              exact cls_eq (hM.tabs.ok m' hp) q2 c2 q3
            subst hll
            have hrl : r' < row.length := by rw [r4]; exact (List.getElem?_eq_some_iff.mp hcv).1
            have hxin : (g.center, row[r']) ∈ todo.flatten := (t2 _).mpr ⟨l, r', _, by omega, hkl, r3, hcv, List.getElem?_eq_getElem hrl⟩
            refine ⟨_, hxin, ?_, Or.inr ⟨a, g, ?_, g1, rfl, g2⟩⟩
            · intro hnone
              obtain ⟨-, -, -, -, hz⟩ := hentry _ hxin
              rcases hz with ⟨-, hz⟩ | ⟨m2, a2, k2, id2, c2', z1, z2, -⟩
              · exact hz m' a (inAgg_own hM hA hp ((hA.v2a m' hp g.center a).mpr ⟨g, g1, hA.cen m' hp g (List.mem_of_getElem? g1)⟩))
              · rw [hnone] at z2; simp at z2
            · exact (hA.v2a m' hp g.center a).mpr ⟨g, g1, hA.cen m' hp g (List.mem_of_getElem? g1)⟩
        · -- a shared vertex
          exfalso
          apply hw
          obtain ⟨k, a', b, d, s1, s2, s3, s4, s5, s6⟩ := id h1
          have hk0 : k ≠ 0 := by
            intro h0
            have := (cls0_iff hM hA hp s1).mp h0
            rw [s2] at this
            exact hS this
          have hvr := (vertsOf_get hM hp s1).mpr (s2.symm ▸ h1)
          obtain ⟨m', l, row, r1, -, r3, r4, r5⟩ := out_row hM hA hex hout hp s1 hk0
          obtain ⟨d', e, q1, q2, q3, q4, q5⟩ := r1
          rw [s1] at q1; cases q1
          have hm' : m' = m := by
            rw [s2] at q4 q5
            exact le_antisymm (q5 _ h2) (h3 _ q4)
          subst hm'
          have hmlt := (vert_partner hM hp h1 h2).1
          have hwr := (vertsOf_get hM hmlt q2).mpr (by rw [q3, s2]; exact h4)
          have hrl : r < row.length := by rw [r4]; exact (List.getElem?_eq_some_iff.mp hwr).1
          have hxin : (v, row[r]) ∈ todo.flatten :=
            (t2 _).mpr ⟨k, r, _, by omega, (List.getElem?_eq_some_iff.mp s1).1, r3, hvr, List.getElem?_eq_getElem hrl⟩
          refine ⟨_, hxin, ?_, Or.inl rfl⟩
          intro hnone
          obtain ⟨-, -, -, -, hz⟩ := hentry _ hxin
          rcases hz with ⟨-, hz⟩ | ⟨m2, a2, k2, id2, c2', z1, z2, -⟩
          · exact hz m' a hin
          · rw [hnone] at z2; simp at z2
      · push Not at hin
        rw [(htgt v).2 hin, l4 v]
        · rw [List.getElem?_replicate, if_pos hv]
        · intro g hg _ hmem
          obtain ⟨a, ha⟩ := List.mem_iff_getElem?.mp hg
          exact hin p a (inAgg_own hM hA hp ((hA.v2a p hp v a).mpr ⟨g, ha, hmem⟩))
  refine ⟨fun v m a S hin hS => ?_, fun v hv hn => ?_⟩
  · obtain ⟨S0, r0, w, h1, -⟩ := id hin
    obtain ⟨x, x1, x2⟩ := (htgt v).1 m a S hin hS
    exact ⟨x, by rw [hmap v (isVert_lt hM hp h1), x1], x2⟩
  · rw [hmap v hv, (htgt v).2 hn]

end

/-- **C75.** Whatever the interleaving of the processes and the network: `MapVerts` does not block; at its end no message is left, no access was out of
range, and the coarse vertices are those of a mesh with one vertex per agglomerate, in the class of its center. -/
theorem mapVerts_correct {np : ℕ} {C : ℕ → Ctx} (hM : Mesh np C) {aggs : ℕ → List Agg} {v2agg : ℕ → List (Option ℕ)} (hA : AggsOK np C aggs v2agg)
    {st : ℕ → VSt} {rows : ℕ → List VRow} (hex : ∀ p < np, exData (C p) p (aggs p) (v2agg p) = some (st p, rows p))
    {n : ℕ} {s : St (Option (List VRow)) (List VRow)} (hr : DReach np (vertProg C) (fun p => some (rows p)) n s) :
    (¬ DFinal np (vertProg C) s → ∃ t, DStep np (vertProg C) s t) ∧
    (DFinal np (vertProg C) s → (∀ i, ∀ p < np, ∀ q < np, s.chan i p q = none) ∧
      ∃ disps vmap num, (∀ p < np, ((s.vec p).bind (mapVertsAfter (C p) (aggs p) (v2agg p) (st p))) = some (disps p, vmap p)) ∧
        CoarseVerts np C aggs v2agg disps vmap num) := by
  have hR := rows_of_tables hM.tabs
  unfold vertProg at hr ⊢
  refine ⟨scatter_no_deadlock hR rows _ hr, fun hf => ?_⟩
  have hfit : ∀ p < np, ∀ q < np, ∀ (k l : ℕ) (x y : VRow), members p ((C p).T.getD k []) = members q ((C q).T.getD l []) →
      (rows p)[k]? = some x → (rows q)[l]? = some y → (x.2.length == y.2.length) = true := by
    intro p hp q hq k l x y hkl hx hy
    have hkT : k < (C p).T.length := by rw [← (good hM hA hex hp).1]; exact (List.getElem?_eq_some_iff.mp hx).1
    have hlT : l < (C q).T.length := by rw [← (good hM hA hex hq).1]; exact (List.getElem?_eq_some_iff.mp hy).1
    have hk := List.getElem?_eq_getElem hkT
    have hl := List.getElem?_eq_getElem hlT
    rw [List.getD_eq_getElem?_getD, hk, List.getD_eq_getElem?_getD, hl, Option.getD_some, Option.getD_some] at hkl
    rw [beq_iff_eq]
    have h0 := cls_pos hM hp hq hk hl hkl
    by_cases hk0 : k = 0
    · have hl0 := h0.mp hk0
      subst hk0 hl0
      rw [(good hM hA hex hp).2.2.1 x hx, (good hM hA hex hq).2.2.1 y hy]
    · have hl0 : l ≠ 0 := fun h => hk0 (h0.mpr h)
      obtain ⟨r1, a1, a2, -⟩ := (good hM hA hex hp).2.1 k (by omega) hkT
      obtain ⟨r2, b1, b2, -⟩ := (good hM hA hex hq).2.1 l (by omega) hlT
      rw [hx] at a1; cases a1
      rw [hy] at b1; cases b1
      dsimp only
      rw [a2, b2]
      unfold vertsOf
      rw [List.length_range', List.length_range']
      have hd : ∀ {p : ℕ} (_ : p < np) (j : ℕ), j ≤ (C p).T.length → (C p).disp[j]? = some ((C p).disp.getD j 0) := by
        intro p hp j hj
        have : j < (C p).disp.length := by rw [hM.dl p hp]; omega
        rw [List.getD_eq_getElem?_getD, List.getElem?_eq_getElem this]; rfl
      exact hM.sizes p hp q hq k l _ _ _ _ _ _ hk hl hkl (hd hp k (by omega)) (hd hp (k + 1) (by omega)) (hd hq l (by omega)) (hd hq (l + 1) (by omega))
  obtain ⟨h1, h2⟩ := scatter_correct hR rows (fun x y => x.2.length == y.2.length) (fun p hp => (good hM hA hex hp).1) hfit hr hf
  refine ⟨h2, ?_⟩
  have key : ∀ p, ∃ o : List VRow, p < np → s.vec p = some o ∧
      Scattered (fun p => (C p).T) (fun p k => members p ((C p).T.getD k [])) rows p o := by
    intro p
    by_cases hp : p < np
    · obtain ⟨o, o1⟩ := h1 p hp
      exact ⟨o, fun _ => o1⟩
    · exact ⟨[], fun h => absurd h hp⟩
  choose out hout using key
  have hout' : ∀ p < np, Scattered (fun p => (C p).T) (fun p k => members p ((C p).T.getD k [])) rows p (out p) := fun p hp => (hout p hp).2
  have key2 : ∀ p, ∃ vmap : List (Option ℕ), p < np → mapVertsAfter (C p) (aggs p) (v2agg p) (st p) (out p) = some (dispsOf C aggs out p, vmap) ∧
      vmap.length = (C p).nv ∧ (∀ v m a S, InAgg C v2agg p v m a → AggAt C aggs m a S →
      ∃ x, vmap[v]? = some (some x) ∧ IsVert p (coarseCtx (C p) (dispsOf C aggs out p)) x S (numOf (C m) (aggs m) (st m) a)) ∧
    ∀ v < (C p).nv, (∀ m a, ¬ InAgg C v2agg p v m a) → vmap[v]? = some none := by
    intro p
    by_cases hp : p < np
    · obtain ⟨o, o1⟩ := after_spec hM hA hex hout' hp
      exact ⟨o, fun _ => o1⟩
    · exact ⟨[], fun h => absurd h hp⟩
  choose vmap hv using key2
  refine ⟨dispsOf C aggs out, vmap, fun m a => numOf (C m) (aggs m) (st m) a, fun p hp => ?_, ?_⟩
  · rw [(hout p hp).1, Option.bind_some, (hv p hp).1]
  · exact ⟨coarse_mesh hM hA hex hout', fun p hp => (hv p hp).2.1, fun p hp => (hv p hp).2.2.1, fun p hp => (hv p hp).2.2.2,
      fun p hp x S c h => coarse_pre hM hA hex hout' hp h, fun m hm m' hm' a a' S h h' he => coarse_uniq hM hA hex hout' hm hm' h h' he⟩

end NgsAMG.CMap
