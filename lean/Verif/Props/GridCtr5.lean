import Verif.Props.GridCtr4

/-! # C88: the contracted mesh on all masters -/

namespace NgsAMG.GCtr
open NgsAMG.EQC NgsAMG.BTM NgsAMG.Exch

variable {np : ℕ} {C : ℕ → Ctx} {groups : List (List ℕ)} {sOf : ℕ → Finset ℕ} {cnt : ℕ → ℕ}

/-- all identifiers -/
def allIds (np : ℕ) (C : ℕ → Ctx) : Finset ℕ := (Finset.range np).biUnion fun p => (C p).ids.toFinset

theorem mem_allIds {x : ℕ} : x ∈ allIds np C ↔ ∃ p < np, x ∈ (C p).ids := by
  unfold allIds; simp

/-- the number of vertices of a contracted class -/
def globCnt (np : ℕ) (C : ℕ → Ctx) (groups : List (List ℕ)) (sOf : ℕ → Finset ℕ) (cnt : ℕ → ℕ) (X : Finset ℕ) : ℕ :=
  ∑ y ∈ (allIds np C).filter (fun y => (sOf y).image (gOf groups) = X), cnt y

/-- the place of the vertices of the class with identifier `x` within the contracted class -/
def globOff (np : ℕ) (C : ℕ → Ctx) (groups : List (List ℕ)) (sOf : ℕ → Finset ℕ) (cnt : ℕ → ℕ) (x : ℕ) : ℕ :=
  ∑ y ∈ (allIds np C).filter (fun y => y < x ∧ (sOf y).image (gOf groups) = (sOf x).image (gOf groups)), cnt y

theorem globOff_lt {x x' : ℕ} (hx : x ∈ allIds np C) (h : x < x') (hi : (sOf x).image (gOf groups) = (sOf x').image (gOf groups)) :
    globOff np C groups sOf cnt x + cnt x ≤ globOff np C groups sOf cnt x' := by
  unfold globOff
  rw [← hi]
  have hnot : x ∉ (allIds np C).filter (fun y => y < x ∧ (sOf y).image (gOf groups) = (sOf x).image (gOf groups)) := by simp
  rw [Nat.add_comm, ← Finset.sum_insert hnot]
  refine Finset.sum_le_sum_of_subset ?_
  intro y hy
  rw [Finset.mem_insert] at hy
  rcases hy with rfl | hy
  · exact Finset.mem_filter.mpr ⟨hx, h, rfl⟩
  · obtain ⟨h1, h2, h3⟩ := Finset.mem_filter.mp hy
    exact Finset.mem_filter.mpr ⟨h1, by omega, h3⟩

theorem globOff_le {x : ℕ} (hx : x ∈ allIds np C) : globOff np C groups sOf cnt x + cnt x ≤ globCnt np C groups sOf cnt ((sOf x).image (gOf groups)) := by
  unfold globOff globCnt
  have hnot : x ∉ (allIds np C).filter (fun y => y < x ∧ (sOf y).image (gOf groups) = (sOf x).image (gOf groups)) := by simp
  rw [Nat.add_comm, ← Finset.sum_insert hnot]
  refine Finset.sum_le_sum_of_subset ?_
  intro y hy
  rw [Finset.mem_insert] at hy
  rcases hy with rfl | hy
  · exact Finset.mem_filter.mpr ⟨hx, rfl⟩
  · obtain ⟨h1, h2, h3⟩ := Finset.mem_filter.mp hy
    exact Finset.mem_filter.mpr ⟨h1, h3⟩

theorem globOff_inj {x x' r r' : ℕ} (hx : x ∈ allIds np C) (hx' : x' ∈ allIds np C) (hi : (sOf x).image (gOf groups) = (sOf x').image (gOf groups)) (hr : r < cnt x) (hr' : r' < cnt x')
    (h : globOff np C groups sOf cnt x + r = globOff np C groups sOf cnt x' + r') : x = x' ∧ r = r' := by
  rcases Nat.lt_trichotomy x x' with hlt | rfl | hlt
  · have := globOff_lt (cnt := cnt) hx hlt hi; omega
  · exact ⟨rfl, by omega⟩
  · have := globOff_lt (cnt := cnt) hx' hlt hi.symm; omega

/-! ### the sums on a master -/

section
variable (hG : GroupsOK np groups) (hN : Names np C sOf cnt) {gi : ℕ} {g : List ℕ} (hgi : groups[gi]? = some g) {R : CEqc} (hR : CEqcOK groups C sOf gi g R)
include hG hN hgi hR

theorem gids_lt {x : ℕ} (hx : x ∈ R.gids) : x ∈ allIds np C := by
  obtain ⟨p, hp, h⟩ := (hR.gidsM x).mp hx
  exact mem_allIds.mpr ⟨p, hG.mem.mpr ⟨gi, g, hgi, hp⟩, h⟩

/-- the master knows the classes that are shared by its group -/
theorem mem_gids {x : ℕ} : x ∈ R.gids ↔ x ∈ allIds np C ∧ gi ∈ (sOf x).image (gOf groups) := by
  constructor
  · intro hx
    refine ⟨gids_lt hG hN hgi hR hx, ?_⟩
    obtain ⟨p, hp, h⟩ := (hR.gidsM x).mp hx
    exact Finset.mem_image.mpr ⟨p, (hN.mem p (hG.mem.mpr ⟨gi, g, hgi, hp⟩) x h).1, hG.gOf_eq hgi hp⟩
  · rintro ⟨hx, hm⟩
    obtain ⟨q, hq, hxq⟩ := mem_allIds.mp hx
    obtain ⟨p, hp, hpg⟩ := Finset.mem_image.mp hm
    obtain ⟨h1, h2⟩ := (hN.mem q hq x hxq).2 p hp
    obtain ⟨-, g', h3, h4⟩ := hG.gOf_lt h1
    rw [hpg, hgi] at h3; cases h3
    exact (hR.gidsM x).mpr ⟨p, h4, h2⟩

theorem tab_valid {c : ℕ} {d : List ℕ} (hc : R.tab[c]? = some d) : Valid groups.length gi d := by
  have : d ∈ R.tab := List.mem_of_getElem? hc
  rw [hR.tab, (sortEqcs_perm _).mem_iff] at this
  exact hR.fam.2 d this

theorem tab_nodup : R.tab.Nodup := by rw [hR.tab]; exact (sortEqcs_perm _).nodup_iff.mpr hR.fam.1

theorem mcOf_eq {x c : ℕ} {d : List ℕ} (hx : x ∈ R.gids) (hc : R.tab[c]? = some d) : mcOf R x = c ↔ (sOf x).image (gOf groups) = members gi d := by
  obtain ⟨d', h1, h2⟩ := mcOf_lt hR hx
  constructor
  · rintro rfl
    rw [hc] at h1; cases h1
    exact h2.symm
  · intro h
    have : d' = d := members_inj (tab_valid hG hN hgi hR h1) (tab_valid hG hN hgi hR hc) (h2.trans h)
    subst this
    obtain ⟨a1, a2⟩ := List.getElem?_eq_some_iff.mp h1
    obtain ⟨b1, b2⟩ := List.getElem?_eq_some_iff.mp hc
    exact (tab_nodup hG hN hgi hR).getElem_inj_iff.mp (a2.trans b2.symm)

theorem cnt_eq {c : ℕ} {d : List ℕ} (hc : R.tab[c]? = some d) :
    ((R.gids.filter fun x => mcOf R x = c).map cnt).sum = globCnt np C groups sOf cnt (members gi d) := by
  have hn : R.gids.Nodup := hR.gidsS.imp (fun h => Nat.ne_of_lt h)
  rw [← List.sum_toFinset _ (hn.filter _)]
  unfold globCnt
  refine Finset.sum_congr ?_ fun _ _ => rfl
  ext x
  rw [List.mem_toFinset, List.mem_filter, Finset.mem_filter, decide_eq_true_eq]
  constructor
  · rintro ⟨h1, h2⟩
    exact ⟨gids_lt hG hN hgi hR h1, (mcOf_eq hG hN hgi hR h1 hc).mp h2⟩
  · rintro ⟨h1, h2⟩
    have h3 : x ∈ R.gids := (mem_gids hG hN hgi hR).mpr ⟨h1, by rw [h2, mem_members]; exact Or.inl rfl⟩
    exact ⟨h3, (mcOf_eq hG hN hgi hR h3 hc).mpr h2⟩

omit hG hN hgi hR in
theorem take_eq_filter (l : List ℕ) (hl : SL l) (m x : ℕ) (h : l[m]? = some x) : l.take m = l.filter fun y => y < x := by
  induction l generalizing m with
  | nil => simp at h
  | cons a l ih =>
    obtain ⟨h1, h2⟩ := List.pairwise_cons.mp hl
    cases m with
    | zero =>
      simp only [List.getElem?_cons_zero, Option.some.injEq] at h
      subst h
      rw [List.take_zero, List.filter_cons, if_neg (by simp)]
      symm
      rw [List.filter_eq_nil_iff]
      intro y hy
      have := h1 y hy
      simp only [decide_eq_true_eq]; omega
    | succ m =>
      simp only [List.getElem?_cons_succ] at h
      have := h1 x (List.mem_of_getElem? h)
      rw [List.take_succ_cons, ih h2 m h, List.filter_cons, if_pos (by simpa using this)]

theorem off_eq {x : ℕ} (hx : x ∈ R.gids) :
    (((R.gids.filter fun y => y < x).filter fun y => mcOf R y = mcOf R x).map cnt).sum = globOff np C groups sOf cnt x := by
  have hn : R.gids.Nodup := hR.gidsS.imp (fun h => Nat.ne_of_lt h)
  obtain ⟨d, hd1, hd2⟩ := mcOf_lt hR hx
  rw [← List.sum_toFinset _ ((hn.filter _).filter _)]
  unfold globOff
  refine Finset.sum_congr ?_ fun _ _ => rfl
  ext y
  rw [List.mem_toFinset, List.mem_filter, List.mem_filter, Finset.mem_filter, decide_eq_true_eq, decide_eq_true_eq]
  constructor
  · rintro ⟨⟨h1, h2⟩, h3⟩
    exact ⟨gids_lt hG hN hgi hR h1, h2, by rw [← hd2]; exact (mcOf_eq hG hN hgi hR h1 hd1).mp h3⟩
  · rintro ⟨h1, h2, h3⟩
    have h4 : y ∈ R.gids := (mem_gids hG hN hgi hR).mpr ⟨h1, by rw [h3]; exact ((mem_gids hG hN hgi hR).mp hx).2⟩
    exact ⟨⟨h4, h2⟩, (mcOf_eq hG hN hgi hR h4 hd1).mpr (by rw [hd2]; exact h3)⟩

end

/-- what the master of group `gi` has: offsets of the contracted classes and maps -/
structure VertsOK (np : ℕ) (C : ℕ → Ctx) (groups : List (List ℕ)) (sOf : ℕ → Finset ℕ) (cnt : ℕ → ℕ) (gi : ℕ) (g : List ℕ) (R : CEqc) (D : List ℕ × List (List (Option ℕ))) : Prop where
  dl : D.1.length = R.tab.length + 1
  d0 : D.1[0]? = some 0
  offs : Offsets D.1
  size : ∀ (c : ℕ) (d : List ℕ), R.tab[c]? = some d → ∃ a, D.1[c]? = some a ∧ D.1[c + 1]? = some (a + globCnt np C groups sOf cnt (members gi d))
  len : D.2.length = g.length
  map : ∀ (kp p : ℕ), g[kp]? = some p → ∃ v, D.2[kp]? = some v ∧ v.length = (C p).nv ∧ ∀ (j x a l : ℕ), (C p).ids[j]? = some x → (C p).disp[j]? = some a → l < cnt x →
    ∃ b, D.1[mcOf R x]? = some b ∧ v[a + l]? = some (some (b + globOff np C groups sOf cnt x + l))

theorem disp_get (l : List ℕ) (c : ℕ) (hc : c ≤ l.length) : (0 :: partialSum 0 l)[c]? = some (l.take c).sum := by
  cases c with
  | zero => simp
  | succ c => rw [List.getElem?_cons_succ, partialSum_get 0 l c (by omega), Nat.zero_add]

theorem buildVerts_spec (hM : VMesh np C) (hG : GroupsOK np groups) (hN : Names np C sOf cnt) {gi : ℕ} {g : List ℕ} (hgi : groups[gi]? = some g) {R : CEqc} (hR : CEqcOK groups C sOf gi g R) :
    ∃ D, buildVerts R (grp C g) = some D ∧ VertsOK np C groups sOf cnt gi g R D := by
  obtain ⟨s, h1, h2, h3, h4⟩ := countPass_spec hM hG hN hgi hR
  have hn : R.gids.Nodup := hR.gidsS.imp (fun h => Nat.ne_of_lt h)
  have hdl : (0 :: partialSum 0 s.1).length = R.tab.length + 1 := by rw [List.length_cons, partialSum_length, h2]
  have hmc : ∀ (m x : ℕ), R.gids[m]? = some x → R.mc[m]? = some (mcOf R x) := by
    intro m x hx
    unfold mcOf
    rw [idxOf_get hn hx, List.getD_eq_getElem?_getD, List.getElem?_eq_getElem (by rw [hR.mcL]; exact (List.getElem?_eq_some_iff.mp hx).1)]; rfl
  have hzip : R.mc.zip s.2 = R.gids.map fun x => (mcOf R x, cnt x) := by
    rw [h3]
    apply List.ext_getElem?
    intro m
    by_cases hm : m < R.gids.length
    · have hx : R.gids[m]? = some (R.gids[m]) := List.getElem?_eq_getElem hm
      rw [List.getElem?_map, hx, Option.map_some, List.getElem?_zip_eq_some]
      exact ⟨hmc m _ hx, by rw [List.getElem?_map, hx]; rfl⟩
    · rw [List.getElem?_eq_none (by simp [hR.mcL]; omega), List.getElem?_eq_none (by simpa using hm)]
  obtain ⟨firsti, f1, f2, f3⟩ := firstiPass_spec (0 :: partialSum 0 s.1) (R.mc.zip s.2) (List.replicate R.tab.length 0) (by
    rw [hzip]
    intro e he
    obtain ⟨x, hx, rfl⟩ := List.mem_map.mp he
    obtain ⟨d, hd, -⟩ := mcOf_lt hR hx
    have := (List.getElem?_eq_some_iff.mp hd).1
    rw [hdl]
    exact ⟨by simpa using this, by dsimp only; omega⟩)
  have hfl : firsti.length = R.gids.length := by rw [f2, hzip, List.length_map]
  have hfi : ∀ x ∈ R.gids, ∃ b, (0 :: partialSum 0 s.1)[mcOf R x]? = some b ∧ firsti.getD (R.gids.idxOf x) 0 = b + globOff np C groups sOf cnt x := by
    intro x hx
    have hlt := List.idxOf_lt_length_of_mem hx
    have hxi : R.gids[R.gids.idxOf x]? = some x := by rw [List.getElem?_eq_getElem hlt, List.getElem_idxOf]
    obtain ⟨d, hd, -⟩ := mcOf_lt hR hx
    have hcl := (List.getElem?_eq_some_iff.mp hd).1
    have := f3 (R.gids.idxOf x) (mcOf R x, cnt x) (by rw [hzip, List.getElem?_map, hxi]; rfl)
    refine ⟨_, List.getElem?_eq_getElem (by rw [hdl]; omega), ?_⟩
    rw [List.getD_eq_getElem?_getD, this, Option.getD_some]
    dsimp only
    have e1 : (List.replicate R.tab.length 0).getD (mcOf R x) 0 = 0 := by
      rw [List.getD_eq_getElem?_getD, List.getElem?_replicate, if_pos hcl]; rfl
    have e2 : (0 :: partialSum 0 s.1).getD (mcOf R x) 0 = (0 :: partialSum 0 s.1)[mcOf R x]'(by rw [hdl]; omega) := by
      rw [List.getD_eq_getElem?_getD, List.getElem?_eq_getElem (by rw [hdl]; omega)]; rfl
    rw [e1, e2, hzip, ← List.map_take, List.filter_map, List.map_map, take_eq_filter _ hR.gidsS _ _ hxi]
    rw [← off_eq hG hN hgi hR hx]
    rfl
  obtain ⟨vs, v1, v2, v3⟩ := mapM_get (fun (m : Mem × List ℕ) => vertMap firsti m.1.2 m.2) (g.map fun p => (((p, C p) : Mem), (C p).ids.map R.gids.idxOf)) (by
    intro m hm
    obtain ⟨p, hp, rfl⟩ := List.mem_map.mp hm
    obtain ⟨v, hv, -⟩ := vertMap_spec hM hN (hG.mem.mpr ⟨gi, g, hgi, hp⟩) (gids := R.gids) (firsti := firsti) (fun x hx => by
      rw [hfl]; exact List.idxOf_lt_length_of_mem ((hR.gidsM x).mpr ⟨p, hp, hx⟩))
    exact ⟨v, hv⟩)
  have hzom : (grp C g).zip R.om = g.map fun p => (((p, C p) : Mem), (C p).ids.map R.gids.idxOf) := by
    rw [hR.om]; unfold grp
    generalize R.gids = G
    induction g with
    | nil => rfl
    | cons a g ih => simp [List.zip_map']
  refine ⟨(0 :: partialSum 0 s.1, vs), ?_, ⟨hdl, rfl, ?_, ?_, by rw [v2, List.length_map], ?_⟩⟩
  · unfold buildVerts
    rw [h1, Option.bind_some]
    dsimp only
    rw [f1, Option.bind_some, hzom, v1]; rfl
  · -- offsets
    unfold Offsets
    rw [List.pairwise_iff_getElem]
    intro i j hi hj hij
    have e1 := disp_get s.1 i (by rw [hdl] at hi; omega)
    have e2 := disp_get s.1 j (by rw [hdl] at hj; omega)
    rw [List.getElem?_eq_getElem hi, Option.some.injEq] at e1
    rw [List.getElem?_eq_getElem hj, Option.some.injEq] at e2
    show (0 :: partialSum 0 s.1)[i] ≤ (0 :: partialSum 0 s.1)[j]
    rw [e1, e2]
    have : s.1.take i = (s.1.take j).take i := by rw [List.take_take, min_eq_left (by omega)]
    rw [this]
    exact List.Sublist.sum_le_sum (List.take_sublist _ _) (fun _ _ => Nat.zero_le _)
  · intro c d hd
    have hcl := (List.getElem?_eq_some_iff.mp hd).1
    refine ⟨_, disp_get s.1 c (by omega), ?_⟩
    rw [disp_get s.1 (c + 1) (by omega), ← cnt_eq hG hN hgi hR hd]
    have hv := h4 c hcl
    have hlt : c < s.1.length := by omega
    rw [List.getElem?_eq_getElem hlt, Option.some.injEq] at hv
    rw [List.take_succ_eq_append_getElem hlt, List.sum_append, hv]
    simp
  · intro kp p hp
    have hpn : p < np := hG.mem.mpr ⟨gi, g, hgi, List.mem_of_getElem? hp⟩
    obtain ⟨v, g1, g2⟩ := v3 kp ((p, C p), (C p).ids.map R.gids.idxOf) (by rw [List.getElem?_map, hp]; rfl)
    obtain ⟨v', w1, w2, w3⟩ := vertMap_spec hM hN hpn (gids := R.gids) (firsti := firsti) (fun x hx => by
      rw [hfl]; exact List.idxOf_lt_length_of_mem ((hR.gidsM x).mpr ⟨p, List.mem_of_getElem? hp, hx⟩))
    dsimp only at g2
    rw [w1] at g2; cases g2
    refine ⟨v, g1, w2, ?_⟩
    intro j x a l hx ha hl
    obtain ⟨b, hb, hfb⟩ := hfi x ((hR.gidsM x).mpr ⟨p, List.mem_of_getElem? hp, List.mem_of_getElem? hx⟩)
    exact ⟨b, hb, by rw [w3 j x a l hx ha hl, hfb]⟩

end NgsAMG.GCtr
