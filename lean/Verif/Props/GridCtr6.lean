import Verif.Props.GridCtr5
import Verif.Props.GridCtrV

/-!
# C88: the contracted mesh
-/

namespace NgsAMG.GCtr
open NgsAMG.EQC NgsAMG.BTM NgsAMG.Exch

/-- specification: `CC` is the mesh `C` of the processes `0, ..., np-1` as a mesh of the groups, and `vm p` the map of the vertices of `p` to those of its group -/
structure Contracted (np : ℕ) (C : ℕ → Ctx) (groups : List (List ℕ)) (CC : ℕ → Ctx) (vm : ℕ → List (Option ℕ)) : Prop where
  /-- tables of classes, identifiers and offsets of all groups fit together -/
  mesh : VMesh groups.length CC
  /-- the classes of a group are the sets of groups that the classes of its members meet -/
  classes : ∀ (gi : ℕ) (g : List ℕ), groups[gi]? = some g → ∀ X, Has gi (CC gi).T X ↔ ∃ p ∈ g, ∃ S, Has p (C p).T S ∧ X = S.image (gOf groups)
  len : ∀ p < np, (vm p).length = (C p).nv
  /-- every vertex is mapped to a vertex of the group in the class of the groups that have the vertex -/
  vert : ∀ p < np, ∀ (v r : ℕ) (S : Finset ℕ), IsVert p (C p) v S r → ∃ c r', (vm p)[v]? = some (some c) ∧ IsVert (gOf groups p) (CC (gOf groups p)) c (S.image (gOf groups)) r'
  /-- vertices are identified across the groups exactly if they were identified across the processes -/
  same : ∀ p < np, ∀ q < np, ∀ (v w r s c e a b : ℕ) (S T X Y : Finset ℕ), IsVert p (C p) v S r → IsVert q (C q) w T s → (vm p)[v]? = some (some c) → (vm q)[w]? = some (some e) →
    IsVert (gOf groups p) (CC (gOf groups p)) c X a → IsVert (gOf groups q) (CC (gOf groups q)) e Y b → ((X = Y ∧ a = b) ↔ (S = T ∧ r = s))
  /-- there are no other vertices -/
  onto : ∀ (gi : ℕ) (g : List ℕ), groups[gi]? = some g → ∀ c < (CC gi).nv, ∃ p ∈ g, ∃ v : ℕ, (vm p)[v]? = some (some c)

/-- a position in the concatenation of blocks lies in one of them -/
theorem split_sum (cnt : ℕ → ℕ) (F : Finset ℕ) : ∀ r, r < ∑ y ∈ F, cnt y → ∃ x ∈ F, (∑ y ∈ F.filter (· < x), cnt y) ≤ r ∧ r < (∑ y ∈ F.filter (· < x), cnt y) + cnt x := by
  induction F using Finset.induction_on_max with
  | empty => intro r hr; simp at hr
  | insert a F ha ih =>
    intro r hr
    have hna : a ∉ F := fun h => lt_irrefl _ (ha a h)
    rw [Finset.sum_insert hna] at hr
    by_cases h : r < ∑ y ∈ F, cnt y
    · obtain ⟨x, hx, h1, h2⟩ := ih r h
      have hxa := ha x hx
      have e : (insert a F).filter (· < x) = F.filter (· < x) := by
        rw [Finset.filter_insert, if_neg (by omega)]
      exact ⟨x, Finset.mem_insert_of_mem hx, by rw [e]; exact h1, by rw [e]; exact h2⟩
    · have e : (insert a F).filter (· < a) = F := by
        rw [Finset.filter_insert, if_neg (lt_irrefl _)]
        exact Finset.filter_true_of_mem ha
      exact ⟨a, Finset.mem_insert_self _ _, by rw [e]; omega, by rw [e]; omega⟩

variable {np : ℕ} {C : ℕ → Ctx} {groups : List (List ℕ)} {sOf : ℕ → Finset ℕ} {cnt : ℕ → ℕ}

/-- the group of a process and its place there -/
def vmOf (groups : List (List ℕ)) (D : ℕ → List ℕ × List (List (Option ℕ))) (p : ℕ) : List (Option ℕ) :=
  (D (gOf groups p)).2.getD ((groups.getD (gOf groups p) []).idxOf p) []

section
variable (hM : VMesh np C) (hG : GroupsOK np groups) (hN : Names np C sOf cnt) {R : ℕ → CEqc} (hR : ∀ (gi : ℕ) (g : List ℕ), groups[gi]? = some g → CEqcOK groups C sOf gi g (R gi))
include hG hN hR

theorem fam_consistent : Consistent groups.length fun gi => (R gi).fam := by
  intro gi hgi d hd gj hj
  have hi := List.getElem?_eq_getElem hgi
  have Ri := hR gi _ hi
  obtain ⟨x, hx, hm⟩ := Ri.famM d hd
  have hgj : gj < groups.length := (Ri.fam.2 d hd).range gj hj
  have hj' := List.getElem?_eq_getElem hgj
  have Rj := hR gj _ hj'
  have hx' : x ∈ (R gj).gids := by
    rw [mem_gids hG hN hj' Rj]
    refine ⟨((mem_gids hG hN hi Ri).mp hx).1, ?_⟩
    rw [← hm]; exact mem_members.mpr (Or.inr hj)
  obtain ⟨e, he, hme⟩ := mcOf_lt Rj hx'
  refine ⟨e, ?_, hme.trans hm.symm⟩
  have := List.mem_of_getElem? he
  rw [Rj.tab] at this
  exact (sortEqcs_perm _).mem_iff.mp this

include hM
/-- the classes of a group -/
theorem classes_eq {gi : ℕ} {g : List ℕ} (hgi : groups[gi]? = some g) (X : Finset ℕ) :
    Has gi (R gi).tab X ↔ ∃ p ∈ g, ∃ S, Has p (C p).T S ∧ X = S.image (gOf groups) := by
  have Ri := hR gi g hgi
  constructor
  · rintro ⟨d, hd, rfl⟩
    rw [Ri.tab] at hd
    obtain ⟨x, hx, hm⟩ := Ri.famM d ((sortEqcs_perm _).mem_iff.mp hd)
    obtain ⟨p, hp, hxp⟩ := (Ri.gidsM x).mp hx
    obtain ⟨j, hj⟩ := List.getElem?_of_mem hxp
    obtain ⟨e, he, hs⟩ := hN.rowI p (hG.mem.mpr ⟨gi, g, hgi, hp⟩) j x hj
    exact ⟨p, hp, _, ⟨e, List.mem_of_getElem? he, rfl⟩, by rw [hm, hs]⟩
  · rintro ⟨p, hp, S, ⟨d, hd, rfl⟩, rfl⟩
    obtain ⟨j, hj⟩ := List.getElem?_of_mem hd
    obtain ⟨x, a, hx, hs, -⟩ := hN.row p (hG.mem.mpr ⟨gi, g, hgi, hp⟩) j d hj
    obtain ⟨e, he, hme⟩ := mcOf_lt Ri ((Ri.gidsM x).mpr ⟨p, hp, List.mem_of_getElem? hx⟩)
    exact ⟨e, List.mem_of_getElem? he, by rw [hme, hs]⟩

/-- **The contracted mesh**: with identifiers and the table of identifiers of the contracted classes -/
theorem contracted_of {D : ℕ → List ℕ × List (List (Option ℕ))} (hD : ∀ (gi : ℕ) (g : List ℕ), groups[gi]? = some g → VertsOK np C groups sOf cnt gi g (R gi) (D gi))
    {s : St LSt (List ℕ)} (hs : GoodIds groups.length (fun gi => (R gi).tab) s) :
    ∃ (ids : ℕ → List ℕ) (ind : ℕ → List (Option ℕ)), (∀ gi < groups.length, (s.vec gi).ids = some (ids gi) ∧
        idToInd (idTableSize groups.length gi (s.vec gi).nb (R gi).tab) (ids gi) = some (ind gi)) ∧
      Contracted np C groups (fun gi => ⟨(R gi).tab, ids gi, ind gi, (D gi).1⟩) (vmOf groups D) := by
  obtain ⟨ids, i1, i2, i3⟩ := hs.ids
  choose! ind i4 i5 using i3
  have hget : ∀ gi < groups.length, groups[gi]? = some groups[gi]! := fun gi h => by
    rw [List.getElem?_eq_getElem h, List.getElem!_eq_getElem?_getD, List.getElem?_eq_getElem h]; rfl
  have hmesh : VMesh groups.length fun gi => (⟨(R gi).tab, ids gi, ind gi, (D gi).1⟩ : Ctx) := by
    refine ⟨?_, ?_, fun gi h => (i1 gi h).2, i2, fun p hp q hq j b e h1 h2 => (i5 p hp q hq j b e h1 h2).2, fun gi h => (hD gi _ (hget gi h)).dl, fun gi h => (hD gi _ (hget gi h)).d0,
      fun gi h => (hD gi _ (hget gi h)).offs, ?_⟩
    · have ht := tables_plain (np := groups.length) (V := fun gi => (R gi).fam) (fun gi h => (hR gi _ (hget gi h)).fam) (fam_consistent hG hN hR)
      refine ⟨fun gi h => ?_, fun gi h => ?_, ?_⟩
      · have := ht.ok gi h
        dsimp only at this ⊢; rwa [← (hR gi _ (hget gi h)).tab] at this
      · have := ht.sorted gi h
        dsimp only at this ⊢; rwa [← (hR gi _ (hget gi h)).tab] at this
      · intro gi h d hd gj hj
        have hd' : d ∈ sortEqcs (R gi).fam := by rw [← (hR gi _ (hget gi h)).tab]; exact hd
        obtain ⟨e, he, hm⟩ := ht.cons gi h d hd' gj hj
        have hgj : gj < groups.length := ((ht.ok gi h).2 d hd').range gj hj
        refine ⟨e, ?_, hm⟩
        show e ∈ (R gj).tab
        rw [(hR gj _ (hget gj hgj)).tab]; exact he
    · -- the local class is the first one
      intro gi h hne
      have hgi := hget gi h
      dsimp only at hne ⊢
      obtain ⟨d, hd⟩ := List.exists_mem_of_ne_nil _ hne
      obtain ⟨p, hp, S, ⟨e, he, -⟩, -⟩ := (classes_eq hM hG hN hR hgi _).mp ⟨d, hd, rfl⟩
      have hpn : p < np := hG.mem.mpr ⟨gi, _, hgi, hp⟩
      have h0 := hM.loc p hpn (List.ne_nil_of_mem he)
      obtain ⟨c, hc, hm⟩ := (classes_eq hM hG hN hR hgi ((members p []).image (gOf groups))).mpr ⟨p, hp, _, ⟨[], List.mem_of_getElem? h0, rfl⟩, rfl⟩
      obtain ⟨k, hk⟩ := List.getElem?_of_mem hc
      have hv := tab_valid hG hN hgi (hR gi _ hgi) hk
      have hc0 : c = [] := by
        refine members_inj hv ⟨List.Pairwise.nil, by simp, by simp⟩ ?_
        rw [hm]
        simp [members, hG.gOf_eq hgi hp]
      subst hc0
      have hpos : 0 < (R gi).tab.length := List.length_pos_of_mem hc
      obtain ⟨hk1, hk2⟩ := List.getElem?_eq_some_iff.mp hk
      rcases Nat.eq_zero_or_pos k with rfl | hk0
      · exact hk
      · have hsr := List.pairwise_iff_getElem.mp (hs.sorted gi h) 0 k hpos hk1 hk0
        have e2 : (R gi).tab[k] = [] := hk2
        simp only [e2] at hsr
        unfold eqLt at hsr
        split_ifs at hsr with c1 c2
        · simp at c2
        · simp only [List.length_nil, not_lt, Nat.le_zero, List.length_eq_zero_iff] at c1
          rw [List.getElem?_eq_getElem hpos, c1]
    · intro gi h gj h' i j a b a' b' d e hd he hm ha hb ha' hb'
      obtain ⟨a1, u1, u2⟩ := (hD gi _ (hget gi h)).size i d hd
      obtain ⟨a2, w1, w2⟩ := (hD gj _ (hget gj h')).size j e he
      dsimp only at ha hb ha' hb'
      rw [u1] at ha; cases ha
      rw [u2] at hb; cases hb
      rw [w1] at ha'; cases ha'
      rw [w2] at hb'; cases hb'
      rw [hm]; omega
  -- the image of a vertex
  have hvm : ∀ p < np, ∃ v, vmOf groups D p = v ∧ v.length = (C p).nv ∧ ∀ (j x a l : ℕ), (C p).ids[j]? = some x → (C p).disp[j]? = some a → l < cnt x →
      ∃ b, (D (gOf groups p)).1[mcOf (R (gOf groups p)) x]? = some b ∧ v[a + l]? = some (some (b + globOff np C groups sOf cnt x + l)) := by
    intro p hp
    obtain ⟨g1, g, g2, g3⟩ := hG.gOf_lt hp
    obtain ⟨v, w1, w2, w3⟩ := (hD _ g g2).map (g.idxOf p) p (List.getElem?_idxOf g3)
    refine ⟨v, ?_, w2, w3⟩
    unfold vmOf
    rw [List.getD_eq_getElem?_getD, List.getD_eq_getElem?_getD, g2, Option.getD_some, w1]; rfl
  have key : ∀ p < np, ∀ (v r : ℕ) (S : Finset ℕ), IsVert p (C p) v S r → ∃ x c, x ∈ (C p).ids ∧ sOf x = S ∧ r < cnt x ∧ (vmOf groups D p)[v]? = some (some c) ∧
      IsVert (gOf groups p) (⟨(R (gOf groups p)).tab, ids (gOf groups p), ind (gOf groups p), (D (gOf groups p)).1⟩ : Ctx) c (S.image (gOf groups)) (globOff np C groups sOf cnt x + r) := by
    rintro p hp v r S ⟨k, a, b, d, h1, h2, h3, h4, rfl, h6⟩
    obtain ⟨x, a', hx, hs', ha', hb'⟩ := hN.row p hp k d h1
    rw [h3] at ha'; cases ha'
    rw [h4] at hb'; cases hb'
    obtain ⟨w, rfl, w2, w3⟩ := hvm p hp
    obtain ⟨b0, hb0, hv⟩ := w3 k x a r hx h3 (by omega)
    obtain ⟨-, g, g2, g3⟩ := hG.gOf_lt hp
    have hxg : x ∈ (R (gOf groups p)).gids := ((hR _ g g2).gidsM x).mpr ⟨p, g3, List.mem_of_getElem? hx⟩
    obtain ⟨e, he, hme⟩ := mcOf_lt (hR _ g g2) hxg
    obtain ⟨a1, u1, u2⟩ := (hD _ g g2).size _ e he
    rw [hb0] at u1; cases u1
    have hle := globOff_le (np := np) (C := C) (groups := groups) (sOf := sOf) (cnt := cnt) (x := x) (mem_allIds.mpr ⟨p, hp, List.mem_of_getElem? hx⟩)
    refine ⟨x, _, List.mem_of_getElem? hx, hs'.trans h2, by omega, hv, _, b0, _, e, he, ?_, hb0, u2, by omega, ?_⟩
    · rw [hme, hs', h2]
    · rw [hme]; omega
  refine ⟨ids, ind, fun gi h => ⟨(i1 gi h).1, i4 gi h⟩, hmesh, fun gi g hgi X => classes_eq hM hG hN hR hgi X, fun p hp => ?_, fun p hp v r S hv => ?_, ?_, ?_⟩
  · obtain ⟨w, rfl, w2, -⟩ := hvm p hp
    exact w2
  · obtain ⟨x, c, -, -, -, h4, h5⟩ := key p hp v r S hv
    exact ⟨c, _, h4, h5⟩
  · intro p hp q hq v w r s c e a b S T X Y hv hw hc he hX hY
    obtain ⟨x, c', h1, h2, h3, h4, h5⟩ := key p hp v r S hv
    obtain ⟨y, e', k1, k2, k3, k4, k5⟩ := key q hq w s T hw
    rw [hc] at h4; cases h4
    rw [he] at k4; cases k4
    have u := VMesh.isVert_unique hmesh (hG.gOf_lt hp).1 h5 hX
    have u' := VMesh.isVert_unique hmesh (hG.gOf_lt hq).1 k5 hY
    obtain ⟨rfl, rfl⟩ := u
    obtain ⟨rfl, rfl⟩ := u'
    have hx := mem_allIds.mpr ⟨p, hp, h1⟩
    have hy := mem_allIds.mpr ⟨q, hq, k1⟩
    constructor
    · rintro ⟨e1, e2⟩
      subst h2; subst k2
      obtain ⟨rfl, rfl⟩ := globOff_inj hx hy e1 h3 k3 e2
      exact ⟨rfl, rfl⟩
    · rintro ⟨rfl, rfl⟩
      refine ⟨rfl, ?_⟩
      rw [hN.inj p hp q hq x h1 y k1 (h2.trans k2.symm)]
  · intro gi g hgi c hc
    have hlt : gi < groups.length := (List.getElem?_eq_some_iff.mp hgi).1
    obtain ⟨k, a, b, d, g1, g2, g3, g4, g5⟩ := VMesh.vert_block hmesh hlt hc
    dsimp only at g1 g2 g3
    obtain ⟨a', u1, u2⟩ := (hD gi g hgi).size k d g1
    rw [g2] at u1; cases u1
    rw [g3] at u2; cases u2
    obtain ⟨x, hx, x1, x2⟩ := split_sum cnt ((allIds np C).filter fun y => (sOf y).image (gOf groups) = members gi d) (c - a) (by
      have : globCnt np C groups sOf cnt (members gi d) = ∑ y ∈ (allIds np C).filter (fun y => (sOf y).image (gOf groups) = members gi d), cnt y := rfl
      omega)
    rw [Finset.mem_filter] at hx
    have ho : (∑ y ∈ ((allIds np C).filter fun y => (sOf y).image (gOf groups) = members gi d).filter (· < x), cnt y) = globOff np C groups sOf cnt x := by
      unfold globOff
      rw [Finset.filter_filter, hx.2]
      congr 1
      exact Finset.filter_congr fun y _ => And.comm
    rw [ho] at x1 x2
    have hxg : x ∈ (R gi).gids := (mem_gids hG hN hgi (hR gi g hgi)).mpr ⟨hx.1, by rw [hx.2]; exact mem_members.mpr (Or.inl rfl)⟩
    obtain ⟨p, hp, hxp⟩ := ((hR gi g hgi).gidsM x).mp hxg
    have hpn : p < np := hG.mem.mpr ⟨gi, g, hgi, hp⟩
    obtain ⟨j, hj⟩ := List.getElem?_of_mem hxp
    obtain ⟨a1, ha1, -⟩ := eVerts_eq hN hpn hj
    obtain ⟨w, rfl, -, w3⟩ := hvm p hpn
    obtain ⟨b0, hb0, hv⟩ := w3 j x a1 (c - a - globOff np C groups sOf cnt x) hj ha1 (by omega)
    refine ⟨p, hp, _, hv.trans ?_⟩
    rw [hG.gOf_eq hgi hp, (mcOf_eq hG hN hgi (hR gi g hgi) hxg g1).mpr hx.2, g2] at hb0
    cases hb0
    congr 2; omega

end

/-- **Contraction of a mesh.** For every mesh on `np` processes and all groups: every master builds its contracted table of classes and its contracted vertices; in every execution of the set-up of the
contracted hierarchy the masters do not get stuck and finish, and what they have then is the contracted mesh. -/
theorem contract_correct (hM : VMesh np C) (hG : GroupsOK np groups) :
    ∃ (R : ℕ → CEqc) (D : ℕ → List ℕ × List (List (Option ℕ))),
      (∀ (gi : ℕ) (g : List ℕ), groups[gi]? = some g → buildCEQCH groups gi (g.map fun p => (p, C p)) = some (R gi) ∧ buildVerts (R gi) (g.map fun p => (p, C p)) = some (D gi) ∧ (D gi).2.length = g.length) ∧
      ∀ v : ℕ → LSt, (∀ gi < groups.length, (v gi).fam = some (R gi).tab) →
        (∃ n s, Reach groups.length (plainProg groups.length fun gi => (R gi).fam) v n s ∧ Final groups.length (plainProg groups.length fun gi => (R gi).fam) s) ∧
        ∀ (n : ℕ) (s : St LSt (List ℕ)), Reach groups.length (plainProg groups.length fun gi => (R gi).fam) v n s →
          n ≤ 4 * groups.length ∧ (¬ Final groups.length (plainProg groups.length fun gi => (R gi).fam) s → ∃ t, Step groups.length (plainProg groups.length fun gi => (R gi).fam) s t) ∧
          (Final groups.length (plainProg groups.length fun gi => (R gi).fam) s → ∃ (ids : ℕ → List ℕ) (ind : ℕ → List (Option ℕ)),
            (∀ gi < groups.length, (s.vec gi).ids = some (ids gi) ∧ idToInd (idTableSize groups.length gi (s.vec gi).nb (R gi).tab) (ids gi) = some (ind gi)) ∧
            Contracted np C groups (fun gi => ⟨(R gi).tab, ids gi, ind gi, (D gi).1⟩) (vmOf groups D)) := by
  obtain ⟨sOf, cnt, hN⟩ := names_exist hM
  have h1 : ∀ gi : ℕ, ∃ R, ∀ g : List ℕ, groups[gi]? = some g → buildCEQCH groups gi (grp C g) = some R ∧ CEqcOK groups C sOf gi g R := by
    intro gi
    rcases hg : groups[gi]? with _ | g
    · exact ⟨⟨[], [], [], [], [], [], []⟩, fun g h => by cases h⟩
    · obtain ⟨R, h⟩ := buildCEQCH_spec hM hG hN hg
      exact ⟨R, fun g' h' => by cases h'; exact h⟩
  choose R hR using h1
  have h2 : ∀ gi : ℕ, ∃ D, ∀ g : List ℕ, groups[gi]? = some g → buildVerts (R gi) (grp C g) = some D ∧ VertsOK np C groups sOf cnt gi g (R gi) D := by
    intro gi
    rcases hg : groups[gi]? with _ | g
    · exact ⟨([], []), fun g h => by cases h⟩
    · obtain ⟨D, h⟩ := buildVerts_spec hM hG hN hg (hR gi g hg).2
      exact ⟨D, fun g' h' => by cases h'; exact h⟩
  choose D hD using h2
  have hR' := fun gi g h => (hR gi g h).2
  refine ⟨R, D, fun gi g h => ⟨(hR gi g h).1, (hD gi g h).1, (hD gi g h).2.len⟩, fun v hv => ?_⟩
  have hget : ∀ gi < groups.length, groups[gi]? = some groups[gi]! := fun gi h => by
    rw [List.getElem?_eq_getElem h, List.getElem!_eq_getElem?_getD, List.getElem?_eq_getElem h]; rfl
  have htab : ∀ gi < groups.length, (R gi).tab = sortEqcs (R gi).fam := fun gi h => (hR' gi _ (hget gi h)).tab
  refine ⟨exists_final (id_matched (tables_plain (fun gi h => (hR' gi _ (hget gi h)).fam) (fam_consistent hG hN hR'))) v, fun n s hr => ?_⟩
  obtain ⟨a1, a2, a3⟩ := setup_plain (V := fun gi => (R gi).fam) (fun gi h => (hR' gi _ (hget gi h)).fam) (fam_consistent hG hN hR') v (fun gi h => by rw [hv gi h, htab gi h]) hr
  refine ⟨a1, a2, fun hf => ?_⟩
  refine contracted_of hM hG hN hR' (fun gi g h => (hD gi g h).2) ?_
  have hg := a3 hf
  exact ⟨fun gi h => by rw [hg.fam gi h, htab gi h], fun gi h => by rw [htab gi h]; exact hg.sorted gi h, fun gi h gj h' => by rw [hg.nb gi h gj h', htab gj h'], by
    obtain ⟨ids, i1, i2, i3⟩ := hg.ids
    refine ⟨ids, fun gi h => by rw [htab gi h]; exact i1 gi h, ?_, ?_⟩
    · intro p hp q hq i j a b d e; rw [htab p hp, htab q hq]; exact i2 p hp q hq i j a b d e
    · intro p hp
      obtain ⟨tab, t1, t2⟩ := i3 p hp
      refine ⟨tab, by rw [htab p hp]; exact t1, fun q hq j b e h1 h2 => ?_⟩
      rw [htab q hq] at h2
      rw [htab p hp]
      exact t2 q hq j b e h1 h2⟩

end NgsAMG.GCtr
