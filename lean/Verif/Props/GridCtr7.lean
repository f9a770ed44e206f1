import Verif.Props.GridCtr6
import Verif.Props.CtrMap3

/-!
# C90: unknowns of a level, and those of the contracted level
-/

namespace NgsAMG.GCtr
open NgsAMG.EQC NgsAMG.BTM NgsAMG.DCC

/-- specification: `P` has an unknown for every vertex; two of them are the same unknown exactly if the vertices are the same vertex of the same class -/
structure NamesVerts (np : ℕ) (C : ℕ → Ctx) (P : PD) : Prop where
  npE : P.np = np
  ndof : ∀ p < np, P.ndof p = (C p).nv
  glob : ∀ p < np, ∀ q < np, ∀ v < (C p).nv, ∀ w < (C q).nv, P.glob p v = P.glob q w ↔ ∃ S r, IsVert p (C p) v S r ∧ IsVert q (C q) w S r

variable {np : ℕ} {C : ℕ → Ctx} {P : PD}

theorem isVert_nv (hM : VMesh np C) {p v r : ℕ} {S : Finset ℕ} (hp : p < np) (h : IsVert p (C p) v S r) : v < (C p).nv := by
  obtain ⟨k, a, b, d, h1, -, -, h4, -, h6⟩ := h
  exact lt_of_lt_of_le h6 (VMesh.block_nv hM hp (List.getElem?_eq_some_iff.mp h1).1 h4)

/-- there is such a `P` -/
theorem namesVerts_exists (hM : VMesh np C) : ∃ P, NamesVerts np C P := by
  have h1 : ∀ p v : ℕ, ∃ n : Finset ℕ × ℕ, p < np → v < (C p).nv → IsVert p (C p) v n.1 n.2 := by
    intro p v
    by_cases h : p < np ∧ v < (C p).nv
    · obtain ⟨S, r, hv, -⟩ := VMesh.isVert_exists hM h.1 h.2
      exact ⟨(S, r), fun _ _ => hv⟩
    · exact ⟨(∅, 0), fun h1 h2 => (h ⟨h1, h2⟩).elim⟩
  choose nm hnm using h1
  refine ⟨⟨np, fun p => (C p).nv, fun p v => Encodable.encode ((nm p v).1, (nm p v).2)⟩, rfl, fun _ _ => rfl, ?_⟩
  intro p hp q hq v hv w hw
  dsimp only
  rw [Encodable.encode_inj]
  constructor
  · intro h
    refine ⟨_, _, hnm p v hp hv, ?_⟩
    rw [Prod.mk.injEq] at h
    rw [h.1, h.2]; exact hnm q w hq hw
  · rintro ⟨S, r, h1, h2⟩
    obtain ⟨a1, a2⟩ := VMesh.isVert_unique hM hp (hnm p v hp hv) h1
    obtain ⟨b1, b2⟩ := VMesh.isVert_unique hM hq (hnm q w hq hw) h2
    rw [a1, a2, b1, b2]

section
variable (hM : VMesh np C) (hP : NamesVerts np C P)
include hM hP

theorem namesVerts_wf : P.WF := by
  refine ⟨?_, ?_⟩
  · intro p hp d hd e he h
    rw [hP.npE] at hp
    rw [hP.ndof p hp] at hd he
    obtain ⟨S, r, h1, h2⟩ := (hP.glob p hp p hp d hd e he).mp h
    exact VMesh.isVert_inj hM hp h1 h2
  · intro p hp q hq d hd d' hd' e he e' he' h h' hlt
    rw [hP.npE] at hp hq
    rw [hP.ndof p hp] at hd hd'
    rw [hP.ndof q hq] at he he'
    obtain ⟨S, r, h1, h2⟩ := (hP.glob p hp q hq d hd e he).mp h
    obtain ⟨S', r', h1', h2'⟩ := (hP.glob p hp q hq d' hd' e' he').mp h'
    exact (VMesh.vert_lt hM hp hq h1 h1' h2 h2').mp hlt

theorem shares_iff {p v r q : ℕ} {S : Finset ℕ} (hp : p < np) (h : IsVert p (C p) v S r) (hq : q < np) : P.shares q (P.glob p v) = true ↔ q ∈ S := by
  have hv := isVert_nv hM hp h
  unfold PD.shares
  rw [List.any_eq_true]
  constructor
  · rintro ⟨w, hw, he⟩
    rw [List.mem_range, hP.ndof q hq] at hw
    obtain ⟨S', r', h1, h2⟩ := (hP.glob q hq p hp w hw v hv).mp (beq_iff_eq.mp he)
    obtain ⟨rfl, rfl⟩ := VMesh.isVert_unique hM hp h h2
    exact isVert_self h1
  · intro hS
    obtain ⟨-, w, hw⟩ := VMesh.vert_partner hM hp h hS
    have hwn := isVert_nv hM hq hw
    refine ⟨w, by rw [List.mem_range, hP.ndof q hq]; exact hwn, beq_iff_eq.mpr ?_⟩
    exact (hP.glob q hq p hp w hwn v hv).mpr ⟨S, r, hw, h⟩

/-- the distant processes of an unknown are those of the class of the vertex -/
theorem dps_eq {p v k a b : ℕ} {d : List ℕ} (hp : p < np) (hk : (C p).T[k]? = some d) (ha : (C p).disp[k]? = some a) (hb : (C p).disp[k + 1]? = some b) (h1 : a ≤ v) (h2 : v < b) :
    P.dps p v = d := by
  have hv : IsVert p (C p) v (members p d) (v - a) := ⟨k, a, b, d, hk, rfl, ha, hb, by omega, h2⟩
  have hd := (hM.tabs.ok p hp).2 d (List.mem_of_getElem? hk)
  unfold PD.dps
  refine sl_ext ?_ hd.sorted ?_
  · exact List.pairwise_lt_range.filter _
  · intro q
    rw [List.mem_filter, List.mem_range, hP.npE]
    constructor
    · rintro ⟨hq, h⟩
      rw [Bool.and_eq_true, bne_iff_ne, shares_iff hM hP hp hv hq, mem_members] at h
      rcases h.2 with h3 | h3
      · exact (h.1 h3).elim
      · exact h3
    · intro hq
      have hqn := hd.range q hq
      refine ⟨hqn, ?_⟩
      rw [Bool.and_eq_true, bne_iff_ne, shares_iff hM hP hp hv hqn, mem_members]
      exact ⟨fun e => hd.notSelf (e ▸ hq), Or.inr hq⟩

end

theorem appendRun_spec (d : List ℕ) (a n : ℕ) (t : List (List ℕ)) (h : a + n ≤ t.length) :
    ∃ t', (List.range n).foldlM (fun (t : List (List ℕ)) l => if a + l < t.length then some (t.modify (a + l) (· ++ d)) else none) t = some t' ∧ t'.length = t.length ∧
      ∀ i, t'[i]? = if a ≤ i ∧ i < a + n then (t[i]?).map (· ++ d) else t[i]? := by
  induction n with
  | zero => exact ⟨t, rfl, rfl, fun i => by rw [if_neg (by omega)]⟩
  | succ n ih =>
    obtain ⟨t', h1, h2, h3⟩ := ih (by omega)
    refine ⟨t'.modify (a + n) (· ++ d), ?_, by rw [List.length_modify, h2], ?_⟩
    · rw [List.range_succ, List.foldlM_append, h1]
      simp only [List.foldlM_cons, List.foldlM_nil, Option.bind_eq_bind, Option.bind_some, Option.pure_def]
      rw [if_pos (by omega)]; rfl
    · intro i
      rw [List.getElem?_modify, h3 i]
      by_cases hi : i = a + n
      · subst hi
        rw [if_neg (by omega), if_pos (by omega)]
        simp
      · by_cases hj : a ≤ i ∧ i < a + n
        · rw [if_pos hj, if_pos (by omega)]
          cases t[i]? <;> simp [Ne.symm hi]
        · rw [if_neg hj, if_neg (by omega)]
          cases t[i]? <;> simp [Ne.symm hi]

/-- **Unknowns of a level.** For every mesh: the table of distant processes that `BuildUDofs` hands to the parallel unknowns is defined, and an unknown is shared with exactly the processes that have the same vertex. -/
theorem udofs_correct (hM : VMesh np C) (hP : NamesVerts np C P) {p : ℕ} (hp : p < np) :
    ∃ t, buildUDofs (C p) = some t ∧ t.length = (C p).nv ∧ ∀ v < (C p).nv, t[v]? = some (P.dps p v) := by
  have hdl := hM.dl p hp
  have hT : (C p).T.zipIdx = (List.range (C p).T.length).map fun k => ((C p).T.getD k [], k) := by
    apply List.ext_getElem?
    intro i
    by_cases hi : i < (C p).T.length
    · simp [hi]
    · simp [hi]
  have hlast : (C p).disp[(C p).T.length]? = some (C p).nv := by
    have : (C p).T.length < (C p).disp.length := by omega
    rw [List.getElem?_eq_getElem this]
    congr 1
    exact (getLastD_of_get hdl (List.getElem?_eq_getElem this)).symm
  obtain ⟨t, h1, h2, h3⟩ := foldlM_range_map (fun (t : List (List ℕ)) (e : List ℕ × ℕ) => (eVerts (C p) e.2).bind fun vs =>
      (List.range vs.2).foldlM (fun (t : List (List ℕ)) l => if vs.1 + l < t.length then some (t.modify (vs.1 + l) (· ++ e.1)) else none) t) _ _ _ hT
    (fun k t => t.length = (C p).nv ∧ ∀ a, (C p).disp[k]? = some a → ∀ v < (C p).nv, t[v]? = some (if v < a then P.dps p v else [])) (by
      rintro k hk t ⟨ht, hv⟩
      have hk0 : k < (C p).disp.length := by omega
      have hk1 : k + 1 < (C p).disp.length := by omega
      have ha := List.getElem?_eq_getElem hk0
      have hb := List.getElem?_eq_getElem hk1
      have hab := offsets_le (hM.offs p hp) (show k ≤ k + 1 by omega) ha hb
      have hbn := offsets_le (hM.offs p hp) (show k + 1 ≤ (C p).T.length by omega) hb hlast
      have hd := List.getElem?_eq_getElem hk
      have he : eVerts (C p) k = some ((C p).disp[k], (C p).disp[k + 1] - (C p).disp[k]) := by
        unfold eVerts; rw [ha, hb]; rfl
      obtain ⟨t', g1, g2, g3⟩ := appendRun_spec ((C p).T.getD k []) (C p).disp[k] ((C p).disp[k + 1] - (C p).disp[k]) t (by omega)
      refine ⟨t', by dsimp only; rw [he, Option.bind_some]; exact g1, g2.trans ht, ?_⟩
      intro b hb' v hvn
      rw [hb] at hb'; cases hb'
      rw [g3 v, hv _ ha v hvn]
      by_cases c1 : v < (C p).disp[k]
      · rw [if_neg (by omega), if_pos c1, if_pos (by omega)]
      · by_cases c2 : v < (C p).disp[k + 1]
        · rw [if_pos (by omega), if_neg c1, if_pos c2, Option.map_some, List.nil_append, dps_eq hM hP hp hd ha hb (by omega) c2, List.getD_eq_getElem?_getD, hd]; rfl
        · rw [if_neg (by omega), if_neg c1, if_neg c2])
    (List.replicate ((C p).disp.getLastD 0) []) (by
      refine ⟨by rw [List.length_replicate]; rfl, ?_⟩
      intro a ha v hv
      rw [hM.d0 p hp] at ha; cases ha
      rw [if_neg (by omega)]
      have hv' : v < (C p).disp.getLastD 0 := hv
      rw [List.getElem?_replicate, if_pos hv'])
  refine ⟨t, h1, h2, fun v hv => ?_⟩
  rw [h3 _ hlast v hv, if_pos hv]

/-- **... and matched correctly.** Two processes list the unknowns they share in the same order (which is how the messages of NGSolve's `ParallelDofs` are matched). -/
theorem udofs_order (hM : VMesh np C) (hP : NamesVerts np C P) {p q : ℕ} (hp : p < np) (hq : q < np) :
    ((List.range (P.ndof p)).filter fun v => (P.dps p v).contains q).map (P.glob p) = ((List.range (P.ndof q)).filter fun w => (P.dps q w).contains p).map (P.glob q) := by
  by_cases hpq : p = q
  · subst hpq; rfl
  have hW := namesVerts_wf hM hP
  have hmem : ∀ {p q v : ℕ}, p < np → q < np → p ≠ q → (v ∈ (List.range (P.ndof p)).filter (fun v => (P.dps p v).contains q) ↔ v < P.ndof p ∧ P.shares q (P.glob p v) = true) := by
    intro p q v hp hq hne
    rw [List.mem_filter, List.mem_range, List.contains_iff_mem, PD.dps, List.mem_filter, List.mem_range, hP.npE, Bool.and_eq_true, bne_iff_ne]
    exact ⟨fun h => ⟨h.1, h.2.2.2⟩, fun h => ⟨h.1, hq, hne.symm, h.2⟩⟩
  -- the second list is the image of the first one
  have himg : (List.range (P.ndof q)).filter (fun w => (P.dps q w).contains p) = ((List.range (P.ndof p)).filter fun v => (P.dps p v).contains q).map fun v => P.loc q (P.glob p v) := by
    refine sl_ext (List.pairwise_lt_range.filter _) ?_ ?_
    · unfold SL
      rw [List.pairwise_map]
      refine (List.pairwise_lt_range.filter _).imp_of_mem ?_
      intro a b ha hb hab
      rw [hmem hp hq hpq] at ha hb
      have la := loc_spec ha.2
      have lb := loc_spec hb.2
      exact hW.mono p (by rw [hP.npE]; exact hp) q (by rw [hP.npE]; exact hq) a ha.1 b hb.1 _ la.1 _ lb.1 la.2.symm lb.2.symm hab
    · intro w
      rw [hmem hq hp (Ne.symm hpq), List.mem_map]
      constructor
      · rintro ⟨h1, h2⟩
        have l := loc_spec h2
        refine ⟨P.loc p (P.glob q w), (hmem hp hq hpq).mpr ⟨l.1, by rw [l.2]; exact shares_glob h1⟩, ?_⟩
        rw [l.2]
        exact loc_glob hW (by rw [hP.npE]; exact hq) h1
      · rintro ⟨v, hv, rfl⟩
        rw [hmem hp hq hpq] at hv
        have l := loc_spec hv.2
        exact ⟨l.1, by rw [l.2]; exact shares_glob hv.1⟩
  rw [himg, List.map_map]
  refine List.map_congr_left fun v hv => ?_
  rw [hmem hp hq hpq] at hv
  exact (loc_spec hv.2).2.symm

/-- **Unknowns of the contracted level.** The maps of unknowns built from the contracted mesh satisfy what the contraction of vectors and matrices (C85-C87) needs: with one unknown per contracted vertex, all
maps preserve the identity of unknowns across processes, and every contracted unknown is the image of one of a member. -/
theorem ctr_dofs_correct {groups : List (List ℕ)} {CC : ℕ → Ctx} {D : ℕ → List ℕ × List (List (Option ℕ))} (hM : VMesh np C) (hP : NamesVerts np C P) (hG : GroupsOK np groups)
    (hD : ∀ (gi : ℕ) (g : List ℕ), groups[gi]? = some g → (D gi).2.length = g.length) (hC : Contracted np C groups CC (vmOf groups D)) :
    ∃ (maps : ℕ → List (List ℕ)) (Pc : PD), (∀ gi < groups.length, dofMaps (D gi).2 = some (maps gi)) ∧ P.WF ∧ Pc.WF ∧ NamesVerts groups.length CC Pc ∧
      Ctr.CtrOK ⟨groups.length, fun gi => groups.getD gi [], maps⟩ P Pc := by
  -- the maps
  have hvm : ∀ p < np, ∀ v < (C p).nv, ∃ c, (vmOf groups D p)[v]? = some (some c) := by
    intro p hp v hv
    obtain ⟨S, r, h1, -⟩ := VMesh.isVert_exists hM hp hv
    obtain ⟨c, _, h2, -⟩ := hC.vert p hp v r S h1
    exact ⟨c, h2⟩
  have hget : ∀ gi < groups.length, groups[gi]? = some (groups.getD gi []) := fun gi h => by
    rw [List.getD_eq_getElem?_getD, List.getElem?_eq_getElem h]; rfl
  have hlt : ∀ {gi p : ℕ} {g : List ℕ}, groups[gi]? = some g → p ∈ g → p < np := fun h h' => hG.mem.mpr ⟨_, _, h, h'⟩
  have hrow : ∀ gi < groups.length, ∀ (k p : ℕ), (groups.getD gi [])[k]? = some p → (D gi).2[k]? = some (vmOf groups D p) := by
    intro gi h k p hk
    have hp := List.mem_of_getElem? hk
    have hn : (groups.getD gi []).Nodup := (hG.sorted _ (List.mem_of_getElem? (hget gi h))).imp fun h => Nat.ne_of_lt h
    have hi : (groups.getD gi []).idxOf p = k := idxOf_get hn hk
    have hk' : k < (D gi).2.length := by rw [hD gi _ (hget gi h)]; exact (List.getElem?_eq_some_iff.mp hk).1
    unfold vmOf
    rw [hG.gOf_eq (hget gi h) hp, hi, List.getD_eq_getElem?_getD, List.getElem?_eq_getElem hk']; rfl
  have hmaps : ∀ gi, ∃ m, gi < groups.length → dofMaps (D gi).2 = some m ∧ m.length = (groups.getD gi []).length ∧
      ∀ (k p : ℕ), (groups.getD gi [])[k]? = some p → ∃ row : List ℕ, m[k]? = some row ∧ row.length = (C p).nv ∧ ∀ v c : ℕ, row[v]? = some c ↔ (vmOf groups D p)[v]? = some (some c) := by
    intro gi
    by_cases h : gi < groups.length
    swap
    · exact ⟨[], fun h' => (h h').elim⟩
    obtain ⟨m, m1, m2, m3⟩ := mapM_get (fun (row : List (Option ℕ)) => row.mapM id) (D gi).2 (by
      intro row hr
      obtain ⟨k, hk⟩ := List.getElem?_of_mem hr
      have hk' : k < (groups.getD gi []).length := by rw [← hD gi _ (hget gi h)]; exact (List.getElem?_eq_some_iff.mp hk).1
      have hp := List.getElem?_eq_getElem hk'
      rw [hrow gi h k _ hp] at hk
      cases hk
      obtain ⟨r, r1, -⟩ := mapM_get (id : Option ℕ → Option ℕ) (vmOf groups D (groups.getD gi [])[k]) (by
        intro a ha
        obtain ⟨v, hv⟩ := List.getElem?_of_mem ha
        have hpn := hlt (hget gi h) (List.mem_of_getElem? hp)
        obtain ⟨c, hc⟩ := hvm _ hpn v (by rw [← hC.len _ hpn]; exact (List.getElem?_eq_some_iff.mp hv).1)
        rw [hv] at hc; cases hc
        exact ⟨c, rfl⟩)
      exact ⟨r, r1⟩)
    refine ⟨m, fun _ => ⟨m1, by rw [m2, hD gi _ (hget gi h)], ?_⟩⟩
    intro k p hk
    have hpn := hlt (hget gi h) (List.mem_of_getElem? hk)
    obtain ⟨row, r1, r2⟩ := m3 k _ (hrow gi h k p hk)
    obtain ⟨r, s1, s2, s3⟩ := mapM_get (id : Option ℕ → Option ℕ) (vmOf groups D p) (by
        intro a ha
        obtain ⟨v, hv⟩ := List.getElem?_of_mem ha
        obtain ⟨c, hc⟩ := hvm _ hpn v (by rw [← hC.len _ hpn]; exact (List.getElem?_eq_some_iff.mp hv).1)
        rw [hv] at hc; cases hc
        exact ⟨c, rfl⟩)
    rw [s1] at r2; cases r2
    refine ⟨row, r1, by rw [s2, hC.len p hpn], ?_⟩
    intro v c
    constructor
    · intro hv
      have hv' : v < (vmOf groups D p).length := by rw [← s2]; exact (List.getElem?_eq_some_iff.mp hv).1
      obtain ⟨b, b1, b2⟩ := s3 v _ (List.getElem?_eq_getElem hv')
      rw [hv] at b1; cases b1
      rw [List.getElem?_eq_getElem hv']
      exact congrArg some b2
    · intro hv
      obtain ⟨b, b1, b2⟩ := s3 v _ hv
      cases b2
      exact b1
  choose maps hmaps using hmaps
  -- the global names
  have hname : ∀ gi c : ℕ, ∃ n : ℕ, gi < groups.length → c < (CC gi).nv → ∃ p ∈ groups.getD gi [], ∃ v < (C p).nv, (vmOf groups D p)[v]? = some (some c) ∧ n = P.glob p v := by
    intro gi c
    by_cases h : gi < groups.length ∧ c < (CC gi).nv
    · obtain ⟨p, hp, v, hv⟩ := hC.onto gi _ (hget gi h.1) c h.2
      have hpn := hlt (hget gi h.1) hp
      exact ⟨P.glob p v, fun _ _ => ⟨p, hp, v, by rw [← hC.len p hpn]; exact (List.getElem?_eq_some_iff.mp hv).1, hv, rfl⟩⟩
    · exact ⟨0, fun h1 h2 => (h ⟨h1, h2⟩).elim⟩
  choose nm hnm using hname
  -- the contracted names
  have hNc : NamesVerts groups.length CC ⟨groups.length, fun gi => (CC gi).nv, nm⟩ := by
    refine ⟨rfl, fun _ _ => rfl, ?_⟩
    intro gi hgi gj hgj c hc e he
    dsimp only
    obtain ⟨p, hp, v, hv, hvc, h1⟩ := hnm gi c hgi hc
    obtain ⟨q, hq, w, hw, hwe, h2⟩ := hnm gj e hgj he
    have hpn := hlt (hget gi hgi) hp
    have hqn := hlt (hget gj hgj) hq
    have ep := hG.gOf_eq (hget gi hgi) hp
    have eq := hG.gOf_eq (hget gj hgj) hq
    obtain ⟨S, r, i1, -⟩ := VMesh.isVert_exists hM hpn hv
    obtain ⟨T, s, i2, -⟩ := VMesh.isVert_exists hM hqn hw
    rw [h1, h2, hP.glob p hpn q hqn v hv w hw]
    constructor
    · rintro ⟨S', r', j1, j2⟩
      obtain ⟨e1, e2⟩ := VMesh.isVert_unique hM hpn i1 j1
      obtain ⟨e3, e4⟩ := VMesh.isVert_unique hM hqn i2 j2
      rw [e1, e2] at i1
      rw [e3, e4] at i2
      obtain ⟨c', a, k1, k2⟩ := hC.vert p hpn v r' S' i1
      obtain ⟨e', b, l1, l2⟩ := hC.vert q hqn w r' S' i2
      rw [hvc] at k1; cases k1
      rw [hwe] at l1; cases l1
      obtain ⟨-, hab⟩ := (hC.same p hpn q hqn v w r' r' c e a b S' S' _ _ i1 i2 hvc hwe k2 l2).mpr ⟨rfl, rfl⟩
      subst hab
      rw [ep] at k2; rw [eq] at l2
      exact ⟨_, a, k2, l2⟩
    · rintro ⟨X, a, k2, l2⟩
      rw [← ep] at k2; rw [← eq] at l2
      obtain ⟨rfl, rfl⟩ := (hC.same p hpn q hqn v w r s c e a a S T X X i1 i2 hvc hwe k2 l2).mp ⟨rfl, rfl⟩
      exact ⟨S, r, i1, i2⟩
  refine ⟨maps, ⟨groups.length, fun gi => (CC gi).nv, nm⟩, fun gi h => (hmaps gi h).1, namesVerts_wf hM hP, namesVerts_wf hC.mesh hNc, hNc, rfl, ?_, ?_, ?_, ?_, ?_, ?_⟩
  · rw [hP.npE]
    have : (List.range groups.length).flatMap (fun gi => groups.getD gi []) = groups.flatten := by
      rw [List.flatMap_def]
      congr 1
      apply List.ext_getElem?
      intro i
      by_cases hi : i < groups.length
      · simp [hi]
      · simp [hi]
    show ((List.range groups.length).flatMap fun gi => groups.getD gi []).Perm _
    rw [this]; exact hG.perm
  · intro gi h
    exact hG.ne _ (List.mem_of_getElem? (hget gi h))
  · intro gi h
    exact (hmaps gi h).2.1
  · intro gi h k p hk
    obtain ⟨row, r1, r2, -⟩ := (hmaps gi h).2.2 k p hk
    show ((maps gi)[k]?.getD []).length = _
    rw [r1, hP.ndof p (hlt (hget gi h) (List.mem_of_getElem? hk))]; exact r2
  · intro gi h k p hk j c hc
    obtain ⟨row, r1, r2, r3⟩ := (hmaps gi h).2.2 k p hk
    have hc' : row[j]? = some c := by
      have : ((maps gi)[k]?.getD [])[j]? = some c := hc
      rwa [r1] at this
    have hp := List.mem_of_getElem? hk
    have hpn := hlt (hget gi h) hp
    have ep := hG.gOf_eq (hget gi h) hp
    have hj : j < (C p).nv := by rw [← r2]; exact (List.getElem?_eq_some_iff.mp hc').1
    have hvc := (r3 j c).mp hc'
    obtain ⟨S, r, i1, -⟩ := VMesh.isVert_exists hM hpn hj
    obtain ⟨c', a, k1, k2⟩ := hC.vert p hpn j r S i1
    rw [hvc] at k1; cases k1
    have hcn : c < (CC gi).nv := by
      rw [ep] at k2; exact isVert_nv hC.mesh h k2
    refine ⟨hcn, ?_⟩
    show nm gi c = _
    obtain ⟨q, hq, w, hw, hwe, h2⟩ := hnm gi c h hcn
    have hqn := hlt (hget gi h) hq
    have eq := hG.gOf_eq (hget gi h) hq
    obtain ⟨T, s, i2, -⟩ := VMesh.isVert_exists hM hqn hw
    rw [h2, hP.glob q hqn p hpn w hw j hj]
    obtain ⟨rfl, rfl⟩ := (hC.same p hpn q hqn j w r s c c a a S T _ _ i1 i2 hvc hwe k2 (by rw [eq, ← ep]; exact k2)).mp ⟨rfl, rfl⟩
    exact ⟨S, r, i2, i1⟩
  · intro gi h c hc
    obtain ⟨p, hp, v, hv⟩ := hC.onto gi _ (hget gi h) c hc
    obtain ⟨k, hk⟩ := List.getElem?_of_mem hp
    obtain ⟨row, r1, r2, r3⟩ := (hmaps gi h).2.2 k p hk
    refine ⟨k, p, v, hk, ?_⟩
    show ((maps gi)[k]?.getD [])[v]? = some c
    rw [r1]; exact (r3 v c).mpr hv

end NgsAMG.GCtr
