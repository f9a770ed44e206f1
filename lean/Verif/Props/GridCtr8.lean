import Verif.Props.GridCtr7
import Verif.Props.CoarseMap6

/-!
# C90: data of vertices of the contracted mesh; C88: contraction does not keep the table of classes closed under intersection
-/

namespace NgsAMG.GCtr
open NgsAMG.EQC NgsAMG.BTM NgsAMG.DCC Finset

section
variable {E : Type} [AddCommMonoid E]

theorem itVals_len (cum : Bool) (map : List ℕ) (buf : List E) (hb : map.length ≤ buf.length) (out : List E) (hm : ∀ c ∈ map, c < out.length) :
    ∃ o, itVals cum map buf out = some o ∧ o.length = out.length ∧
      (cum = false → ∀ (c : ℕ) (x : E), out[c]? = some x → o[c]? = some (x + ∑ j ∈ range map.length, if (map[j]?).getD 0 = c then (buf[j]?).getD 0 else 0)) ∧
      (cum = true → ∀ (c : ℕ) (x F : E), out[c]? = some x → (∀ j : ℕ, map[j]? = some c → buf[j]? = some F) → o[c]? = some (if c ∈ map then F else x)) := by
  unfold itVals
  induction map using List.reverseRecOn with
  | nil => exact ⟨out, rfl, rfl, fun _ c x hx => by simpa using hx, fun _ c x F hx _ => by simpa using hx⟩
  | append_singleton map a ih =>
    rw [List.length_append, List.length_singleton] at hb
    obtain ⟨o, h1, h2, h3, h4⟩ := ih (by omega) (fun c hc => hm c (List.mem_append_left _ hc))
    have ha : a < o.length := by rw [h2]; exact hm a (by simp)
    have hk : map.length < buf.length := by omega
    have hbk := List.getElem?_eq_getElem hk
    refine ⟨o.modify a fun x => if cum then buf[map.length] else x + buf[map.length], ?_, by rw [List.length_modify, h2], ?_, ?_⟩
    · rw [List.zipIdx_append, List.foldlM_append, h1]
      simp only [List.zipIdx_cons, List.zipIdx_nil, List.foldlM_cons, List.foldlM_nil, Option.bind_eq_bind, Option.bind_some, Option.pure_def, Nat.zero_add]
      rw [hbk, Option.bind_some, if_pos ha]; rfl
    · intro hc c x hx
      have h5 := h3 hc c x hx
      rw [List.getElem?_modify, h5, List.length_append, List.length_singleton, Finset.sum_range_succ]
      have e1 : ∑ j ∈ range map.length, (if ((map ++ [a])[j]?).getD 0 = c then (buf[j]?).getD 0 else 0) = ∑ j ∈ range map.length, if (map[j]?).getD 0 = c then (buf[j]?).getD 0 else 0 := by
        refine Finset.sum_congr rfl fun j hj => ?_
        rw [List.getElem?_append_left (Finset.mem_range.mp hj)]
      have e2 : ((map ++ [a])[map.length]?).getD 0 = a := by simp
      rw [e1, e2, hbk, Option.getD_some]
      by_cases hac : a = c
      · simp [hac, hc, add_assoc]
      · simp [hac]
    · intro hc c x F hx hF
      have h5 := h4 hc c x F hx (fun j hj => hF j (by
        rw [List.getElem?_append_left (List.getElem?_eq_some_iff.mp hj).1]; exact hj))
      rw [List.getElem?_modify, h5]
      by_cases hac : a = c
      · subst hac
        have := hF map.length (by simp)
        rw [hbk, Option.some.injEq] at this
        simp [hc, this]
      · have : (c ∈ map ++ [a]) ↔ c ∈ map := by simp [Ne.symm hac]
        simp [hac, this, Ne.symm hac]

variable {C : Ctr.Ctr} {P Pc : PD}

/-- the members after each other -/
theorem fold_members (cum : Bool) (L : List (List ℕ × List E)) (n : ℕ) (hL : ∀ m ∈ L, m.1.length ≤ m.2.length ∧ ∀ c ∈ m.1, c < n) (out : List E) (ho : out.length = n) :
    ∃ o, L.foldlM (fun out m => itVals cum m.1 m.2 out) out = some o ∧ o.length = n ∧
      (cum = false → ∀ (c : ℕ) (x : E), out[c]? = some x → o[c]? = some (x + (L.map fun m => ∑ j ∈ range m.1.length, if (m.1[j]?).getD 0 = c then (m.2[j]?).getD 0 else 0).sum)) ∧
      (cum = true → ∀ (c : ℕ) (x F : E), out[c]? = some x → (∀ m ∈ L, ∀ j : ℕ, m.1[j]? = some c → m.2[j]? = some F) → o[c]? = some (if ∃ m ∈ L, c ∈ m.1 then F else x)) := by
  induction L generalizing out with
  | nil => exact ⟨out, rfl, ho, fun _ c x hx => by simpa using hx, fun _ c x F hx _ => by simpa using hx⟩
  | cons m L ih =>
    obtain ⟨o1, h1, h2, h3, h4⟩ := itVals_len cum m.1 m.2 (hL m (by simp)).1 out (fun c hc => by rw [ho]; exact (hL m (by simp)).2 c hc)
    obtain ⟨o, g1, g2, g3, g4⟩ := ih (fun m' hm' => hL m' (by simp [hm'])) o1 (h2.trans ho)
    refine ⟨o, by rw [List.foldlM_cons, h1]; exact g1, g2, ?_, ?_⟩
    · intro hc c x hx
      rw [g3 hc c _ (h3 hc c x hx), List.map_cons, List.sum_cons, add_assoc]
    · intro hc c x F hx hF
      rw [g4 hc c _ F (h4 hc c x F hx (fun j hj => hF m (by simp) j hj)) (fun m' hm' j hj => hF m' (by simp [hm']) j hj)]
      congr 1
      by_cases c1 : c ∈ m.1
      · have : ∃ m' ∈ m :: L, c ∈ m'.1 := ⟨m, by simp, c1⟩
        simp [c1]
      · have : (∃ m' ∈ m :: L, c ∈ m'.1) ↔ ∃ m' ∈ L, c ∈ m'.1 := by
          simp only [List.mem_cons, exists_eq_or_imp, or_iff_right_iff_imp]
          exact fun h => (c1 h).elim
        simp only [this, c1, if_false]

theorem rotate_sum {M : Type} [AddCommMonoid M] (L : List (List ℕ × List E)) (f : List ℕ × List E → M) : ((L.drop 1 ++ L.take 1).map f).sum = (L.map f).sum := by
  cases L with
  | nil => rfl
  | cons a L => simp [add_comm]

theorem zip_members (h : Ctr.CtrOK C P Pc) (data : ℕ → ℕ → E) {gi : ℕ} (hi : gi < C.ng) :
    (C.maps gi).zip ((C.group gi).map fun p => (List.range (P.ndof p)).map (data p)) =
      (List.range (C.group gi).length).map fun k => (C.map gi k, (List.range (P.ndof (C.rank gi k))).map (data (C.rank gi k))) := by
  apply List.ext_getElem?
  intro k
  have hl := h.len gi hi
  by_cases hk : k < (C.group gi).length
  · have hk' : k < (C.maps gi).length := by omega
    rw [List.getElem?_map, List.getElem?_range hk, Option.map_some, List.getElem?_zip_eq_some, List.getElem?_map]
    refine ⟨?_, ?_⟩
    · show _ = some (((C.maps gi)[k]?).getD [])
      rw [List.getElem?_eq_getElem hk']; rfl
    · show _ = some ((List.range (P.ndof (((C.group gi)[k]?).getD 0))).map (data (((C.group gi)[k]?).getD 0)))
      rw [List.getElem?_eq_getElem hk]; rfl
  · rw [List.getElem?_eq_none (by simp; omega), List.getElem?_eq_none (by simp; omega)]

theorem members_ok (h : Ctr.CtrOK C P Pc) (data : ℕ → ℕ → E) {gi : ℕ} (hi : gi < C.ng) :
    ∀ m ∈ (C.maps gi).zip ((C.group gi).map fun p => (List.range (P.ndof p)).map (data p)), m.1.length ≤ m.2.length ∧ ∀ c ∈ m.1, c < Pc.ndof gi := by
  intro m hm
  rw [zip_members h data hi, List.mem_map] at hm
  obtain ⟨k, hk, rfl⟩ := hm
  rw [List.mem_range] at hk
  have hr := (h.rank_mem (gi := gi) hk).2
  refine ⟨by dsimp only; rw [h.size gi hi k _ hr, List.length_map, List.length_range], ?_⟩
  intro c hc
  obtain ⟨j, hj⟩ := List.getElem?_of_mem hc
  exact (h.glob gi hi k _ hr j c hj).1

/-- **Data of vertices, equal on all copies**: the contracted vertex has the value of the vertices it comes from -/
theorem mapNodeData_cumulated (h : Ctr.CtrOK C P Pc) (F : ℕ → E) {gi : ℕ} (hi : gi < C.ng) :
    mapNodeData true (Pc.ndof gi) (C.maps gi) ((C.group gi).map fun p => (List.range (P.ndof p)).map fun j => F (P.glob p j)) = some ((List.range (Pc.ndof gi)).map fun c => F (Pc.glob gi c)) := by
  have hok := members_ok h (fun p j => F (P.glob p j)) hi
  have hz := zip_members h (fun p j => F (P.glob p j)) hi
  unfold mapNodeData
  obtain ⟨L, hL⟩ : ∃ L, L = (C.maps gi).zip ((C.group gi).map fun p => (List.range (P.ndof p)).map fun j => F (P.glob p j)) := ⟨_, rfl⟩
  rw [← hL] at hok hz ⊢
  have hmem : ∀ m, m ∈ L.drop 1 ++ L.take 1 ↔ m ∈ L := by
    intro m
    conv_rhs => rw [← List.take_append_drop 1 L]
    rw [List.mem_append, List.mem_append, or_comm]
  obtain ⟨o, h1, h2, -, h4⟩ := fold_members true (L.drop 1 ++ L.take 1) (Pc.ndof gi) (fun m hm => hok m ((hmem m).mp hm)) (List.replicate (Pc.ndof gi) 0) (by simp)
  rw [h1]
  congr 1
  apply List.ext_getElem?
  intro c
  by_cases hc : c < Pc.ndof gi
  · rw [List.getElem?_map, List.getElem?_range hc, Option.map_some]
    rw [h4 rfl c 0 (F (Pc.glob gi c)) (by simp [hc]) ?_, if_pos ?_]
    · obtain ⟨k, p, j, hk, hj⟩ := h.cover gi hi c hc
      refine ⟨(C.map gi k, _), (hmem _).mpr (by rw [hz, List.mem_map]; exact ⟨k, List.mem_range.mpr (List.getElem?_eq_some_iff.mp hk).1, rfl⟩), List.mem_of_getElem? hj⟩
    · intro m hm j hj
      rw [hmem, hz, List.mem_map] at hm
      obtain ⟨k, hk, rfl⟩ := hm
      have hr := (h.rank_mem (gi := gi) (List.mem_range.mp hk)).2
      have hjl : j < P.ndof (C.rank gi k) := by rw [← h.size gi hi k _ hr]; exact (List.getElem?_eq_some_iff.mp hj).1
      dsimp only
      rw [List.getElem?_map, List.getElem?_range hjl, Option.map_some, (h.glob gi hi k _ hr j c hj).2]
  · rw [List.getElem?_eq_none (by omega), List.getElem?_eq_none (by simp; omega)]

/-- **Data of vertices, given as parts**: the contracted vertex has the sum of all parts in its group, so the sum over all copies stays the same -/
theorem mapNodeData_distributed (h : Ctr.CtrOK C P Pc) (data : ℕ → ℕ → E) :
    ∃ out : ℕ → ℕ → E, (∀ gi < C.ng, mapNodeData false (Pc.ndof gi) (C.maps gi) ((C.group gi).map fun p => (List.range (P.ndof p)).map (data p)) = some ((List.range (Pc.ndof gi)).map (out gi))) ∧
      ∀ g, gsum Pc out g = gsum P data g := by
  have hloc : ∀ gi < C.ng, ∀ c < Pc.ndof gi, ∀ k < (C.group gi).length, ∀ j < P.ndof (C.rank gi k),
      ((C.map gi k)[j]?).getD 0 = c → Pc.glob gi c = P.glob (C.rank gi k) j := by
    intro gi hi c hc k hk j hj he
    obtain ⟨-, -, a3⟩ := h.mapAt hi hk hj
    rw [he] at a3; exact a3
  refine ⟨fun gi c => ∑ k ∈ range (C.group gi).length, ∑ j ∈ range (P.ndof (C.rank gi k)), if ((C.map gi k)[j]?).getD 0 = c then data (C.rank gi k) j else 0, ?_, ?_⟩
  · intro gi hi
    have hok := members_ok h data hi
    have hz := zip_members h data hi
    unfold mapNodeData
    obtain ⟨L, hL⟩ : ∃ L, L = (C.maps gi).zip ((C.group gi).map fun p => (List.range (P.ndof p)).map (data p)) := ⟨_, rfl⟩
    rw [← hL] at hok hz ⊢
    have hmem : ∀ m, m ∈ L.drop 1 ++ L.take 1 ↔ m ∈ L := by
      intro m
      conv_rhs => rw [← List.take_append_drop 1 L]
      rw [List.mem_append, List.mem_append, or_comm]
    obtain ⟨o, h1, h2, h3, -⟩ := fold_members false (L.drop 1 ++ L.take 1) (Pc.ndof gi) (fun m hm => hok m ((hmem m).mp hm)) (List.replicate (Pc.ndof gi) 0) (by simp)
    rw [h1]
    congr 1
    apply List.ext_getElem?
    intro c
    by_cases hc : c < Pc.ndof gi
    · rw [List.getElem?_map, List.getElem?_range hc, Option.map_some, h3 rfl c 0 (by simp [hc]), zero_add, rotate_sum, hz, List.map_map]
      congr 1
      rw [MapData.list_range_sum]
      refine Finset.sum_congr rfl fun k hk => ?_
      rw [Finset.mem_range] at hk
      have hr := (h.rank_mem (gi := gi) hk).2
      dsimp only [Function.comp]
      rw [h.size gi hi k _ hr]
      refine Finset.sum_congr rfl fun j hj => ?_
      rw [Finset.mem_range] at hj
      rw [List.getElem?_map, List.getElem?_range hj]; rfl
    · rw [List.getElem?_eq_none (by omega), List.getElem?_eq_none (by simp; omega)]
  · intro g
    unfold gsum
    rw [h.np, h.sum]
    refine Finset.sum_congr rfl fun gi hgi => ?_
    rw [Finset.mem_range] at hgi
    have : ∀ c ∈ range (Pc.ndof gi), (if Pc.glob gi c = g then ∑ k ∈ range (C.group gi).length, ∑ j ∈ range (P.ndof (C.rank gi k)), (if ((C.map gi k)[j]?).getD 0 = c then data (C.rank gi k) j else 0) else 0) =
        ∑ k ∈ range (C.group gi).length, ∑ j ∈ range (P.ndof (C.rank gi k)), if ((C.map gi k)[j]?).getD 0 = c then (if P.glob (C.rank gi k) j = g then data (C.rank gi k) j else 0) else 0 := by
      intro c hc
      rw [Finset.mem_range] at hc
      split_ifs with hg
      · refine Finset.sum_congr rfl fun k hk => Finset.sum_congr rfl fun j hj => ?_
        rw [Finset.mem_range] at hk hj
        by_cases he : ((C.map gi k)[j]?).getD 0 = c
        · rw [if_pos he, if_pos he, if_pos ((hloc gi hgi c hc k hk j hj he).symm.trans hg)]
        · rw [if_neg he, if_neg he]
      · symm
        refine Finset.sum_eq_zero fun k hk => Finset.sum_eq_zero fun j hj => ?_
        rw [Finset.mem_range] at hk hj
        by_cases he : ((C.map gi k)[j]?).getD 0 = c
        · rw [if_pos he, if_neg (fun e => hg ((hloc gi hgi c hc k hk j hj he).trans e))]
        · rw [if_neg he]
    rw [Finset.sum_congr rfl this, Finset.sum_comm]
    refine Finset.sum_congr rfl fun k hk => ?_
    rw [Finset.sum_comm]
    refine Finset.sum_congr rfl fun j hj => ?_
    rw [Finset.mem_range] at hk hj
    obtain ⟨-, a2, -⟩ := h.mapAt hgi hk hj
    rw [Finset.sum_ite_eq, if_pos (Finset.mem_range.mpr a2)]

end

/-! ### example: the mesh of C75, processes 0 and 2 in one group -/

theorem exG_ok : GroupsOK 3 [[0, 2], [1]] := ⟨by decide, by decide, by decide⟩

/-- three vertices of one group are shared with the other one; the vertex of all three processes is one vertex -/
example : (buildCEQCH [[0, 2], [1]] 0 ([0, 2].map fun p => (p, CMap.exC p))).bind (fun R => buildVerts R ([0, 2].map fun p => (p, CMap.exC p))) =
    some ([0, 3, 6], [[some 0, some 1, some 3, some 4], [some 2, some 5, some 4]]) := by decide +kernel

example : ∃ (R : ℕ → CEqc), (∀ gi < 2, buildCEQCH [[0, 2], [1]] gi (([[0, 2], [1]].getD gi []).map fun p => (p, CMap.exC p)) = some (R gi)) ∧
    ∃ n s, Exch.Reach 2 (plainProg 2 fun gi => (R gi).fam) (fun gi => ⟨some (R gi).tab, fun _ => 0, none⟩) n s ∧ Exch.Final 2 (plainProg 2 fun gi => (R gi).fam) s := by
  obtain ⟨R, D, h1, h2⟩ := contract_correct (VMesh.of_mesh CMap.exC_mesh) exG_ok
  refine ⟨R, fun gi hgi => ?_, ?_⟩
  · have : gi = 0 ∨ gi = 1 := by omega
    rcases this with rfl | rfl
    · exact (h1 0 _ rfl).1
    · exact (h1 1 _ rfl).1
  · exact (h2 _ (fun _ _ => rfl)).1

/-- the whole chain on the example: groups, contracted mesh, unknowns -/
example : ∃ (maps : ℕ → List (List ℕ)) (P Pc : PD), NamesVerts 3 CMap.exC P ∧ P.WF ∧ Pc.WF ∧ Ctr.CtrOK ⟨2, fun gi => [[0, 2], [1]].getD gi [], maps⟩ P Pc ∧ maps 0 = [[0, 1, 3, 4], [2, 5, 4]] := by
  have hM := VMesh.of_mesh CMap.exC_mesh
  obtain ⟨R, D, h1, h2⟩ := contract_correct hM exG_ok
  obtain ⟨⟨n, s, hr, hf⟩, h3⟩ := h2 (fun gi => ⟨some (R gi).tab, fun _ => 0, none⟩) (fun _ _ => rfl)
  obtain ⟨ids, ind, -, hC⟩ := (h3 n s hr).2.2 hf
  obtain ⟨P, hP⟩ := namesVerts_exists hM
  obtain ⟨maps, Pc, m1, m2, m3, -, m4⟩ := ctr_dofs_correct hM hP exG_ok (fun gi g h => (h1 gi g h).2.2) hC
  refine ⟨maps, P, Pc, hP, m2, m3, m4, ?_⟩
  have e : (buildCEQCH [[0, 2], [1]] 0 ([0, 2].map fun p => (p, CMap.exC p))).bind (fun R => buildVerts R ([0, 2].map fun p => (p, CMap.exC p))) =
    some ([0, 3, 6], [[some 0, some 1, some 3, some 4], [some 2, some 5, some 4]]) := by decide +kernel
  obtain ⟨a1, a2, -⟩ := h1 0 _ rfl
  rw [a1, Option.bind_some, a2, Option.some.injEq] at e
  have := m1 0 (by decide)
  rw [e] at this
  have e2 : dofMaps [[some 0, some 1, some 3, some 4], [some 2, some 5, some 4]] = some [[0, 1, 3, 4], [2, 5, 4]] := by decide
  dsimp only at this
  rw [e2] at this
  exact (Option.some.inj this).symm

/-! ### edges that become edges between classes without a common class -/

/-- seven processes: the classes {0,1,4,6} and {2,3,5,6} with one vertex each; process 6 has both vertices -/
def exQ : ℕ → Ctx
  | 0 => ⟨[[], [1, 4, 6]], [0, 7], [some 0, none, none, none, none, none, none, some 1, none], [0, 0, 1]⟩
  | 1 => ⟨[[], [0, 4, 6]], [1, 7], [none, some 0, none, none, none, none, none, some 1, none], [0, 0, 1]⟩
  | 2 => ⟨[[], [3, 5, 6]], [2, 8], [none, none, some 0, none, none, none, none, none, some 1], [0, 0, 1]⟩
  | 3 => ⟨[[], [2, 5, 6]], [3, 8], [none, none, none, some 0, none, none, none, none, some 1], [0, 0, 1]⟩
  | 4 => ⟨[[], [0, 1, 6]], [4, 7], [none, none, none, none, some 0, none, none, some 1, none], [0, 0, 1]⟩
  | 5 => ⟨[[], [2, 3, 6]], [5, 8], [none, none, none, none, none, some 0, none, none, some 1], [0, 0, 1]⟩
  | 6 => ⟨[[], [0, 1, 4], [2, 3, 5]], [6, 7, 8], [none, none, none, none, none, none, some 0, some 1, some 2], [0, 0, 1, 2]⟩
  | _ => ⟨[], [], [], [0]⟩

set_option synthInstance.maxHeartbeats 400000 in
set_option synthInstance.maxSize 1000 in
theorem exQ_mesh : Mesh 7 exQ := by
  refine CMap.mesh_of_check ?_ (by decide +kernel) (by decide +kernel) (by decide +kernel) (by decide +kernel) (by decide +kernel)
  refine ⟨fun p hp => ⟨?_, fun d hd => ⟨?_, ?_, ?_⟩⟩, ?_, ?_⟩
  · have : ∀ p < 7, (exQ p).T.Nodup := by decide +kernel
    exact this p hp
  · have : ∀ p < 7, ∀ d ∈ (exQ p).T, d.Pairwise (· < ·) := by decide +kernel
    exact this p hp d hd
  · have : ∀ p < 7, ∀ d ∈ (exQ p).T, ∀ q ∈ d, q < 7 := by decide +kernel
    exact this p hp d hd
  · have : ∀ p < 7, ∀ d ∈ (exQ p).T, p ∉ d := by decide +kernel
    exact this p hp d hd
  · have : ∀ p < 7, (exQ p).T.Pairwise fun a b => eqLt a b = true := by decide +kernel
    exact this
  · have : ∀ p < 7, ∀ d ∈ (exQ p).T, ∀ q ∈ d, ∃ e ∈ (exQ q).T, members q e = members p d := by decide +kernel
    exact this

/-- **The contracted table of classes need not be closed under intersection**, although the table of the fine mesh is: with the groups {0,2}, {1,3}, {4}, {5}, {6} the two vertices of process 6 are in contracted
classes whose common part {0,1,4} is no class. An edge between them has `GetCommonEQC = NO_EQC`, which is used as the number of a row. -/
theorem contract_not_closed : ∃ (np : ℕ) (C : ℕ → Ctx) (groups : List (List ℕ)), Mesh np C ∧ GroupsOK np groups ∧ ∃ (gi : ℕ) (g : List ℕ) (R : CEqc), groups[gi]? = some g ∧
    buildCEQCH groups gi (g.map fun p => (p, C p)) = some R ∧ ∃ i < R.tab.length, ∃ j < R.tab.length, annoyClass R.tab i j = none := by
  refine ⟨7, exQ, [[0, 2], [1, 3], [4], [5], [6]], exQ_mesh, ⟨by decide, by decide, by decide⟩, 4, [6], ⟨[6, 7, 8], [[6], [0, 1, 4, 6], [2, 3, 5, 6]], [[], [0, 1, 2], [0, 1, 3]], [[], [0, 1, 2], [0, 1, 3]],
    [0, 1, 2], [[0, 1, 2]], [[0, 1, 2]]⟩, rfl, by decide +kernel, 1, by decide, 2, by decide, by decide +kernel⟩

end NgsAMG.GCtr
