import Verif.Props.CtrMap
import Verif.Props.MapData
import Verif.Props.HybridMatrix

/-! C86, second part: the contracted matrix of one group; groups of processes. -/

namespace NgsAMG.Ctr
open NgsAMG.DCC NgsAMG.SparseMM NgsAMG.Hybrid Finset

variable {E : Type} [AddCommMonoid E]

theorem zipIdx_sum {α M : Type} [AddCommMonoid M] (l : List α) (d : α) (g : α × ℕ → M) : (l.zipIdx.map g).sum = ∑ i ∈ range l.length, g ((l[i]?).getD d, i) := by
  rw [← MapData.list_range_sum]
  congr 1
  apply List.ext_getElem
  · simp
  · intro i h1 h2
    have hi : i < l.length := by simpa using h1
    simp [hi]

theorem filterMap_sum {α β M : Type} [AddCommMonoid M] (l : List α) (p : α → Prop) [DecidablePred p] (h : α → β) (f : β → M) :
    ((l.filterMap fun a => if p a then some (h a) else none).map f).sum = (l.map fun a => if p a then f (h a) else 0).sum := by
  induction l with
  | nil => rfl
  | cons a l ih =>
    rw [List.filterMap_cons, List.map_cons, List.sum_cons]
    by_cases e : p a
    · simp [e, ih]
    · simp [e, ih]

theorem flatMap_sum {α β M : Type} [AddCommMonoid M] (l : List α) (h : α → List β) (f : β → M) : ((l.flatMap h).map f).sum = (l.map fun a => ((h a).map f).sum).sum := by
  induction l with
  | nil => rfl
  | cons a l ih => rw [List.flatMap_cons, List.map_append, List.sum_append, ih, List.map_cons, List.sum_cons]

theorem revRow_sum {M : Type} [AddCommMonoid M] (maps : List (List ℕ)) (r : ℕ) (f : ℕ × ℕ → M) :
    ((revRow maps r).map f).sum = ∑ k ∈ range maps.length, ∑ j ∈ range ((maps[k]?).getD []).length, if ((((maps[k]?).getD [])[j]?).getD 0) = r then f (k, j) else 0 := by
  unfold revRow
  rw [flatMap_sum, zipIdx_sum maps []]
  refine sum_congr rfl fun k _ => ?_
  rw [filterMap_sum, zipIdx_sum _ 0]

theorem colSum_mrow {map : List ℕ} {A : CSR E} (hA : A.WF) (hw : A.width = map.length) (j c : ℕ) :
    colSum (mrow map (A.row j)) c = ∑ i ∈ range map.length, if ((map[i]?).getD 0) = c then A.entry j i else 0 := by
  have h1 : ∀ row : List (ℕ × E), colSum (mrow map row) c = (row.map fun e => if ((map[e.1]?).getD 0) = c then e.2 else 0).sum := by
    intro row
    induction row with
    | nil => rfl
    | cons e row ih =>
      rw [show mrow map (e :: row) = ((map[e.1]?).getD 0, e.2) :: mrow map row from rfl, colSum_cons, ih, List.map_cons, List.sum_cons]
  rw [h1, ← hw]
  have := entry_sum (fun i => if ((map[i]?).getD 0) = c then AddMonoidHom.id E else 0) A j (hA.inRange j)
  refine Eq.trans ?_ (this.symm.trans ?_)
  · congr 1
    refine List.map_congr_left fun e _ => ?_
    split <;> rfl
  · refine sum_congr rfl fun i _ => ?_
    split <;> rfl

/-- the matrix of member `k` -/
def matAt (mats : List (CSR E)) (k : ℕ) : CSR E := (mats[k]?).getD ⟨0, 0, fun _ => []⟩

theorem colSum_contribs {maps : List (List ℕ)} {mats : List (CSR E)} {n : ℕ} (h : AsmOK maps mats n) (r c : ℕ) :
    colSum (contribs maps mats r) c = ∑ k ∈ range maps.length, ∑ j ∈ range ((maps[k]?).getD []).length, ∑ i ∈ range ((maps[k]?).getD []).length,
      if (((maps[k]?).getD [])[j]?).getD 0 = r ∧ (((maps[k]?).getD [])[i]?).getD 0 = c then (matAt mats k).entry j i else 0 := by
  rw [contribs, colSum_flatMap, revRow_sum]
  refine sum_congr rfl fun k hk => ?_
  rw [mem_range] at hk
  have hm := List.getElem?_eq_getElem hk
  have hk' : k < mats.length := h.len ▸ hk
  have hA : mats[k]? = some mats[k] := List.getElem?_eq_getElem hk'
  obtain ⟨h1, h2, h3⟩ := h.mat k _ _ hm hA
  have e : ∀ j, contrib maps mats (k, j) = mrow maps[k] (mats[k].row j) := by
    intro j
    rw [contrib, hm, hA]
    rfl
  have e2 : matAt mats k = mats[k] := by rw [matAt, hA]; rfl
  rw [hm, Option.getD_some, e2]
  refine sum_congr rfl fun j _ => ?_
  rw [e, colSum_mrow h1 h3]
  by_cases hj : (maps[k][j]?).getD 0 = r
  · rw [if_pos hj]
    refine sum_congr rfl fun i _ => ?_
    simp only [hj, true_and]
  · rw [if_neg hj, sum_eq_zero]
    intro i _
    rw [if_neg fun h => hj h.1]

theorem assembleMat_spec {sortI : SortI} (hs : SortIOK sortI) {maps : List (List ℕ)} {mats : List (CSR E)} {n : ℕ} (h : AsmOK maps mats n) (hn : ∀ c < n, 2 * c ≤ MergeArrays.intMax)
    (mjunk : ℕ → ℕ → ℕ × ℕ) (junk : ℕ → ℕ → E) :
    ∃ B, assembleMat sortI mjunk junk maps mats n = some B ∧ B.WF ∧ B.height = n ∧ B.width = n ∧ (∀ r c, B.entry r c = colSum (contribs maps mats r) c) ∧
      ∀ r c, (∃ v, (c, v) ∈ B.row r) ↔ c ∈ (contribs maps mats r).map Prod.fst := by
  choose cols hc1 hc2 hc3 using fun r => asmRow_spec hs h hn (mjunk r) (junk r) r
  have hout : ∀ r, n ≤ r → contribs maps mats r = [] := by
    intro r hr
    rw [contribs, List.flatMap_eq_nil_iff]
    rintro ⟨k, j⟩ hkj
    obtain ⟨map, hm, hj⟩ := mem_revRow.1 hkj
    exact absurd (h.lt map (List.mem_of_getElem? hm) r (List.mem_of_getElem? hj)) (Nat.not_lt.2 hr)
  have hnil : ∀ r, n ≤ r → cols r = [] := by
    intro r hr
    rw [List.eq_nil_iff_forall_not_mem]
    intro c hc
    rw [hc3, hout r hr] at hc
    simp at hc
  have hall : (maps.all fun m => m.all fun c => decide (c < n)) = true := by
    simp only [List.all_eq_true, decide_eq_true_eq]
    exact h.lt
  refine ⟨⟨n, n, fun r => (cols r).map fun c => (c, colSum (contribs maps mats r) c)⟩, ?_, ⟨fun r => ?_, fun r e he => ?_, fun r hr => ?_⟩, rfl, rfl, fun r c => ?_, fun r c => ?_⟩
  · rw [assembleMat, if_pos hall, collect_spec n _ (fun r => (cols r).map fun c => (c, colSum (contribs maps mats r) c)) (fun r _ => hc1 r) fun r hr => by rw [hnil r hr]; rfl]
    rfl
  · rw [List.map_map]
    simpa [Function.comp_def] using hc2 r
  · obtain ⟨c, hc, rfl⟩ := List.mem_map.1 he
    obtain ⟨f, hf, rfl⟩ := List.mem_map.1 ((hc3 r c).1 hc)
    obtain ⟨kj, hkj, hf'⟩ := List.mem_flatMap.1 hf
    obtain ⟨map, A, -, -, -, -, h3, h4, h5⟩ := member h hkj
    rw [h4] at hf'
    exact mrow_lt h5 h3 f hf'
  · show (cols r).map _ = []
    rw [hnil r hr]
    rfl
  · refine entry_tabulated (⟨n, n, fun r => (cols r).map fun c => (c, colSum (contribs maps mats r) c)⟩ : CSR E) r (cols r) (fun c => colSum (contribs maps mats r) c) rfl (hc2 r)
      (fun c hc => colSum_zero fun h => hc ((hc3 r c).2 h)) c
  · rw [← hc3]
    show (∃ v, (c, v) ∈ (cols r).map fun c => (c, colSum (contribs maps mats r) c)) ↔ _
    constructor
    · rintro ⟨v, hv⟩
      obtain ⟨c', hc', e⟩ := List.mem_map.1 hv
      cases e
      exact hc'
    · intro hc
      exact ⟨_, List.mem_map_of_mem hc⟩

/-! ### groups of processes -/

/-- the groups partition the processes; the maps take the unknowns of the members to unknowns of the master with the same global name -/
structure CtrOK (C : Ctr) (P Pc : PD) : Prop where
  np : Pc.np = C.ng
  perm : ((List.range C.ng).flatMap C.group).Perm (List.range P.np)
  ne : ∀ gi < C.ng, C.group gi ≠ []
  len : ∀ gi < C.ng, (C.maps gi).length = (C.group gi).length
  size : ∀ gi < C.ng, ∀ (k p : ℕ), (C.group gi)[k]? = some p → (C.map gi k).length = P.ndof p
  glob : ∀ gi < C.ng, ∀ (k p : ℕ), (C.group gi)[k]? = some p → ∀ (j c : ℕ), (C.map gi k)[j]? = some c → c < Pc.ndof gi ∧ Pc.glob gi c = P.glob p j
  cover : ∀ gi < C.ng, ∀ c < Pc.ndof gi, ∃ (k p j : ℕ), (C.group gi)[k]? = some p ∧ (C.map gi k)[j]? = some c

variable {C : Ctr} {P Pc : PD}

theorem CtrOK.mem (h : CtrOK C P Pc) {p : ℕ} : p < P.np ↔ ∃ gi < C.ng, p ∈ C.group gi := by
  rw [← List.mem_range, ← h.perm.mem_iff, List.mem_flatMap]
  simp only [List.mem_range]

theorem CtrOK.nodup (h : CtrOK C P Pc) : ((List.range C.ng).flatMap C.group).Nodup := h.perm.nodup_iff.2 List.nodup_range

theorem CtrOK.uniq (h : CtrOK C P Pc) {gi gj p : ℕ} (hi : gi < C.ng) (hj : gj < C.ng) (hpi : p ∈ C.group gi) (hpj : p ∈ C.group gj) : gi = gj := by
  by_contra hne
  have hd := (List.nodup_flatMap.1 h.nodup).2
  rcases Nat.lt_or_gt_of_ne hne with hlt | hlt
  · have := List.pairwise_iff_getElem.1 hd gi gj (by simpa using hi) (by simpa using hj) hlt
    simp only [List.getElem_range, Function.onFun] at this
    exact this hpi hpj
  · have := List.pairwise_iff_getElem.1 hd gj gi (by simpa using hj) (by simpa using hi) hlt
    simp only [List.getElem_range, Function.onFun] at this
    exact this hpj hpi

theorem CtrOK.groupNodup (h : CtrOK C P Pc) {gi : ℕ} (hi : gi < C.ng) : (C.group gi).Nodup :=
  (List.nodup_flatMap.1 h.nodup).1 gi (List.mem_range.2 hi)

theorem CtrOK.grpOf (h : CtrOK C P Pc) {gi p : ℕ} (hi : gi < C.ng) (hp : p ∈ C.group gi) : C.grpOf p = gi := by
  rw [Ctr.grpOf]
  have hs : ((List.range C.ng).find? fun gi => (C.group gi).contains p).isSome := by
    rw [List.find?_isSome]
    exact ⟨gi, List.mem_range.2 hi, by simpa using hp⟩
  obtain ⟨gj, hj⟩ := Option.isSome_iff_exists.1 hs
  rw [hj, Option.getD_some]
  have h1 := List.find?_some hj
  have h2 := List.mem_of_find?_eq_some hj
  exact h.uniq (List.mem_range.1 h2) hi (by simpa using h1) hp

theorem CtrOK.group_lt (h : CtrOK C P Pc) {p : ℕ} (hp : p < P.np) : C.grpOf p < C.ng ∧ p ∈ C.group (C.grpOf p) := by
  obtain ⟨gi, hi, hm⟩ := h.mem.1 hp
  rw [h.grpOf hi hm]
  exact ⟨hi, hm⟩

theorem CtrOK.rank_mem (_ : CtrOK C P Pc) {gi k : ℕ} (hk : k < (C.group gi).length) : C.rank gi k ∈ C.group gi ∧ (C.group gi)[k]? = some (C.rank gi k) := by
  rw [Ctr.rank, List.getElem?_eq_getElem hk, Option.getD_some]
  exact ⟨List.getElem_mem _, rfl⟩

theorem CtrOK.master_mem (h : CtrOK C P Pc) {gi : ℕ} (hi : gi < C.ng) : C.master gi ∈ C.group gi ∧ (C.group gi)[0]? = some (C.master gi) :=
  h.rank_mem (List.length_pos_iff.2 (h.ne gi hi))

theorem CtrOK.isGm_rank (h : CtrOK C P Pc) {gi k : ℕ} (hi : gi < C.ng) (hk : k < (C.group gi).length) : C.isGm (C.rank gi k) = decide (k = 0) := by
  obtain ⟨h1, h2⟩ := h.rank_mem hk
  rw [Ctr.isGm, h.grpOf hi h1]
  obtain ⟨-, h3⟩ := h.master_mem hi
  by_cases hk0 : k = 0
  · subst hk0
    rw [decide_eq_true rfl, beq_iff_eq]
    exact Option.some.inj (h2.symm.trans h3)
  · rw [decide_eq_false hk0, beq_eq_false_iff_ne]
    intro e
    obtain ⟨a, ha⟩ := List.getElem?_eq_some_iff.1 h2
    obtain ⟨b, hb⟩ := List.getElem?_eq_some_iff.1 h3
    exact hk0 ((List.Nodup.getElem_inj_iff (h.groupNodup hi)).1 (ha.trans (e.trans hb.symm)))

theorem CtrOK.isGm_master (h : CtrOK C P Pc) {gi : ℕ} (hi : gi < C.ng) : C.isGm (C.master gi) = true := by
  rw [Ctr.isGm, h.grpOf hi (h.master_mem hi).1, beq_iff_eq]

/-- sum over all processes as sum over groups and members -/
theorem CtrOK.sum {M : Type} [AddCommMonoid M] (h : CtrOK C P Pc) (f : ℕ → M) :
    ∑ p ∈ range P.np, f p = ∑ gi ∈ range C.ng, ∑ k ∈ range (C.group gi).length, f (C.rank gi k) := by
  rw [← MapData.list_range_sum, ← (h.perm.map f).sum_eq, flatMap_sum, MapData.list_range_sum]
  refine sum_congr rfl fun gi _ => ?_
  rw [← MapData.list_range_sum]
  congr 1
  apply List.ext_getElem
  · simp
  · intro i h1 h2
    have hi : i < (C.group gi).length := by simpa using h1
    simp [Ctr.rank, hi]

/-- global name of a mapped unknown -/
theorem CtrOK.mapAt (h : CtrOK C P Pc) {gi k : ℕ} (hi : gi < C.ng) (hk : k < (C.group gi).length) {j : ℕ} (hj : j < P.ndof (C.rank gi k)) :
    (C.map gi k)[j]? = some (((C.map gi k)[j]?).getD 0) ∧ ((C.map gi k)[j]?).getD 0 < Pc.ndof gi ∧ Pc.glob gi (((C.map gi k)[j]?).getD 0) = P.glob (C.rank gi k) j := by
  have hr := (h.rank_mem hk).2
  have hl := h.size gi hi k _ hr
  have e := List.getElem?_eq_getElem (hl.symm ▸ hj)
  have e' : (C.map gi k)[j]? = some (((C.map gi k)[j]?).getD 0) := by rw [e]; rfl
  exact ⟨e', h.glob gi hi k _ hr j _ e'⟩

theorem CtrOK.map_nodup (h : CtrOK C P Pc) (hP : P.WF) {gi k : ℕ} (hi : gi < C.ng) (hk : k < (C.group gi).length) : (C.map gi k).Nodup := by
  have hr := (h.rank_mem hk)
  have hp : C.rank gi k < P.np := h.mem.2 ⟨gi, hi, hr.1⟩
  rw [List.nodup_iff_injective_getElem]
  intro ⟨a, ha⟩ ⟨b, hb⟩ hab
  have hl := h.size gi hi k _ hr.2
  have ga := (h.glob gi hi k _ hr.2 a _ (List.getElem?_eq_getElem ha)).2
  have gb := (h.glob gi hi k _ hr.2 b _ (List.getElem?_eq_getElem hb)).2
  dsimp only at hab
  rw [hab, gb] at ga
  exact Fin.ext (hP.inj _ hp a (hl ▸ ha) b (hl ▸ hb) ga.symm)

theorem allDofs_eq (h : CtrOK C P Pc) : HybSm.allDofs Pc = HybSm.allDofs P := by
  ext g
  rw [HybSm.mem_allDofs, HybSm.mem_allDofs]
  constructor
  · rintro ⟨gi, hi, c, hc, rfl⟩
    rw [h.np] at hi
    obtain ⟨k, p, j, h1, h2⟩ := h.cover gi hi c hc
    have hm : p ∈ C.group gi := List.mem_of_getElem? h1
    refine ⟨p, h.mem.2 ⟨gi, hi, hm⟩, j, ?_, (h.glob gi hi k p h1 j c h2).2.symm⟩
    rw [← h.size gi hi k p h1]
    exact (List.getElem?_eq_some_iff.1 h2).1
  · rintro ⟨p, hp, d, hd, rfl⟩
    obtain ⟨gi, hi, hm⟩ := h.mem.1 hp
    obtain ⟨k, hk, rfl⟩ := List.getElem_of_mem hm
    have e : C.rank gi k = (C.group gi)[k] := by rw [Ctr.rank, List.getElem?_eq_getElem hk]; rfl
    have := h.mapAt hi hk (j := d) (by rw [e]; exact hd)
    exact ⟨gi, h.np ▸ hi, _, this.2.1, by rw [this.2.2, e]⟩

end NgsAMG.Ctr
