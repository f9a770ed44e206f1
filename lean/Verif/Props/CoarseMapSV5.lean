import Verif.Props.CoarseMapSV4

/-!
# C93: `MapVerts_sv`, the theorem
-/

namespace NgsAMG.CMap

open NgsAMG.EQC NgsAMG.RedTab NgsAMG.Exch NgsAMG.BTM

/-- the coarse vertices are those of a mesh (C71); each is the image of one agglomerate: `num m a` is the number, within its class, of the coarse
vertex of the agglomerate `a` of process `m`. (As `CoarseVerts`, with any process as the owner of an agglomerate.) -/
structure CoarseSV (np : ℕ) (C : ℕ → Ctx) (aggs : ℕ → List Agg) (disps : ℕ → List ℕ) (vmap : ℕ → List (Option ℕ)) (num : ℕ → ℕ → ℕ) : Prop where
  mesh : Mesh np fun p => coarseCtx (C p) (disps p)
  len : ∀ p < np, (vmap p).length = (C p).nv
  img : ∀ p < np, ∀ v m a S, InAggS C aggs p v m a → AggAt C aggs m a S →
    ∃ x, (vmap p)[v]? = some (some x) ∧ IsVert p (coarseCtx (C p) (disps p)) x S (num m a)
  dir : ∀ p < np, ∀ v < (C p).nv, (∀ m a, ¬ InAggS C aggs p v m a) → (vmap p)[v]? = some none
  pre : ∀ p < np, ∀ x S c, IsVert p (coarseCtx (C p) (disps p)) x S c → ∃ m a, m < np ∧ AggAt C aggs m a S ∧ num m a = c
  uniq : ∀ m < np, ∀ m' < np, ∀ a a' S, AggAt C aggs m a S → AggAt C aggs m' a' S → num m a = num m' a' → m = m' ∧ a = a'

theorem finSV_fold {C : Ctx} {red : List (List ℕ)} {tgt : ℕ → Option ℕ} (todo : List (ℕ × SVEntry)) (vm : List (Option ℕ))
    (h : ∀ x ∈ todo, x.2 ≠ none → x.1 < vm.length ∧ ∀ vm' : List (Option ℕ), vm'.length = vm.length → finSV C red vm' x = some (vm'.set x.1 (tgt x.1))) :
    ∃ vm', todo.foldlM (finSV C red) vm = some vm' ∧ vm'.length = vm.length ∧
      ∀ w, ((∃ x ∈ todo, x.1 = w ∧ x.2 ≠ none) → vm'[w]? = some (tgt w)) ∧ ((¬ ∃ x ∈ todo, x.1 = w ∧ x.2 ≠ none) → vm'[w]? = vm[w]?) := by
  induction todo generalizing vm with
  | nil => exact ⟨vm, rfl, rfl, by simp⟩
  | cons x xs ih =>
    by_cases hx : x.2 = none
    · obtain ⟨vm', a1, a2, a3⟩ := ih vm (fun y hy => h y (by simp [hy]))
      refine ⟨vm', ?_, a2, fun w => ?_⟩
      · rw [List.foldlM_cons]
        have : finSV C red vm x = some vm := by unfold finSV; rw [hx]
        rw [this]
        exact a1
      · have : (∃ y ∈ x :: xs, y.1 = w ∧ y.2 ≠ none) ↔ ∃ y ∈ xs, y.1 = w ∧ y.2 ≠ none := by simp [hx]
        rw [this]
        exact a3 w
    · obtain ⟨h1, h2⟩ := h x (by simp) hx
      obtain ⟨vm', a1, a2, a3⟩ := ih (vm.set x.1 (tgt x.1)) (fun y hy => by
        rw [List.length_set]; exact h y (by simp [hy]))
      refine ⟨vm', ?_, by rw [a2, List.length_set], fun w => ⟨?_, ?_⟩⟩
      · rw [List.foldlM_cons, h2 vm rfl]
        exact a1
      · rintro ⟨y, hy, y1, y2⟩
        by_cases hr : ∃ y ∈ xs, y.1 = w ∧ y.2 ≠ none
        · exact (a3 w).1 hr
        · rcases List.mem_cons.mp hy with rfl | hy
          · rw [(a3 w).2 hr, ← y1, List.getElem?_set_self h1]
          · exact absurd ⟨y, hy, y1, y2⟩ hr
      · intro hn
        rw [(a3 w).2 (fun ⟨y, hy, y1⟩ => hn ⟨y, by simp [hy], y1⟩), List.getElem?_set_ne]
        rintro rfl
        exact hn ⟨x, by simp, rfl, hx⟩

section
variable {np : ℕ} {C : ℕ → Ctx} (hM : Mesh np C) {aggs : ℕ → List Agg} (hA : SolidAggs np C aggs)
include hM hA

/-- the loop over the agglomerates does not fail -/
theorem exv_total : ∃ sv : ℕ → SVSt, ∀ p < np, exvSV (C p) p (aggs p) (redOf C aggs p) = some (sv p) ∧
    LoopInv (C p) (redOf C aggs p) (aggs p) (kfS C aggs p) (idS C aggs p) (kpS C aggs p) (blkS C aggs p) (aggs p).length (sv p) := by
  have : ∀ p, ∃ st : SVSt, p < np → exvSV (C p) p (aggs p) (redOf C aggs p) = some st ∧
      LoopInv (C p) (redOf C aggs p) (aggs p) (kfS C aggs p) (idS C aggs p) (kpS C aggs p) (blkS C aggs p) (aggs p).length st := by
    intro p
    by_cases hp : p < np
    · obtain ⟨st, h1, h2⟩ := loop_spec (agg_loc hM hA hp)
      exact ⟨st, fun _ => ⟨h1, h2⟩⟩
    · exact ⟨⟨[], [], []⟩, fun h => absurd h hp⟩
  choose sv hsv using this
  exact ⟨sv, fun p hp => hsv p hp⟩

variable {sv : ℕ → SVSt} (hsv : ∀ p < np, LoopInv (C p) (redOf C aggs p) (aggs p) (kfS C aggs p) (idS C aggs p) (kpS C aggs p) (blkS C aggs p) (aggs p).length (sv p))
include hsv

theorem ex_row_len {p k : ℕ} (hp : p < np) (hk : k < (C p).T.length) : ∃ row, ((sv p).ex)[k]? = some row ∧ row.length = if k = 0 then 0 else (vertsOf (C p) k).length := by
  have hs := (hsv p hp).shape k
  rw [ex_len hM hk, Option.map_some, Option.map_eq_some_iff] at hs
  obtain ⟨row, h1, h2⟩ := hs
  refine ⟨row, h1, ?_⟩
  rw [h2]
  by_cases h0 : k = 0
  · subst h0; rfl
  · rw [if_pos (by omega), if_neg h0, List.length_replicate]

theorem ex_tab {p : ℕ} (hp : p < np) : (sv p).ex.length = (C p).T.length := by
  refine le_antisymm ?_ ?_
  · by_contra hn
    have h2 := List.getElem?_eq_getElem (l := (sv p).ex) (i := (C p).T.length) (by omega)
    have hs := (hsv p hp).shape (C p).T.length
    rw [h2, List.getElem?_eq_none (by simp [initSV])] at hs
    simp at hs
  · by_contra hn
    obtain ⟨row, h1, -⟩ := ex_row_len hM hA hsv hp (k := (sv p).ex.length) (by omega)
    rw [List.getElem?_eq_none (by omega)] at h1
    cases h1

/-- the entry that process `q` writes for its copy `w` of a shared vertex -/
theorem ex_entry {q j w r : ℕ} {e : List ℕ} {row : List SVEntry} (hq : q < np) (hj : (C q).T[j]? = some e) (h0 : j ≠ 0)
    (hw : IsVert q (C q) w (members q e) r) (hrow : ((sv q).ex)[j]? = some row) :
    (∀ (a : ℕ) (g : Agg), (aggs q)[a]? = some g → w ∈ g.mems → row[r]? = some (some (idS C aggs q a, kpS C aggs q a, locS C aggs q a))) ∧
    ((∀ (a : ℕ) (g : Agg), (aggs q)[a]? = some g → w ∉ g.mems) → row[r]? = some none) := by
  have hpl := (place_iff hM hq).mpr ⟨h0, e, hj, hw⟩
  have hget : get2 (sv q).ex j r = row[r]? := by unfold get2; rw [hrow]; rfl
  rw [← hget]
  constructor
  · intro a g hg hm
    exact (hsv q hq).ex a g (List.getElem?_eq_some_iff.mp hg).1 hg w hm j r hpl.2
  · intro hn
    rw [(hsv q hq).ex0 j r]
    · rw [init_ex hM (List.getElem?_eq_some_iff.mp hj).1 h0, if_pos]
      exact (List.getElem?_eq_some_iff.mp ((vertsOf_get hM hq hj).mpr hw)).1
    · intro a g _ hg v hv hpv
      obtain ⟨-, d, d1, d2⟩ := (place_iff hM hq).mp ⟨hA.lt q hq g (List.mem_of_getElem? hg) v hv, hpv⟩
      rw [hj] at d1; cases d1
      have := isVert_inj hM hq d2 hw
      subst this
      exact hn a g hg hv

variable {out : ℕ → List (Option (List SVEntry))}
  (hout : ∀ p < np, Reduced np (fun p => (C p).T) (fun p k => members p ((C p).T.getD k [])) (fun p => (sv p).ex) (fun _ _ ins => lastSet ins) p (out p))
include hout

/-- the reduced rows -/
theorem red_row {p k : ℕ} {d : List ℕ} (hp : p < np) (hk : (C p).T[k]? = some d) : ∃ row, (out p)[k]? = some (some row) ∧
    (k = 0 → row = []) ∧ (k ≠ 0 → row.length = (vertsOf (C p) k).length ∧ ∀ v r, IsVert p (C p) v (members p d) r →
      (∀ m a, InAggS C aggs p v m a → row[r]? = some (some (idS C aggs m a, kpS C aggs m a, locS C aggs m a))) ∧
      ((∀ m a, ¬ InAggS C aggs p v m a) → row[r]? = some none)) := by
  obtain ⟨-, h2⟩ := hout p hp
  have hkl := (List.getElem?_eq_some_iff.mp hk).1
  obtain ⟨m0, l0, ins, -, -, -, -, hrows, ho⟩ := h2 k d hk
  refine ⟨lastSet ins, ho, ?_⟩
  have hval := (hM.tabs.ok p hp).2 d (List.mem_of_getElem? hk)
  have hkey : members p ((C p).T.getD k []) = members p d := by rw [List.getD_eq_getElem?_getD, hk, Option.getD_some]
  rw [ord_members hval] at hrows
  unfold RowsWithKey at hrows
  dsimp only at hrows
  rw [hkey] at hrows
  -- the inputs
  have hins : ∀ (i : ℕ) (row : List SVEntry), ins[i]? = some row → ∃ q e, (ord (members p d))[i]? = some q ∧ q < np ∧
      (C q).T[clsOf C q (members p d)]? = some e ∧ members q e = members p d ∧ ((sv q).ex)[clsOf C q (members p d)]? = some row := by
    intro i row hi
    obtain ⟨hil, hir⟩ := List.getElem?_eq_some_iff.mp hi
    have hlen := hrows.length_eq
    have hq := List.getElem?_eq_getElem (l := ord (members p d)) (i := i) (by omega)
    have hf := List.forall₂_iff_get.mp hrows
    obtain ⟨j, j1, j2⟩ := hf.2 i (by omega) hil
    simp only [List.get_eq_getElem] at j1 j2
    rw [hir] at j2
    obtain ⟨hqn, e, e1, e2⟩ := cls_at hM hp hk (mem_ord.mp (List.mem_of_getElem? hq))
    have hjl : j < (C (ord (members p d))[i]).T.length := by
      rw [← ex_tab hM hA hsv hqn]
      exact (List.getElem?_eq_some_iff.mp j2).1
    have hj := List.getElem?_eq_getElem hjl
    rw [List.getD_eq_getElem?_getD, hj, Option.getD_some] at j1
    rw [← clsOf_get hM hqn hj j1] at j2
    exact ⟨_, e, hq, hqn, e1, e2, j2⟩
  have hins' : ∀ q ∈ members p d, ∃ (i : ℕ) (row : List SVEntry), ins[i]? = some row ∧ ((sv q).ex)[clsOf C q (members p d)]? = some row := by
    intro q hq
    have hlen := hrows.length_eq
    have hg := kp_get hq
    have hl := (List.getElem?_eq_some_iff.mp hg).1
    have hi := List.getElem?_eq_getElem (l := ins) (i := kp (members p d) q) (by omega)
    obtain ⟨q', e, q1, -, -, -, q5⟩ := hins _ _ hi
    rw [hg] at q1; cases q1
    exact ⟨_, _, hi, q5⟩
  have hne : ins ≠ [] := by
    obtain ⟨i, row, h, -⟩ := hins' p (mem_members.mpr (Or.inl rfl))
    rintro rfl
    simp at h
  by_cases h0 : k = 0
  · refine ⟨fun _ => ?_, fun h => absurd h0 h⟩
    have hTne : (C p).T ≠ [] := by intro h; rw [h] at hkl; simp at hkl
    have hd : d = [] := by
      have := hM.loc p hp hTne
      rw [← h0, hk] at this
      exact Option.some.inj this
    have hlens : ∀ row ∈ ins, row.length = 0 := by
      intro row hrow
      obtain ⟨i, hi⟩ := List.mem_iff_getElem?.mp hrow
      obtain ⟨q, e, q1, q2, q3, q4, q5⟩ := hins i row hi
      have hqp : q = p := by
        have := mem_ord.mp (List.mem_of_getElem? q1)
        rw [hd, mem_members] at this
        simpa using this
      subst hqp
      rw [clsOf_get hM hp hk rfl, h0] at q5
      obtain ⟨row', r1, r2⟩ := ex_row_len hM hA hsv hp (k := 0) (by omega)
      rw [q5] at r1; cases r1
      exact r2
    exact List.length_eq_zero_iff.mp (lastSet_spec ins 0 hne hlens).1
  · refine ⟨fun h => absurd h h0, fun _ => ?_⟩
    have hcl0 : ∀ q < np, ∀ e, (C q).T[clsOf C q (members p d)]? = some e → members q e = members p d → clsOf C q (members p d) ≠ 0 := by
      intro q hq e he hm hz
      rw [hz] at he
      have hTne : (C q).T ≠ [] := by intro h; rw [h] at he; simp at he
      have hqe := hM.loc q hq hTne
      rw [he] at hqe; cases hqe
      have hpq : p = q := by
        have : p ∈ members q [] := hm ▸ mem_members.mpr (Or.inl rfl)
        simpa [mem_members] using this
      subst hpq
      exact h0 (cls_eq (hM.tabs.ok p hp) hk he hm.symm)
    have hlens : ∀ row ∈ ins, row.length = (vertsOf (C p) k).length := by
      intro row hrow
      obtain ⟨i, hi⟩ := List.mem_iff_getElem?.mp hrow
      obtain ⟨q, e, q1, q2, q3, q4, q5⟩ := hins i row hi
      have hql := (List.getElem?_eq_some_iff.mp q3).1
      obtain ⟨row', r1, r2⟩ := ex_row_len hM hA hsv q2 hql
      rw [q5] at r1; cases r1
      rw [r2, if_neg (hcl0 q q2 e q3 q4)]
      unfold vertsOf
      rw [List.length_range', List.length_range']
      have gd : ∀ {s : ℕ}, s < np → ∀ i ≤ (C s).T.length, (C s).disp[i]? = some ((C s).disp.getD i 0) := by
        intro s hs i hi
        rw [List.getD_eq_getElem?_getD, List.getElem?_eq_getElem (by rw [hM.dl s hs]; omega)]; rfl
      exact hM.sizes q q2 p hp _ _ _ _ _ _ _ _ q3 hk q4 (gd q2 _ (by omega)) (gd q2 _ (by omega)) (gd hp _ (by omega)) (gd hp _ (by omega))
    obtain ⟨hl1, hl2⟩ := lastSet_spec ins _ hne hlens
    refine ⟨hl1, fun v r hv => ?_⟩
    have hrl : r < (vertsOf (C p) k).length := (List.getElem?_eq_some_iff.mp ((vertsOf_get hM hp hk).mpr hv)).1
    obtain ⟨g1, g2⟩ := hl2 r hrl
    -- the entry of an input
    have hentry : ∀ row ∈ ins, ∃ q w, q < np ∧ IsVert q (C q) w (members p d) r ∧
        (∀ (a : ℕ) (g : Agg), (aggs q)[a]? = some g → w ∈ g.mems → row[r]? = some (some (idS C aggs q a, kpS C aggs q a, locS C aggs q a))) ∧
        ((∀ (a : ℕ) (g : Agg), (aggs q)[a]? = some g → w ∉ g.mems) → row[r]? = some none) := by
      intro row hrow
      obtain ⟨i, hi⟩ := List.mem_iff_getElem?.mp hrow
      obtain ⟨q, e, q1, q2, q3, q4, q5⟩ := hins i row hi
      obtain ⟨-, w, hw⟩ := vert_partner hM hp hv (mem_ord.mp (List.mem_of_getElem? q1))
      have := ex_entry hM hA hsv q2 q3 (hcl0 q q2 e q3 q4) (by rw [q4]; exact hw) q5
      exact ⟨q, w, q2, hw, this⟩
    constructor
    · intro m a hin
      obtain ⟨S, r', w, g, hm, i1, i2, i3, i4, -, -⟩ := inAggS_facts hM hA hp hin
      obtain ⟨rfl, rfl⟩ := isVert_unique hM hp hv i1
      refine g2 _ ?_ ?_
      · obtain ⟨i, row, r1, r2⟩ := hins' m (isVert_mem hM i2)
        refine ⟨row, List.mem_of_getElem? r1, ?_⟩
        obtain ⟨-, e, e1, e2⟩ := cls_at hM hp hk (isVert_mem hM i2)
        exact (ex_entry hM hA hsv hm e1 (hcl0 m hm e e1 e2) (by rw [e2]; exact i2) r2).1 a g i3 i4
      · intro row hrow e' he'
        obtain ⟨q, w', hq, hw', t1, t2⟩ := hentry row hrow
        by_cases hex : ∃ (b : ℕ) (h : Agg), (aggs q)[b]? = some h ∧ w' ∈ h.mems
        · obtain ⟨b, h, b1, b2⟩ := hex
          obtain ⟨rfl, rfl⟩ := hA.disj m hm q hq a b g h i3 b1 w i4 w' b2 _ _ i2 hw'
          rw [t1 a h b1 b2] at he'
          cases he'
          rfl
        · push Not at hex
          rw [t2 hex] at he'
          simp at he'
    · intro hno
      refine g1 fun row hrow => ?_
      obtain ⟨q, w, hq, hw, -, t2⟩ := hentry row hrow
      exact t2 fun a g hg hwm => hno q a ⟨_, r, w, g, hv, hw, hg, hwm⟩

end

end NgsAMG.CMap
