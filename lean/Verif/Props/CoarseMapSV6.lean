import Verif.Props.CoarseMapSV5

/-!
# C93: `MapVerts_sv`, the theorem
-/

namespace NgsAMG.CMap

open NgsAMG.EQC NgsAMG.RedTab NgsAMG.Exch NgsAMG.BTM

section
variable {np : ℕ} {C : ℕ → Ctx} (hM : Mesh np C) {aggs : ℕ → List Agg} (hA : SolidAggs np C aggs)
include hM hA

/-- the number of an agglomerate on a process of its class, computed from the entry of a shared vertex -/
theorem entry_number {p m a : ℕ} (hp : p < np) (hm : m < np) (hat : AggAt C aggs m a (setS C aggs m a)) (hS : p ∈ setS C aggs m a) :
    ∃ k o, (C p).eqcOfID (idS C aggs m a) = some k ∧ ((redOf C aggs p)[k]?).bind (fun row => row[kpS C aggs m a]?) = some o ∧
      IsVert p (coarseCtx (C p) (dispsSV C aggs p)) (o + locS C aggs m a) (setS C aggs m a) (numS C aggs (setS C aggs m a) m a) := by
  obtain ⟨g, r, h1, h2⟩ := id hat
  obtain ⟨d, r', c1, c2, c3, c4, c5, c6⟩ := cenS hM hA hm h1
  obtain ⟨-, e, e1, e2⟩ := cls_at hM hm c2 (c3 ▸ hS)
  rw [c3] at e1 e2
  have hkl := (List.getElem?_eq_some_iff.mp e1).1
  have hid : (C p).eqcOfID (idS C aggs m a) = some (clsOf C p (setS C aggs m a)) := by
    have := (hM.ind p hp m hm _ _ d c5 c2 (clsOf C p (setS C aggs m a))).mpr ⟨e, e1, by rw [e2, c3]⟩
    unfold Ctx.eqcOfID
    rw [this]; rfl
  have hmem : mem C p (clsOf C p (setS C aggs m a)) = setS C aggs m a := by rw [mem_get e1, e2]
  have hlt : kpS C aggs m a < (cnts C aggs (setS C aggs m a)).length := by
    unfold cnts kpS
    rw [List.length_map]
    exact (List.getElem?_eq_some_iff.mp (kp_get (isVert_mem hM c4))).1
  refine ⟨_, _, hid, redOf_get (aggs := aggs) hkl (by rw [hmem]; exact hlt), ?_⟩
  refine isVert_sv.mpr ⟨_, e, e1, e2, ?_, sv_num_lt hM hA hm hat⟩
  rw [num_eq hM hA hm h1, hmem, Nat.add_assoc]

variable {sv : ℕ → SVSt} (hsv : ∀ p < np, LoopInv (C p) (redOf C aggs p) (aggs p) (kfS C aggs p) (idS C aggs p) (kpS C aggs p) (blkS C aggs p) (aggs p).length (sv p))
  {out : ℕ → List (Option (List SVEntry))}
  (hout : ∀ p < np, Reduced np (fun p => (C p).T) (fun p k => members p ((C p).T.getD k [])) (fun p => (sv p).ex) (fun _ _ ins => lastSet ins) p (out p))
include hsv hout

theorem finish_spec {p : ℕ} (hp : p < np) : ∃ vmap, finishSV (C p) (redOf C aggs p) (sv p).vm (out p) = some vmap ∧ vmap.length = (C p).nv ∧
    (∀ v m a S, InAggS C aggs p v m a → AggAt C aggs m a S →
      ∃ x, vmap[v]? = some (some x) ∧ IsVert p (coarseCtx (C p) (dispsSV C aggs p)) x S (numS C aggs (setS C aggs m a) m a)) ∧
    ∀ v < (C p).nv, (∀ m a, ¬ InAggS C aggs p v m a) → vmap[v]? = some none := by
  classical
  -- the rows
  have hrow : ∀ k, ∃ row : List SVEntry, ∀ d, (C p).T[k]? = some d → (out p)[k]? = some (some row) ∧
    (k = 0 → row = []) ∧ (k ≠ 0 → row.length = (vertsOf (C p) k).length ∧ ∀ v r, IsVert p (C p) v (members p d) r →
      (∀ m a, InAggS C aggs p v m a → row[r]? = some (some (idS C aggs m a, kpS C aggs m a, locS C aggs m a))) ∧
      ((∀ m a, ¬ InAggS C aggs p v m a) → row[r]? = some none)) := by
    intro k
    cases hk : (C p).T[k]? with
    | none => exact ⟨[], fun d h => by cases h⟩
    | some d =>
      obtain ⟨row, h⟩ := red_row hM hA hsv hout hp hk
      exact ⟨row, fun d' h' => by cases h'; exact h⟩
  choose rowf hrowf using hrow
  have holen : (out p).length = (C p).T.length := (hout p hp).1
  have hrows : (out p).mapM id = some ((List.range (C p).T.length).map rowf) := by
    have : out p = (List.range (C p).T.length).map fun k => some (rowf k) := by
      refine List.ext_getElem? fun k => ?_
      by_cases hk : k < (C p).T.length
      · rw [(hrowf k _ (List.getElem?_eq_getElem hk)).1, List.getElem?_map, List.getElem?_range hk]
        rfl
      · rw [List.getElem?_eq_none (by omega), List.getElem?_eq_none (by simpa using hk)]
    rw [this, List.mapM_map]
    exact mapM_some_of _ _ _ fun k _ => rfl
  have hlen : ∀ k < (C p).T.length, (rowf k).length ≤ (vertsOf (C p) k).length := by
    intro k hk
    obtain ⟨-, h1, h2⟩ := hrowf k _ (List.getElem?_eq_getElem hk)
    by_cases h0 : k = 0
    · rw [h1 h0]; simp
    · exact (h2 h0).1.le
  have hzip : ((List.range (C p).T.length).map rowf).zipIdx = (List.range (C p).T.length).map fun k => (rowf k, k) := by
    refine List.ext_getElem? fun k => ?_
    rw [List.getElem?_zipIdx, List.getElem?_map, List.getElem?_map]
    by_cases hk : k < (C p).T.length
    · rw [List.getElem?_range hk]; simp
    · rw [List.getElem?_eq_none (by simpa using hk)]; rfl
  have htodo : (((List.range (C p).T.length).map rowf).zipIdx.mapM fun x => rowSV (C p) x.2 x.1) =
      some ((List.range (C p).T.length).map fun k => (vertsOf (C p) k).zip (rowf k)) := by
    rw [hzip, List.mapM_map]
    refine mapM_some_of _ _ _ fun k hk => ?_
    show rowSV (C p) k (rowf k) = _
    unfold rowSV
    rw [if_pos (hlen k (List.mem_range.mp hk))]
  -- a vertex with its entry
  have hitem : ∀ v e, (v, e) ∈ ((List.range (C p).T.length).map fun k => (vertsOf (C p) k).zip (rowf k)).flatten ↔
      ∃ k d r, k ≠ 0 ∧ (C p).T[k]? = some d ∧ IsVert p (C p) v (members p d) r ∧ (rowf k)[r]? = some e := by
    intro v e
    simp only [List.mem_flatten, List.mem_map, List.mem_range]
    constructor
    · rintro ⟨l, ⟨k, hk, rfl⟩, hx⟩
      have hd := List.getElem?_eq_getElem hk
      obtain ⟨r, hr⟩ := List.mem_iff_getElem?.mp hx
      rw [List.getElem?_zip_eq_some] at hr
      obtain ⟨-, h1, h2⟩ := hrowf k _ hd
      have h0 : k ≠ 0 := by
        intro h0
        rw [h1 h0] at hr
        simp at hr
      exact ⟨k, _, r, h0, hd, (vertsOf_get hM hp hd).mp hr.1, hr.2⟩
    · rintro ⟨k, d, r, h0, hd, hv, he⟩
      refine ⟨_, ⟨k, (List.getElem?_eq_some_iff.mp hd).1, rfl⟩, List.mem_iff_getElem?.mpr ⟨r, ?_⟩⟩
      rw [List.getElem?_zip_eq_some]
      exact ⟨(vertsOf_get hM hp hd).mpr hv, he⟩
  -- the value of a shared vertex
  have hval : ∀ v, ∃ t : Option ℕ, ∀ m a, InAggS C aggs p v m a → ∃ k o, t = some (o + locS C aggs m a) ∧
      (C p).eqcOfID (idS C aggs m a) = some k ∧ ((redOf C aggs p)[k]?).bind (fun row => row[kpS C aggs m a]?) = some o ∧
      IsVert p (coarseCtx (C p) (dispsSV C aggs p)) (o + locS C aggs m a) (setS C aggs m a) (numS C aggs (setS C aggs m a) m a) := by
    intro v
    by_cases hin : ∃ m a, InAggS C aggs p v m a
    · obtain ⟨m, a, hin⟩ := hin
      obtain ⟨S, r, w, g, hm, i1, i2, i3, i4, i5, i6⟩ := inAggS_facts hM hA hp hin
      obtain ⟨k, o, q1, q2, q3⟩ := entry_number hM hA hp hm i6 (i5 (isVert_mem hM i1))
      refine ⟨some (o + locS C aggs m a), fun m' a' h' => ?_⟩
      obtain ⟨rfl, rfl⟩ := inAggS_unique hM hA hp hin h'
      exact ⟨k, o, rfl, q1, q2, q3⟩
    · exact ⟨none, fun m a h => absurd ⟨m, a, h⟩ hin⟩
  choose tgt htgt using hval
  have hvml : (sv p).vm.length = (C p).nv := (hsv p hp).len
  obtain ⟨vmap, f1, f2, f3⟩ := finSV_fold (C := C p) (red := redOf C aggs p) (tgt := tgt)
    ((List.range (C p).T.length).map fun k => (vertsOf (C p) k).zip (rowf k)).flatten (sv p).vm (by
      rintro ⟨v, e⟩ hx hne
      obtain ⟨k, d, r, h0, hd, hv, he⟩ := (hitem v e).mp hx
      refine ⟨by rw [hvml]; exact isVert_lt hM hp hv, fun vm' hvm' => ?_⟩
      obtain ⟨-, -, h2⟩ := hrowf k d hd
      obtain ⟨g1, g2⟩ := (h2 h0).2 v r hv
      by_cases hin : ∃ m a, InAggS C aggs p v m a
      · obtain ⟨m, a, hin⟩ := hin
        rw [g1 m a hin] at he; cases he
        obtain ⟨k', o, t1, t2, t3, -⟩ := htgt v m a hin
        unfold finSV
        dsimp only
        rw [t2, Option.bind_some, t3, Option.bind_some, if_pos (by rw [hvm', hvml]; exact isVert_lt hM hp hv), t1]
      · push Not at hin
        rw [g2 hin] at he; cases he
        exact absurd rfl hne)
  refine ⟨vmap, ?_, by rw [f2, hvml], ?_, ?_⟩
  · unfold finishSV
    rw [hrows, Option.bind_some, htodo, Option.bind_some, f1]
  · intro v m a S hin hat
    obtain ⟨S0, r, w, g, hm, i1, i2, i3, i4, i5, i6⟩ := inAggS_facts hM hA hp hin
    have hSS := at_set hM hA hm hat
    subst hSS
    obtain ⟨k, x, y, d, g1, g2, g3, g4, g5⟩ := vert_block hM hp (isVert_lt hM hp i1)
    have hv' : IsVert p (C p) v (members p d) (v - x) := ⟨k, x, y, d, g1, rfl, g2, g3, (Nat.add_sub_cancel' g4).symm, g5⟩
    obtain ⟨k', o, t1, t2, t3, t4⟩ := htgt v m a hin
    by_cases h0 : k = 0
    · -- a local vertex
      obtain ⟨rfl, rfl⟩ := isVert_unique hM hp i1 hv'
      have hTne : (C p).T ≠ [] := by intro h; rw [h] at g1; simp at g1
      have hd := hM.loc p hp hTne
      rw [← h0, g1] at hd; cases hd
      have hmp : m = p := by
        have := isVert_mem hM i2
        simpa [mem_members] using this
      subst hmp
      have hwv := isVert_inj hM hm i1 i2
      subst hwv
      have hno : ¬ ∃ x ∈ ((List.range (C m).T.length).map fun k => (vertsOf (C m) k).zip (rowf k)).flatten, x.1 = v ∧ x.2 ≠ none := by
        rintro ⟨⟨v', e⟩, hx, rfl, -⟩
        obtain ⟨k1, d1, r1, b0, b1, b2, -⟩ := (hitem _ e).mp hx
        have := (isVert_unique hM hm b2 hv').1
        exact b0 ((cls_eq (hM.tabs.ok m hm) b1 g1 this).trans h0)
      have hvm := (hsv m hm).vm a g (List.getElem?_eq_some_iff.mp i3).1 i3 v i4
      refine ⟨_, (((f3 v).2 hno).trans hvm), ?_⟩
      obtain ⟨d2, r2, c1, c2, c3, c4, c5, c6⟩ := cenS hM hA hm i3
      refine isVert_sv.mpr ⟨_, d2, c2, c3, ?_, sv_num_lt hM hA hm i6⟩
      rw [num_eq hM hA hm i3]
      unfold blkS locS
      rw [Nat.add_assoc]
    · -- a shared vertex
      refine ⟨o + locS C aggs m a, ?_, t4⟩
      rw [← t1]
      refine (f3 v).1 ⟨(v, some (idS C aggs m a, kpS C aggs m a, locS C aggs m a)), ?_, rfl, by simp⟩
      refine (hitem _ _).mpr ⟨k, d, v - x, h0, g1, hv', ?_⟩
      exact (((hrowf k d g1).2.2 h0).2 v (v - x) hv').1 m a hin
  · intro v hv hno
    have hn : ¬ ∃ x ∈ ((List.range (C p).T.length).map fun k => (vertsOf (C p) k).zip (rowf k)).flatten, x.1 = v ∧ x.2 ≠ none := by
      rintro ⟨⟨v', e⟩, hx, rfl, hne⟩
      obtain ⟨k1, d1, r1, b0, b1, b2, b3⟩ := (hitem _ e).mp hx
      have := (((hrowf k1 d1 b1).2.2 b0).2 _ r1 b2).2 hno
      rw [b3] at this
      exact hne (Option.some.inj this)
    rw [(f3 v).2 hn]
    refine (hsv p hp).vm0 v hv fun a g _ hg hm => ?_
    obtain ⟨S, r, hS, -⟩ := isVert_exists hM hp hv
    exact hno p a ⟨S, r, v, g, hS, hS, hg, hm⟩

theorem coarse_sv : ∃ vmap : ℕ → List (Option ℕ), (∀ p < np, finishSV (C p) (redOf C aggs p) (sv p).vm (out p) = some (vmap p)) ∧
    CoarseSV np C aggs (dispsSV C aggs) vmap fun m a => numS C aggs (setS C aggs m a) m a := by
  have : ∀ p, ∃ vmap : List (Option ℕ), p < np → finishSV (C p) (redOf C aggs p) (sv p).vm (out p) = some vmap ∧ vmap.length = (C p).nv ∧
    (∀ v m a S, InAggS C aggs p v m a → AggAt C aggs m a S →
      ∃ x, vmap[v]? = some (some x) ∧ IsVert p (coarseCtx (C p) (dispsSV C aggs p)) x S (numS C aggs (setS C aggs m a) m a)) ∧
    ∀ v < (C p).nv, (∀ m a, ¬ InAggS C aggs p v m a) → vmap[v]? = some none := by
    intro p
    by_cases hp : p < np
    · obtain ⟨vmap, h⟩ := finish_spec hM hA hsv hout hp
      exact ⟨vmap, fun _ => h⟩
    · exact ⟨[], fun h => absurd h hp⟩
  choose vmap hv using this
  refine ⟨vmap, fun p hp => (hv p hp).1, coarse_mesh_sv hM aggs, fun p hp => (hv p hp).2.1, fun p hp => (hv p hp).2.2.1, fun p hp => (hv p hp).2.2.2, ?_, ?_⟩
  · intro p hp x S c h
    obtain ⟨k, d, h1, h2, h3, h4⟩ := isVert_sv.mp h
    subst h2
    obtain ⟨m, a, hm, hat, hn⟩ := sv_num_surj hM hA hp h1 h4
    exact ⟨m, a, hm, hat, by rw [← at_set hM hA hm hat]; exact hn⟩
  · intro m hm m' hm' a a' S hat hat' he
    have e1 := at_set hM hA hm hat
    have e2 := at_set hM hA hm' hat'
    rw [← e1, ← e2] at he
    exact sv_num_inj hM hA hm hm' hat hat' he

end

/-- **C93.** `MapVerts_sv` on every process, for every schedule: neither of the two exchanges deadlocks, leaves a message behind or reads or writes out of
range, and in the end the coarse vertices form a distributed mesh whose vertices are the agglomerates of all processes. -/
theorem mapVertsSV_correct {np : ℕ} {C : ℕ → Ctx} (hM : Mesh np C) {aggs : ℕ → List Agg} (hA : SolidAggs np C aggs) :
    ∃ tc : ℕ → List (List ℕ), (∀ p < np, tentCnts (C p) (aggs p) = some (tc p)) ∧
    ∀ n s, DReach np (cntProg np C tc) (fun _ => {}) n s →
      (¬ DFinal np (cntProg np C tc) s → ∃ t, DStep np (cntProg np C tc) s t) ∧ n ≤ 16 * np ∧
      (DFinal np (cntProg np C tc) s → (∀ i, ∀ p < np, ∀ q < np, s.chan i p q = none) ∧
        ∃ (red : ℕ → List (List ℕ)) (disps : ℕ → List ℕ) (sv : ℕ → SVSt),
          (∀ p < np, (s.vec p).ok = true ∧ offsetsSV (s.vec p).out = some (red p, disps p) ∧ exvSV (C p) p (aggs p) (red p) = some (sv p)) ∧
          ∀ n' s', DReach np (exProg np C fun p => (sv p).ex) (fun _ => {}) n' s' →
            (¬ DFinal np (exProg np C fun p => (sv p).ex) s' → ∃ t, DStep np (exProg np C fun p => (sv p).ex) s' t) ∧ n' ≤ 16 * np ∧
            (DFinal np (exProg np C fun p => (sv p).ex) s' → (∀ i, ∀ p < np, ∀ q < np, s'.chan i p q = none) ∧
              ∃ vmap num, (∀ p < np, (s'.vec p).ok = true ∧ finishSV (C p) (red p) (sv p).vm (s'.vec p).out = some (vmap p)) ∧
                CoarseSV np C aggs disps vmap num)) := by
  have hR := rows_of_tables hM.tabs
  refine ⟨tentOf C aggs, ?_, ?_⟩
  · intro p hp
    refine tentCnts_spec fun g hg => ?_
    obtain ⟨a, ha⟩ := List.mem_iff_getElem?.mp hg
    obtain ⟨k, d, r, i, h1, h2, -⟩ := sv_cen hM hA hp ha
    exact ⟨k, h1, (List.getElem?_eq_some_iff.mp h2).1⟩
  · intro n s hr
    have htab : ∀ p < np, (tentOf C aggs p).length = (C p).T.length := by intro p _; simp [tentOf]
    refine ⟨reduceTable_no_deadlock hR _ _ htab hr, reduceTable_terminates hR _ _ htab hr, fun hf => ?_⟩
    obtain ⟨h1, h2⟩ := reduceTable_correct hR _ _ htab hr hf
    refine ⟨h2, ?_⟩
    obtain ⟨sv, hsv⟩ := exv_total hM hA
    refine ⟨redOf C aggs, dispsSV C aggs, sv, fun p hp => ⟨(h1 p hp).1, ?_, (hsv p hp).1⟩, ?_⟩
    · exact offsets_sv hM (out := fun p => (s.vec p).out) (fun p hp => (h1 p hp).2) hp
    · intro n' s' hr'
      have htab' : ∀ p < np, ((sv p).ex).length = (C p).T.length := fun p hp => ex_tab hM hA (fun p hp => (hsv p hp).2) hp
      refine ⟨reduceTable_no_deadlock hR _ _ htab' hr', reduceTable_terminates hR _ _ htab' hr', fun hf' => ?_⟩
      obtain ⟨g1, g2⟩ := reduceTable_correct hR _ _ htab' hr' hf'
      refine ⟨g2, ?_⟩
      obtain ⟨vmap, v1, v2⟩ := coarse_sv hM hA (fun p hp => (hsv p hp).2) (out := fun p => (s'.vec p).out) (fun p hp => (g1 p hp).2)
      exact ⟨vmap, _, fun p hp => ⟨(g1 p hp).1, v1 p hp⟩, v2⟩

end NgsAMG.CMap
