import Verif.Props.CoarseMap

/-!
# C75: the map of the vertices on one process
-/

namespace NgsAMG.CMap

open NgsAMG.EQC NgsAMG.RedTab NgsAMG.Exch NgsAMG.BTM

/-! ### writes -/

theorem setAll_spec {vm : List (Option ℕ)} {mems : List ℕ} (h : ∀ v ∈ mems, v < vm.length) (cid : ℕ) :
    ∃ out, setAll vm mems cid = some out ∧ out.length = vm.length ∧ ∀ v, out[v]? = if v ∈ mems then some (some cid) else vm[v]? := by
  unfold setAll
  rw [if_pos h]
  refine ⟨_, rfl, ?_⟩
  induction mems generalizing vm with
  | nil => simp
  | cons m ms ih =>
    obtain ⟨h1, h2⟩ := ih (vm := vm.set m (some cid)) (by intro v hv; rw [List.length_set]; exact h v (by simp [hv]))
    rw [List.foldl_cons]
    refine ⟨by rw [h1, List.length_set], fun v => ?_⟩
    rw [h2 v, List.getElem?_set]
    by_cases hv : v ∈ ms
    · simp [hv]
    · by_cases hm : m = v
      · subst hm
        simp [h m (by simp)]
      · have : ¬ v = m := fun h => hm h.symm
        simp [hv, hm, this]

/-- is the center local -/
def isLoc (C : Ctx) (g : Agg) : Bool := decide (C.eqcV g.center = some 0)

theorem localAggs_spec (C : Ctx) (gs : List Agg) (c : ℕ) (vm : List (Option ℕ)) (hk : ∀ g ∈ gs, ∃ k, C.eqcV g.center = some k)
    (hm : ∀ g ∈ gs, ∀ v ∈ g.mems, v < vm.length) (hd : gs.Pairwise fun g h => ∀ v ∈ g.mems, v ∉ h.mems) :
    ∃ vm', localAggs C c vm gs = some (c + gs.countP (isLoc C), vm') ∧ vm'.length = vm.length ∧
      (∀ (i : ℕ) (g : Agg) (v : ℕ), gs[i]? = some g → C.eqcV g.center = some 0 → v ∈ g.mems →
        vm'[v]? = some (some (c + (gs.take i).countP (isLoc C)))) ∧
      ∀ v, (∀ g ∈ gs, C.eqcV g.center = some 0 → v ∉ g.mems) → vm'[v]? = vm[v]? := by
  induction gs generalizing c vm with
  | nil => exact ⟨vm, rfl, rfl, by simp, by simp⟩
  | cons g gs ih =>
    obtain ⟨k, hg⟩ := hk g (by simp)
    rw [List.pairwise_cons] at hd
    unfold localAggs
    rw [hg, Option.bind_some]
    by_cases h0 : k = 0
    · subst h0
      obtain ⟨v1, a1, a2, a3⟩ := setAll_spec (hm g (by simp)) c
      obtain ⟨vm', b1, b2, b3, b4⟩ := ih (c + 1) v1 (fun h hh => hk h (by simp [hh])) (fun h hh v hv => by rw [a2]; exact hm h (by simp [hh]) v hv) hd.2
      have hl : isLoc C g = true := by simp [isLoc, hg]
      refine ⟨vm', ?_, by rw [b2, a2], ?_, ?_⟩
      · rw [if_pos rfl, a1, Option.bind_some, b1, List.countP_cons_of_pos hl]
        congr 2; omega
      · intro i g' v hi hg' hv
        cases i with
        | zero =>
          simp only [List.getElem?_cons_zero, Option.some.injEq] at hi
          subst hi
          rw [b4 v (fun h hh _ => hd.1 h hh v hv), a3 v, if_pos hv]
          simp
        | succ i =>
          rw [List.getElem?_cons_succ] at hi
          rw [b3 i g' v hi hg' hv, List.take_succ_cons, List.countP_cons_of_pos hl]
          congr 2; omega
      · intro v hv
        rw [b4 v (fun h hh => hv h (by simp [hh])), a3 v, if_neg (hv g (by simp) hg)]
    · obtain ⟨vm', b1, b2, b3, b4⟩ := ih c vm (fun h hh => hk h (by simp [hh])) (fun h hh v hv => hm h (by simp [hh]) v hv) hd.2
      have hl : isLoc C g = false := by simp [isLoc, hg, h0]
      refine ⟨vm', ?_, b2, ?_, ?_⟩
      · rw [if_neg h0, b1, List.countP_cons_of_neg (by simp [hl])]
      · intro i g' v hi hg' hv
        cases i with
        | zero =>
          simp only [List.getElem?_cons_zero, Option.some.injEq] at hi
          subst hi
          rw [hg] at hg'
          exact absurd (Option.some.inj hg') h0
        | succ i =>
          rw [List.getElem?_cons_succ] at hi
          rw [b3 i g' v hi hg' hv, List.take_succ_cons, List.countP_cons_of_neg (by simp [hl])]
      · intro v hv
        exact b4 v (fun h hh => hv h (by simp [hh]))

/-- an entry that is as the vertices need it -/
def TodoOK (C : Ctx) (aggs : List Agg) (v2agg : List (Option ℕ)) (disps : List ℕ) (nv : ℕ) (tgt : ℕ → Option ℕ) (v : ℕ) (e : VEntry) : Prop :=
  v < nv ∧ ∀ (c id : ℕ), e = some (c, id) → ∃ k d o, C.eqcOfID id = some k ∧ disps[k]? = some d ∧ tgt v = some (d + c) ∧ v2agg[v]? = some o ∧
    ∀ a, o = some a → ∃ g, aggs[a]? = some g ∧ (g.center = v → ∀ m ∈ g.mems, m < nv ∧ tgt m = some (d + c))

/-- the vertices that are written because of the entry of `x` -/
def Writes (aggs : List Agg) (v2agg : List (Option ℕ)) (x : ℕ × VEntry) (v : ℕ) : Prop :=
  x.2 ≠ none ∧ (x.1 = v ∨ ∃ a g, v2agg[x.1]? = some (some a) ∧ aggs[a]? = some g ∧ g.center = x.1 ∧ v ∈ g.mems)

theorem finishV_spec {C : Ctx} {aggs : List Agg} {v2agg : List (Option ℕ)} {disps : List ℕ} {tgt : ℕ → Option ℕ} {vm : List (Option ℕ)}
    {v : ℕ} {e : VEntry} (h : TodoOK C aggs v2agg disps vm.length tgt v e) :
    ∃ vm', finishV C aggs v2agg disps vm v e = some vm' ∧ vm'.length = vm.length ∧
      ∀ w, (Writes aggs v2agg (v, e) w → vm'[w]? = some (tgt w)) ∧ (¬ Writes aggs v2agg (v, e) w → vm'[w]? = vm[w]?) := by
  obtain ⟨hv, h⟩ := h
  cases e with
  | none => exact ⟨vm, rfl, rfl, fun w => ⟨fun h => absurd rfl h.1, fun _ => rfl⟩⟩
  | some x =>
    obtain ⟨c, id⟩ := x
    obtain ⟨k, d, o, h1, h2, h3, h4, h5⟩ := h c id rfl
    unfold finishV
    simp only [h1, h2, Option.bind_some, if_pos hv, h4]
    have hset : ∀ w, (vm.set v (some (d + c)))[w]? = if v = w then some (tgt w) else vm[w]? := by
      intro w
      rw [List.getElem?_set]
      by_cases hw : v = w
      · subst hw; simp [hv, h3]
      · simp [hw]
    have hno : ∀ w, (∀ a g, v2agg[v]? = some (some a) → aggs[a]? = some g → g.center ≠ v) → 
        ((Writes aggs v2agg (v, some (c, id)) w → (vm.set v (some (d + c)))[w]? = some (tgt w)) ∧
          (¬ Writes aggs v2agg (v, some (c, id)) w → (vm.set v (some (d + c)))[w]? = vm[w]?)) := by
      intro w hn
      rw [hset w]
      constructor
      · rintro ⟨-, h | ⟨a, g, a1, a2, a3, -⟩⟩
        · rw [if_pos h]
        · exact absurd a3 (hn a g a1 a2)
      · intro h
        rw [if_neg]
        intro hw
        exact h ⟨by simp, Or.inl hw⟩
    cases o with
    | none =>
      refine ⟨_, rfl, by simp, fun w => hno w ?_⟩
      intro a g h; rw [h4] at h; simp at h
    | some a =>
      obtain ⟨g, g1, g2⟩ := h5 a rfl
      simp only [g1, Option.bind_some]
      by_cases hc : g.center = v
      · rw [if_pos hc]
        obtain ⟨out, o1, o2, o3⟩ := setAll_spec (vm := vm.set v (some (d + c))) (mems := g.mems)
          (by intro m hm; rw [List.length_set]; exact (g2 hc m hm).1) (d + c)
        refine ⟨out, o1, by rw [o2, List.length_set], fun w => ?_⟩
        rw [o3 w, hset w]
        constructor
        · rintro ⟨-, h | ⟨a', g', a1, a2, a3, a4⟩⟩
          · dsimp only at h
            by_cases hw : w ∈ g.mems
            · rw [if_pos hw, (g2 hc w hw).2]
            · rw [if_neg hw, if_pos h]
          · dsimp only at a1
            rw [h4] at a1; cases a1
            rw [g1] at a2; cases a2
            rw [if_pos a4, (g2 hc w a4).2]
        · intro h
          rw [if_neg, if_neg]
          · intro hw; exact h ⟨by simp, Or.inl hw⟩
          · intro hw; exact h ⟨by simp, Or.inr ⟨a, g, h4, g1, hc, hw⟩⟩
      · rw [if_neg hc]
        refine ⟨_, rfl, by simp, fun w => hno w ?_⟩
        intro a' g' a1 a2
        rw [h4] at a1; cases a1
        rw [g1] at a2; cases a2
        exact hc

theorem finishVs_spec {C : Ctx} {aggs : List Agg} {v2agg : List (Option ℕ)} {disps : List ℕ} {tgt : ℕ → Option ℕ} {vm : List (Option ℕ)}
    (todo : List (ℕ × VEntry)) (h : ∀ x ∈ todo, TodoOK C aggs v2agg disps vm.length tgt x.1 x.2) :
    ∃ vm', finishVs C aggs v2agg disps vm todo = some vm' ∧ vm'.length = vm.length ∧
      ∀ w, ((∃ x ∈ todo, Writes aggs v2agg x w) → vm'[w]? = some (tgt w)) ∧ ((¬ ∃ x ∈ todo, Writes aggs v2agg x w) → vm'[w]? = vm[w]?) := by
  induction todo generalizing vm with
  | nil => exact ⟨vm, rfl, rfl, by simp⟩
  | cons x xs ih =>
    obtain ⟨v1, a1, a2, a3⟩ := finishV_spec (h x (by simp))
    obtain ⟨vm', b1, b2, b3⟩ := ih (vm := v1) (by intro y hy; rw [a2]; exact h y (by simp [hy]))
    refine ⟨vm', ?_, by rw [b2, a2], fun w => ⟨?_, ?_⟩⟩
    · unfold finishVs
      rw [a1, Option.bind_some, b1]
    · rintro ⟨y, hy, hw⟩
      by_cases hr : ∃ y ∈ xs, Writes aggs v2agg y w
      · exact (b3 w).1 hr
      · rcases List.mem_cons.mp hy with rfl | hy
        · rw [(b3 w).2 hr]
          exact (a3 w).1 hw
        · exact absurd ⟨y, hy, hw⟩ hr
    · intro hn
      rw [(b3 w).2 (fun ⟨y, hy, hw⟩ => hn ⟨y, by simp [hy], hw⟩)]
      exact (a3 w).2 (fun hw => hn ⟨x, by simp, hw⟩)

/-! ### the agglomerates of a process -/

/-- what `MapVerts` asks for (agglomerate_map.cpp:109-117): the arrays fit together; the center of an agglomerate is a member; the processes that have
a member also have the center; the process that has the agglomerate is the smallest of them -/
structure AggsOK (np : ℕ) (C : ℕ → Ctx) (aggs : ℕ → List Agg) (v2agg : ℕ → List (Option ℕ)) : Prop where
  len : ∀ p < np, (v2agg p).length = (C p).nv
  v2a : ∀ p < np, ∀ v a : ℕ, (v2agg p)[v]? = some (some a) ↔ ∃ g, (aggs p)[a]? = some g ∧ v ∈ g.mems
  cen : ∀ p < np, ∀ g ∈ aggs p, g.center ∈ g.mems
  own : ∀ p < np, ∀ g ∈ aggs p, ∀ v ∈ g.mems, ∀ S r S' r', IsVert p (C p) v S r → IsVert p (C p) g.center S' r' →
    S ⊆ S' ∧ ∀ q ∈ S', p ≤ q

section
variable {np : ℕ} {C : ℕ → Ctx} (hM : Mesh np C)
include hM

theorem vertsOf_get {p k r v : ℕ} {d : List ℕ} (hp : p < np) (hk : (C p).T[k]? = some d) :
    (vertsOf (C p) k)[r]? = some v ↔ IsVert p (C p) v (members p d) r := by
  have hkl := (List.getElem?_eq_some_iff.mp hk).1
  have hdisp : ∀ j ≤ (C p).T.length, (C p).disp[j]? = some ((C p).disp.getD j 0) := by
    intro j hj
    have : j < (C p).disp.length := by rw [hM.dl p hp]; omega
    rw [List.getD_eq_getElem?_getD, List.getElem?_eq_getElem this]; rfl
  have hle := offsets_le (hM.offs p hp) (Nat.le_succ k) (hdisp k (by omega)) (hdisp (k + 1) (by omega))
  unfold vertsOf
  constructor
  · intro h
    have hl := (List.getElem?_eq_some_iff.mp h).1
    rw [List.length_range'] at hl
    rw [List.getElem?_range' hl] at h
    simp only [Option.some.injEq, Nat.one_mul] at h
    exact ⟨k, _, _, d, hk, rfl, hdisp k (by omega), hdisp (k + 1) (by omega), h.symm, by omega⟩
  · rintro ⟨k', a, b, d', h1, h2, h3, h4, h5, h6⟩
    have : k' = k := cls_eq (hM.tabs.ok p hp) h1 hk h2
    subst this
    rw [hdisp _ (by omega)] at h3 h4
    cases h3
    cases h4
    rw [List.getElem?_range' (by omega)]
    simp only [Nat.one_mul, h5]

theorem eqcV_iff {p v k : ℕ} (hp : p < np) (hv : v < (C p).nv) :
    (C p).eqcV v = some k ↔ ∃ d r, (C p).T[k]? = some d ∧ IsVert p (C p) v (members p d) r := by
  obtain ⟨k', a, b, d, h1, h2, h3, h4, h5⟩ := vert_block hM hp hv
  have hq := vert_query hM hp h1 h2 h3 h4 h5
  have hiv : IsVert p (C p) v (members p d) (v - a) := ⟨k', a, b, d, h1, rfl, h2, h3, by omega, h5⟩
  constructor
  · intro h
    rw [hq.1] at h
    cases h
    exact ⟨d, v - a, h1, hiv⟩
  · rintro ⟨d', r, g1, g2⟩
    obtain ⟨e1, -⟩ := isVert_unique hM hp hiv g2
    have : k' = k := cls_eq (hM.tabs.ok p hp) h1 g1 e1
    rw [hq.1, this]

theorem isVert_lt {p v r : ℕ} {S : Finset ℕ} (hp : p < np) (h : IsVert p (C p) v S r) : v < (C p).nv := by
  obtain ⟨k, a, b, d, h1, -, -, h4, -, h6⟩ := h
  exact lt_of_lt_of_le h6 (block_nv hM hp (List.getElem?_eq_some_iff.mp h1).1 h4)

end

end NgsAMG.CMap
