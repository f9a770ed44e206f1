import Verif.Props.HProl6

/-!
# Property C103: when the prolongation is computed, and an example
-/

namespace NgsAMG.HProl
open NgsAMG.Spec

section
variable {K : Type} [Field K] [LinearOrder K]

/-- what `prol` needs -/
structure Regular (I : Inp K) : Prop where
  /-- edges without Dirichlet conditions are mapped or inside an agglomerate -/
  free : ∀ e < I.nE, I.free e = true → I.emap e ≠ none ∨ (I.vmap (I.edge e).1 = I.vmap (I.edge e).2 ∧ I.vmap (I.edge e).1 ≠ none)
  /-- coarse edges with degrees of freedom have one with flow, and their fine edges have no Dirichlet conditions -/
  cross : ∀ E ∈ I.ces, I.cdofed E = true → I.cnd E ≠ 0 ∧ ∀ e ∈ c2f I.emap I.nE E, I.free e = true
  /-- coarse vertices have fine ones -/
  ne : ∀ C ∈ I.cvs, I.agg C ≠ []
  solid : ∀ C ∈ I.cvs, (∃ v ∈ I.agg C, I.ghost v = false) → Solid I C
  inner : ∀ C ∈ I.cvs, ∀ e, Interior I C e → I.free e = true
  vol : ∀ C ∈ I.cvs, 2 ≤ (I.agg C).length → (∀ v ∈ I.agg C, ¬ I.vol v < 0) ∧ I.cvol C ≠ 0
  det : ∀ C ∈ I.cvs, 2 ≤ (I.agg C).length → IsUnit (matM I (I.agg C)).det

/-- sizes of the rows -/
def Sized (I : Inp K) (P : Mat K) : Prop := ∀ x : Dof, x.1 < I.nE → (P x).length = (perow I x.1).getD 0

theorem writes_sized {I : Inp K} : ∀ (L : List (Dof × Row K)) (P Q : Mat K), L.foldlM setRow P = some Q → Sized I P → Sized I Q := by
  intro L
  induction L with
  | nil => intro P Q h hP; cases h; exact hP
  | cons a L ih =>
    intro P Q h hP
    rw [List.foldlM_cons] at h
    obtain ⟨P1, h1, h2⟩ := Option.bind_eq_some_iff.1 h
    unfold setRow at h1
    split at h1
    · rename_i hl
      cases h1
      refine ih _ _ h2 fun x hx => ?_
      by_cases hxa : x = a.1
      · subst hxa
        rw [Function.update_self, ← hl, hP _ hx]
      · rw [Function.update_of_ne hxa, hP x hx]
    · cases h1

theorem cross_total {I : Inp K} (hI : MeshOK I) (hR : Regular I) : ∀ (L : List ℕ), (∀ E ∈ L, E ∈ I.ces) → ∀ P : Mat K, Sized I P →
    ∃ Q, L.foldlM (crossStep I) P = some Q ∧ Sized I Q := by
  intro L
  induction L with
  | nil => intro _ P hP; exact ⟨P, rfl, hP⟩
  | cons E L ih =>
    intro hL P hP
    have hstep : ∃ P1, crossStep I P E = some P1 ∧ Sized I P1 := by
      unfold crossStep
      split
      · rename_i hd
        obtain ⟨h0, hfree⟩ := hR.cross E (hL E (by simp)) hd
        rw [if_neg h0]
        obtain ⟨Q, hQ⟩ := writes_total (crossRows I E) P (fun y hy => by
          have hin : y.1 ∈ dofs I.nd (c2f I.emap I.nE E) := by rw [← crossRows_fst]; exact List.mem_map_of_mem hy
          have he := (mem_dofs.1 hin).1
          rw [hP _ (mem_c2f.1 he).1]
          unfold perow
          rw [hfree _ he, (mem_c2f.1 he).2]
          unfold crossRows at hy
          obtain ⟨_, _, rfl⟩ := List.mem_map.1 hy
          simp) (crossRows_nodup I E)
        exact ⟨Q, hQ, writes_sized _ _ _ hQ hP⟩
      · exact ⟨P, rfl, hP⟩
    obtain ⟨P1, h1, s1⟩ := hstep
    obtain ⟨Q, h2, s2⟩ := ih (fun E' h => hL E' (by simp [h])) P1 s1
    refine ⟨Q, ?_, s2⟩
    rw [List.foldlM_cons, h1]
    exact h2

theorem dofs_length (nd : ℕ → ℕ) (L : List ℕ) : (dofs nd L).length = (L.map nd).sum := by
  unfold dofs
  rw [List.length_flatMap]
  congr 1
  exact List.map_congr_left fun e _ => by simp

theorem agg_total {I : Inp K} (hI : MeshOK I) (hR : Regular I) {P0 P1 : Mat K} (h0 : alloc I = some P0) (h1 : I.ces.foldlM (crossStep I) P0 = some P1)
    {C : ℕ} (hC : C ∈ I.cvs) {P : Mat K} (hs : Sized I P) (hfr : ∀ x, (∀ C', ¬ Interior I C' x.1) → P x = P1 x) : ∃ Q, aggStep I P C = some Q ∧ Sized I Q := by
  unfold aggStep
  rcases hh : (I.agg C).head? with _ | v0
  · exact absurd (List.head?_eq_none_iff.1 hh) (hR.ne C hC)
  simp only
  split_ifs with q1 q2 q3 q4
  all_goals try exact ⟨P, rfl, hs⟩
  have h2 : 2 ≤ (I.agg C).length := by omega
  have hS := hR.solid C hC ⟨v0, List.mem_of_mem_head? hh, by simpa using q1⟩
  have hok : okIdx I P (I.agg C) C = true := by
    unfold okIdx
    rw [Bool.and_eq_true, Bool.and_eq_true]
    refine ⟨⟨?_, ?_⟩, ?_⟩
    · refine List.all_eq_true.2 fun e he => ?_
      obtain ⟨v, w, hv, hw, hc⟩ := (mem_edgesI hI).1 he
      rcases (hI.ends _ _ _ hc).1 with p | p <;> simp [p, hv, hw]
    · refine List.all_eq_true.2 fun e he => ?_
      obtain ⟨v, w, hv, hw, hc⟩ := (mem_edgesF hI).1 he
      rcases (hI.ends _ _ _ hc).1 with p | p <;> simp [p, hv]
    · refine List.all_eq_true.2 fun x hx => List.all_eq_true.2 fun y hy => ?_
      obtain ⟨hx1, hx2⟩ := mem_dofs.1 hx
      have hxe := (mem_edgesF hI).1 hx1
      rw [hfr x fun C' => exterior_not_interior hI hxe] at hy
      rcases h : I.emap x.1 with _ | E
      · rw [unmapped_row hI h0 h1 hxe h] at hy
        cases hy
      · obtain ⟨D, hD⟩ := exterior_coarse hI hxe h
        have hin : x ∈ dofs I.nd (c2f I.emap I.nE E) := by
          obtain ⟨v, w, _, _, hc⟩ := hxe
          exact mem_dofs.2 ⟨mem_c2f.2 ⟨(hI.range _ _ _ hc).2, h⟩, hx2⟩
        obtain ⟨i, hi, rfl⟩ := List.getElem_of_mem hin
        have hz : ((dofs I.nd (c2f I.emap I.nE E))[i], i) ∈ (dofs I.nd (c2f I.emap I.nE E)).zipIdx := by
          rw [List.mem_zipIdx_iff_getElem?]
          simp [hi]
        rw [mapped_row hI h1 (hI.cfrom _ _ _ hD).1 (hS D E hD) hz] at hy
        obtain ⟨q, hq, rfl⟩ := List.mem_map.1 hy
        rw [List.contains_iff_mem, mem_dofs]
        exact ⟨mem_edgesC.2 ⟨D, hD⟩, List.mem_range.1 hq⟩
  obtain ⟨hv, hcv⟩ := hR.vol C hC h2
  obtain ⟨Q, hQ⟩ := writes_total (extRows I P (I.agg C) C) P (fun y hy => by
    have hin : y.1 ∈ dofs I.nd (edgesI I (I.agg C)) := by rw [← extRows_fst I P (I.agg C) C]; exact List.mem_map_of_mem hy
    have hint := (mem_edgesI hI).1 (mem_dofs.1 hin).1
    have hfree := hR.inner C hC _ hint
    have hy2 : y.2.length = (dofs I.cnd (edgesC I C)).length := by
      unfold extRows at hy
      obtain ⟨_, _, rfl⟩ := List.mem_map.1 hy
      simp
    rw [hy2, dofs_length]
    obtain ⟨v, w, hv, hw, hc⟩ := hint
    have hE : I.emap y.1.1 = none := hI.emapN _ _ _ hc (Or.inr ((agg_map hv).trans (agg_map hw).symm))
    rw [hs _ (hI.range _ _ _ hc).2]
    have hm : I.vmap (I.edge y.1.1).1 = some C ∧ I.vmap (I.edge y.1.1).2 = some C := by
      rcases (hI.ends _ _ _ hc).1 with p | p <;> rw [p]
      · exact ⟨agg_map hv, agg_map hw⟩
      · exact ⟨agg_map hw, agg_map hv⟩
    unfold perow edgesC
    rw [((List.perm_insertionSort (· ≤ ·) ((I.ccon C).map Prod.snd)).map _).sum_eq, List.map_map]
    simp only [hfree, hE, hm.1, hm.2, Bool.not_true, Bool.false_eq_true, if_false, if_true, Option.map_some, Option.getD_some]
    rfl) (by
    rw [extRows_fst]
    exact dofs_nodup (edgesI_nodup hI C))
  refine ⟨Q, ?_, writes_sized _ _ _ hQ hs⟩
  unfold solveAgg
  rw [if_neg, if_neg hcv, if_neg (by rw [hok]; simp), if_pos (hR.det C hC h2)]
  · exact hQ
  · intro h
    obtain ⟨v, hvm, hneg⟩ := List.any_eq_true.1 h
    exact hv v hvm (by simpa using hneg)

/-- **C103.** No exceptions, and no indices out of range. -/
theorem prol_total {I : Inp K} (hI : MeshOK I) (hR : Regular I) : ∃ P, prol I = some P := by
  have h0 : ∃ P0, alloc I = some P0 ∧ Sized I P0 := by
    unfold alloc
    rw [if_pos]
    · exact ⟨_, rfl, fun x hx => by simp⟩
    · refine List.all_eq_true.2 fun e he => ?_
      have he := List.mem_range.1 he
      unfold perow
      by_cases hf : I.free e = true
      · rw [hf]
        rcases hE : I.emap e with _ | E
        · rcases hR.free e he hf with h | ⟨h, h'⟩
          · exact absurd hE h
          · obtain ⟨C, hC⟩ := Option.ne_none_iff_exists'.1 h'
            simp only [Bool.not_true, Bool.false_eq_true, if_false]
            rw [if_pos h, hC]
            rfl
        · rfl
      · simp [hf]
  obtain ⟨P0, h0, s0⟩ := h0
  obtain ⟨P1, h1, s1⟩ := cross_total hI hR I.ces (fun _ h => h) P0 s0
  have key : ∀ (L : List ℕ), (∀ C ∈ L, C ∈ I.cvs) → ∀ P : Mat K, Sized I P → (∀ x, (∀ C', ¬ Interior I C' x.1) → P x = P1 x) → ∃ Q, L.foldlM (aggStep I) P = some Q := by
    intro L
    induction L with
    | nil => intro _ P _ _; exact ⟨P, rfl⟩
    | cons C L ih =>
      intro hL P hs hfr
      obtain ⟨P2, h2, s2⟩ := agg_total hI hR h0 h1 (hL C (by simp)) hs hfr
      obtain ⟨Q, hQ⟩ := ih (fun C' h => hL C' (by simp [h])) P2 s2 fun x hx => by rw [aggStep_frame hI h2 x (hx C), hfr x hx]
      refine ⟨Q, ?_⟩
      rw [List.foldlM_cons, h2]
      exact hQ
  obtain ⟨Q, hQ⟩ := key I.cvs (fun _ h => h) P1 s1 fun _ _ => rfl
  refine ⟨Q, ?_⟩
  unfold prol
  rw [h0, Option.bind_some, h1, Option.bind_some, hQ]

end

/-! ### an agglomerate of three elements next to one of a single element; a Dirichlet edge; two fine edges for the coarse edge, one with two basis functions -/

def inp8 : Inp ℚ where
  nV := 5
  nE := 6
  con := fun v => if v = 0 then [(1, 0), (2, 2), (4, 4)] else if v = 1 then [(0, 0), (2, 1), (3, 5)] else if v = 2 then [(1, 1), (0, 2), (3, 3)] else
    if v = 3 then [(2, 3), (1, 5)] else if v = 4 then [(0, 4)] else []
  edge := fun e => if e = 0 then (0, 1) else if e = 1 then (1, 2) else if e = 2 then (0, 2) else if e = 3 then (2, 3) else if e = 4 then (0, 4) else (1, 3)
  vol := fun v => v + 1
  flow := fun e => if e = 1 then -1 else if e = 2 then 2 else 1
  nd := fun e => if e = 3 then 2 else 1
  free := fun e => e != 4
  ghost := fun _ => false
  vmap := fun v => if v < 3 then some 0 else if v = 3 then some 1 else none
  emap := fun e => if e = 3 ∨ e = 5 then some 0 else none
  cvs := [0, 1]
  ces := [0]
  ccon := fun C => if C = 0 then [(1, 0)] else if C = 1 then [(0, 0)] else []
  cedge := fun _ => (0, 1)
  cdofed := fun _ => true
  cnd := fun _ => 2
  pblk := fun _ r q => if q = 0 then (if r = 1 then 0 else 1) else if r = 2 then -1 else 1
  cvol := fun C => if C = 0 then 6 else 4
  cflow0 := fun _ => 0
  mat := fun x => if x = (0, 0) then [((0, 0), 2), ((3, 1), 1)] else if x = (3, 1) then [((0, 0), 1), ((3, 1), 2)] else [(x, 1)]
  junk := (0, 0)

def unkIdx {I : Inp ℚ} {a : List ℕ} : Unk I a → ℕ
  | .inl i => i.val
  | .inr (.inl r) => (dofs I.nd (edgesI I a)).length + r.val
  | .inr (.inr _) => (dofs I.nd (edgesI I a)).length + a.length

/-- a table as a matrix -/
def tabM (I : Inp ℚ) (a : List ℕ) (t : List (List ℚ)) : Matrix (Unk I a) (Unk I a) ℚ := fun p q => (t.getD (unkIdx p) []).getD (unkIdx q) 0

theorem unit_of_tab {I : Inp ℚ} {a : List ℕ} (t : List (List ℚ)) (h : ∀ p q : Unk I a, ∑ r, tabM I a t p r * matM I a r q = if p = q then (1 : ℚ) else 0) :
    IsUnit (matM I a).det := by
  have h : tabM I a t * matM I a = 1 := by
    ext p q
    rw [Matrix.mul_apply, Matrix.one_apply]
    exact h p q
  exact Matrix.isUnit_det_of_left_inverse h

theorem inp8_unit : IsUnit (matM inp8 (inp8.agg 0)).det :=
  unit_of_tab [[4/13, -4/13, -2/13, 2/13, -3/13, 1/13, 0], [-4/13, 4/13, 2/13, 7/39, -17/39, 10/39, 0], [-2/13, 2/13, 1/13, 10/39, -2/39, -8/39, 0],
    [2/13, 7/39, 10/39, -17/117, 19/117, -2/117, 1/3], [-3/13, -17/39, -2/39, 19/117, -35/117, 16/117, 1/3], [1/13, 10/39, -8/39, -2/117, 16/117, -14/117, 1/3],
    [0, 0, 0, 1/3, 1/3, 1/3, 0]] (by decide +kernel)

theorem forall_list {α : Type} {l : List α} {p : α → Prop} (h : ∀ x ∈ l, p x) {x : α} (hx : x ∈ l) : p x := h x hx

/-- the entries of `con`: vertex, neighbour, edge -/
def inp8L : List (ℕ × ℕ × ℕ) := [(0, 1, 0), (0, 2, 2), (0, 4, 4), (1, 0, 0), (1, 2, 1), (1, 3, 5), (2, 1, 1), (2, 0, 2), (2, 3, 3), (3, 2, 3), (3, 1, 5), (4, 0, 4)]

theorem inp8_con {v w e : ℕ} (h : (w, e) ∈ inp8.con v) : (v, w, e) ∈ inp8L := by
  by_cases hv : v < 5
  · have : ∀ v < 5, ∀ x ∈ inp8.con v, (v, x.1, x.2) ∈ inp8L := by decide +kernel
    exact this v hv _ h
  · simp only [inp8] at h
    rw [if_neg (by omega), if_neg (by omega), if_neg (by omega), if_neg (by omega), if_neg (by omega)] at h
    cases h

theorem inp8_ccon {C D E : ℕ} (h : (D, E) ∈ inp8.ccon C) : (C, D, E) ∈ [(0, 1, 0), (1, 0, 0)] := by
  simp only [inp8] at h
  split_ifs at h <;> simp at h <;> simp <;> omega

theorem inp8_ok : MeshOK inp8 where
  ends := fun v w e h => forall_list (p := fun x : ℕ × ℕ × ℕ => (inp8.edge x.2.2 = (x.1, x.2.1) ∨ inp8.edge x.2.2 = (x.2.1, x.1)) ∧ x.1 ≠ x.2.1) (by decide +kernel) (inp8_con h)
  symm := fun v w e h => forall_list (p := fun x : ℕ × ℕ × ℕ => (x.1, x.2.2) ∈ inp8.con x.2.1) (by decide +kernel) (inp8_con h)
  once := fun v => by
    simp only [inp8]
    split_ifs <;> simp
  range := fun v w e h => forall_list (p := fun x : ℕ × ℕ × ℕ => x.1 < inp8.nV ∧ x.2.2 < inp8.nE) (by decide +kernel) (inp8_con h)
  all := by decide +kernel
  emap := fun v w e C D h hv hw hCD => by
    have := forall_list (p := fun x : ℕ × ℕ × ℕ => ∀ C ∈ [0, 1], ∀ D ∈ [0, 1], inp8.vmap x.1 = some C → inp8.vmap x.2.1 = some D → C ≠ D →
      ∃ E ∈ [0], inp8.emap x.2.2 = some E ∧ (D, E) ∈ inp8.ccon C) (by decide +kernel) (inp8_con h)
    have hm : ∀ v C, inp8.vmap v = some C → C ∈ [0, 1] := by
      intro v C h
      simp only [inp8] at h
      split_ifs at h <;> simp at h <;> simp [← h]
    obtain ⟨E, _, h1, h2⟩ := this C (hm _ _ hv) D (hm _ _ hw) hv hw hCD
    exact ⟨E, h1, h2⟩
  emapN := fun v w e h => forall_list (p := fun x : ℕ × ℕ × ℕ => inp8.vmap x.1 = none ∨ inp8.vmap x.1 = inp8.vmap x.2.1 → inp8.emap x.2.2 = none) (by decide +kernel) (inp8_con h)
  cends := fun C D E h => forall_list (p := fun x : ℕ × ℕ × ℕ => (inp8.cedge x.2.2 = (x.1, x.2.1) ∨ inp8.cedge x.2.2 = (x.2.1, x.1)) ∧ x.1 ≠ x.2.1) (by decide +kernel) (inp8_ccon h)
  conce := fun C => by
    simp only [inp8]
    split_ifs <;> simp
  cfrom := fun C D E h => forall_list (p := fun x : ℕ × ℕ × ℕ => x.2.2 ∈ inp8.ces ∧ ∃ e < inp8.nE, inp8.emap e = some x.2.2) (by decide +kernel) (inp8_ccon h)
  cvs := by decide
  ces := by decide

theorem inp8_int : ∀ e, Interior inp8 0 e → e ∈ [0, 1, 2] := by
  rintro e ⟨v, w, hv, hw, hc⟩
  have := forall_list (p := fun x : ℕ × ℕ × ℕ => x.1 ∈ inp8.agg 0 → x.2.1 ∈ inp8.agg 0 → x.2.2 ∈ [0, 1, 2]) (by decide +kernel) (inp8_con hc)
  exact this hv hw

theorem inp8_reg : Regular inp8 where
  free := by decide +kernel
  cross := by decide +kernel
  ne := by decide +kernel
  solid := fun _ _ _ _ _ _ => rfl
  inner := fun C hC e h => by
    obtain ⟨v, w, hv, hw, hc⟩ := h
    have := forall_list (p := fun x : ℕ × ℕ × ℕ => ∀ C ∈ inp8.cvs, x.1 ∈ inp8.agg C → x.2.1 ∈ inp8.agg C → inp8.free x.2.2 = true) (by decide +kernel) (inp8_con hc)
    exact this C hC hv hw
  vol := by decide +kernel
  det := by
    intro C hC h
    have : ∀ C ∈ inp8.cvs, 2 ≤ (inp8.agg C).length → C = 0 := by decide +kernel
    obtain rfl := this C hC h
    exact inp8_unit

theorem inp8_flow : FlowOK inp8 := by
  intro E hE _ q h1 h2
  simp only [inp8, List.mem_singleton] at hE
  subst hE
  have : q < 2 := h2
  obtain rfl : q = 1 := by omega
  decide +kernel

theorem inp8_local : LocalMat inp8 0 := by
  intro x hx
  obtain ⟨e, l⟩ := x
  have he := inp8_int e hx.1
  have hl : l < inp8.nd e := hx.2
  have : ∀ e ∈ [0, 1, 2], inp8.nd e = 1 := by decide
  rw [this e he] at hl
  obtain rfl : l = 0 := by omega
  have h0 : Interior inp8 0 0 := ⟨0, 1, by decide +kernel, by decide +kernel, by decide +kernel⟩
  have h3 : Exterior inp8 0 3 := ⟨2, 3, by decide +kernel, by decide +kernel, by decide +kernel⟩
  simp only [List.mem_cons, List.not_mem_nil, or_false] at he
  rcases he with rfl | rfl | rfl
  · have : inp8.mat (0, 0) = [((0, 0), 2), ((3, 1), 1)] := by decide +kernel
    rw [this]
    refine ⟨by decide, fun y hy => ?_⟩
    simp only [List.mem_cons, List.not_mem_nil, or_false] at hy
    rcases hy with rfl | rfl
    · exact ⟨Or.inl h0, by decide +kernel⟩
    · exact ⟨Or.inr h3, by decide +kernel⟩
  · have : inp8.mat (1, 0) = [((1, 0), 1)] := by decide +kernel
    rw [this]
    refine ⟨by decide, fun y hy => ?_⟩
    obtain rfl := List.mem_singleton.1 hy
    exact ⟨Or.inl hx.1, by decide +kernel⟩
  · have : inp8.mat (2, 0) = [((2, 0), 1)] := by decide +kernel
    rw [this]
    refine ⟨by decide, fun y hy => ?_⟩
    obtain rfl := List.mem_singleton.1 hy
    exact ⟨Or.inl hx.1, by decide +kernel⟩

theorem inp8_ext : ∃ e, Exterior inp8 0 e := ⟨3, 2, 3, by decide +kernel, by decide +kernel, by decide +kernel⟩

/-- the hypotheses of `div_const` for this case: 1/6, 2/6 and 3/6 of the flow 2 come out of the vertices -/
example : ∃ P, prol inp8 = some P ∧ ∀ (c : Dof → ℚ) (v : ℕ), v < 3 →
    outOf inp8.con inp8.edge (edgeFlow inp8.flow inp8.nd (field P c)) v * 6 = (v + 1) * (2 * c (0, 0)) := by
  obtain ⟨P, hP⟩ := prol_total inp8_ok inp8_reg
  refine ⟨P, hP, fun c v hv => ?_⟩
  have hc : v ∈ inp8.agg 0 := by
    have : ∀ v < 3, v ∈ inp8.agg 0 := by decide +kernel
    exact this v hv
  have := div_const inp8_ok inp8_flow hP (C := 0) (by decide) (fun _ _ _ => rfl) (fun _ _ => rfl)
    (fun _ => ⟨0, 0, 1, by decide +kernel, by decide +kernel, by decide +kernel⟩) (by decide +kernel) c hc
  have e1 : inp8.cvol 0 = 6 := by decide +kernel
  have e2 : outOf inp8.ccon inp8.cedge (edgeFlow (cflow inp8) inp8.cnd c) 0 = 2 * c (0, 0) := by
    have h1 : inp8.ccon 0 = [(1, 0)] := rfl
    have h2 : cflow inp8 0 = 2 := by decide +kernel
    unfold outOf
    rw [h1, List.map_singleton, List.sum_singleton, edgeFlow_first (by decide), h2]
    rfl
  rw [e1, e2] at this
  exact this

/-- a field -/
def w8 : Dof → ℚ := fun x => if x = (0, 0) then -19/39 else if x = (1, 0) then -7/39 else if x = (2, 0) then 16/39 else if x = (3, 0) then 2 else if x = (3, 1) then 1 else 0

theorem field8 {P : Mat ℚ} (hP : prol inp8 = some P) : field P (fun _ => 1) (3, 0) = 2 ∧ field P (fun _ => 1) (3, 1) = 1 ∧ field P (fun _ => 1) (4, 0) = 0 ∧ field P (fun _ => 1) (5, 0) = 0 := by
  obtain ⟨P0, P1, h0, h1, hfr⟩ := prol_cross hP inp8_ok
  have hm : ∀ e ∈ [3, 5], inp8.emap e = some 0 := by decide +kernel
  have hrow : ∀ e i l, e ∈ [3, 5] → ((e, l), i) ∈ (dofs inp8.nd (c2f inp8.emap inp8.nE 0)).zipIdx →
      field P (fun _ => 1) (e, l) = ((List.range 2).map fun q => inp8.pblk 0 i q * 1).sum := by
    intro e i l he hz
    unfold field
    rw [hfr (e, l) (mapped_not_interior inp8_ok (hm e he)), mapped_row inp8_ok h1 (by decide) rfl hz]
    unfold rowVal
    rw [List.map_map]
    rfl
  refine ⟨(hrow 3 0 0 (by decide) (by decide +kernel)).trans (by decide +kernel), (hrow 3 1 1 (by decide) (by decide +kernel)).trans (by decide +kernel), ?_,
    (hrow 5 2 0 (by decide) (by decide +kernel)).trans (by decide +kernel)⟩
  have hx : Exterior inp8 0 4 := ⟨0, 4, by decide +kernel, by decide +kernel, by decide +kernel⟩
  unfold field
  rw [hfr (4, 0) fun C' => exterior_not_interior inp8_ok hx, unmapped_row inp8_ok h0 h1 hx (by decide +kernel)]
  rfl

/-- the hypotheses of `reproduces_const` for this case, with pressures 3/39, 2/39 and -5/39 -/
example : ∃ P, prol inp8 = some P ∧ field P (fun _ => 1) (0, 0) = -19/39 := by
  obtain ⟨P, hP⟩ := prol_total inp8_ok inp8_reg
  refine ⟨P, hP, ?_⟩
  obtain ⟨f30, f31, f40, f50⟩ := field8 hP
  refine reproduces_const inp8_ok inp8_flow hP (C := 0) (by decide) (fun _ _ _ => rfl) (fun _ _ => rfl) (by decide +kernel) inp8_ext inp8_local (by decide +kernel) (fun _ => 1) w8 ?_
    (fun v => if v = 0 then 3/39 else if v = 1 then 2/39 else -5/39) ?_ (1/3) (by decide +kernel) (0, 0) ⟨⟨0, 1, by decide +kernel, by decide +kernel, by decide +kernel⟩, by decide +kernel⟩
  · rintro ⟨e, l⟩ ⟨v, w, hv, hw, hc⟩ hl
    have := forall_list (p := fun x : ℕ × ℕ × ℕ => x.1 ∈ inp8.agg 0 → x.2.1 ∉ inp8.agg 0 → x.2.2 ∈ [3, 4, 5]) (by decide +kernel) (inp8_con hc)
    have := this hv hw
    simp only [List.mem_cons, List.not_mem_nil, or_false] at this
    rcases this with rfl | rfl | rfl
    · have : l < 2 := hl
      obtain rfl | rfl : l = 0 ∨ l = 1 := by omega
      · rw [f30]; decide +kernel
      · rw [f31]; decide +kernel
    · have : l < 1 := hl
      obtain rfl : l = 0 := by omega
      rw [f40]; decide +kernel
    · have : l < 1 := hl
      obtain rfl : l = 0 := by omega
      rw [f50]; decide +kernel
  · rintro ⟨e, l⟩ hx
    have he := inp8_int e hx.1
    have hl : l < inp8.nd e := hx.2
    have : ∀ e ∈ [0, 1, 2], inp8.nd e = 1 := by decide
    rw [this e he] at hl
    obtain rfl : l = 0 := by omega
    exact forall_list (p := fun e => rowVal (inp8.mat (e, 0)) w8 = if (e, 0).2 = 0 then
      ((fun v => if v = 0 then 3/39 else if v = 1 then 2/39 else -5/39) (inp8.edge (e, 0).1).1 - (fun v => if v = 0 then 3/39 else if v = 1 then 2/39 else -5/39) (inp8.edge (e, 0).1).2) * inp8.flow (e, 0).1 else 0)
      (by decide +kernel) he

/-- all degrees of freedom -/
def T8 : Finset Dof := {(0, 0), (1, 0), (2, 0), (3, 0), (3, 1), (4, 0), (5, 0)}

theorem energy8 (a b : Dof → ℚ) : ∑ x ∈ T8, a x * rowVal (inp8.mat x) b =
    a (0, 0) * (2 * b (0, 0) + b (3, 1)) + a (1, 0) * b (1, 0) + a (2, 0) * b (2, 0) + a (3, 0) * b (3, 0) + a (3, 1) * (b (0, 0) + 2 * b (3, 1)) + a (4, 0) * b (4, 0) + a (5, 0) * b (5, 0) := by
  simp [T8, inp8, rowVal]
  ring

/-- the hypotheses of `minimal` and `orthogonal` for this case -/
example : ∃ P, prol inp8 = some P ∧ ∀ (c w : Dof → ℚ), (∀ x, ¬ Inside inp8 0 x → w x = field P c x) →
    (∀ v ∈ inp8.agg 0, outOf inp8.con inp8.edge (edgeFlow inp8.flow inp8.nd w) v = outOf inp8.con inp8.edge (edgeFlow inp8.flow inp8.nd (field P c)) v) →
    ∑ x ∈ T8, field P c x * rowVal (inp8.mat x) (field P c) ≤ ∑ x ∈ T8, w x * rowVal (inp8.mat x) w := by
  obtain ⟨P, hP⟩ := prol_total inp8_ok inp8_reg
  refine ⟨P, hP, fun c w h1 h2 => ?_⟩
  refine minimal inp8_ok hP (C := 0) (by decide) (fun _ _ _ => rfl) (fun _ _ => rfl) (by decide +kernel) inp8_ext inp8_local c ?_ ?_ ?_ w h1 h2
  · rintro ⟨e, l⟩ hx
    have he := inp8_int e hx.1
    have hl : l < inp8.nd e := hx.2
    have : ∀ e ∈ [0, 1, 2], inp8.nd e = 1 := by decide
    rw [this e he] at hl
    obtain rfl : l = 0 := by omega
    exact forall_list (p := fun e => (e, 0) ∈ T8) (by decide) he
  · intro a b
    rw [energy8, energy8]
    ring
  · intro a
    rw [energy8]
    nlinarith [sq_nonneg (a (0, 0) + a (3, 1)), sq_nonneg (a (0, 0)), sq_nonneg (a (3, 1)), sq_nonneg (a (1, 0)), sq_nonneg (a (2, 0)), sq_nonneg (a (3, 0)), sq_nonneg (a (4, 0)), sq_nonneg (a (5, 0))]

end NgsAMG.HProl
