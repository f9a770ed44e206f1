import Verif.Props.CoarseMapSV2

/-!
# C93: `MapVerts_sv`, the loop over the agglomerates of a process
-/

namespace NgsAMG.CMap

open NgsAMG.EQC NgsAMG.RedTab NgsAMG.Exch NgsAMG.BTM

/-- an entry of a table -/
def get2 {α : Type} (t : List (List α)) (k l : ℕ) : Option α := (t[k]?).bind fun row => row[l]?

/-- two tables have rows of the same sizes -/
def SameShape {α : Type} (t t' : List (List α)) : Prop := ∀ k : ℕ, (t'[k]?).map List.length = (t[k]?).map List.length

theorem SameShape.trans {α : Type} {t t' t'' : List (List α)} (h : SameShape t t') (h' : SameShape t' t'') : SameShape t t'' := fun k => (h' k).trans (h k)

theorem SameShape.isSome {α : Type} {t t' : List (List α)} (h : SameShape t t') (k l : ℕ) : (get2 t' k l).isSome = (get2 t k l).isSome := by
  unfold get2
  have := h k
  cases h1 : t[k]? with
  | none =>
    rw [h1, Option.map_none, Option.map_eq_none_iff] at this
    rw [this]
  | some r =>
    rw [h1] at this
    cases h2 : t'[k]? with
    | none => rw [h2] at this; simp at this
    | some r' =>
      rw [h2] at this
      simp at this
      rw [Option.bind_some, Option.bind_some, Bool.eq_iff_iff]
      simp only [Option.isSome_iff_exists, List.getElem?_eq_some_iff]
      constructor
      · rintro ⟨_, hl, _⟩
        exact ⟨_, by omega, rfl⟩
      · rintro ⟨_, hl, _⟩
        exact ⟨_, by omega, rfl⟩

theorem putTab_spec {α : Type} {t : List (List α)} {k l : ℕ} (x : α) (h : (get2 t k l).isSome = true) :
    ∃ t', putTab t k l x = some t' ∧ SameShape t t' ∧ ∀ k' l', get2 t' k' l' = if k' = k ∧ l' = l then some x else get2 t k' l' := by
  unfold get2 at h
  cases hk : t[k]? with
  | none => rw [hk] at h; simp at h
  | some row =>
    rw [hk] at h
    simp at h
    have hkl := (List.getElem?_eq_some_iff.mp hk).1
    refine ⟨t.set k (row.set l x), ?_, ?_, ?_⟩
    · unfold putTab
      rw [hk, Option.bind_some, if_pos h]
    · intro k'
      rw [List.getElem?_set]
      by_cases he : k = k'
      · subst he
        rw [if_pos rfl, if_pos hkl, hk]
        simp
      · rw [if_neg he]
    · intro k' l'
      unfold get2
      rw [List.getElem?_set]
      by_cases he : k = k'
      · subst he
        rw [if_pos rfl, if_pos hkl, hk, Option.bind_some, Option.bind_some, List.getElem?_set]
        by_cases hl : l = l'
        · subst hl; simp [h]
        · rw [if_neg hl, if_neg (by rintro ⟨-, rfl⟩; exact hl rfl)]
      · rw [if_neg he, if_neg (by rintro ⟨rfl, -⟩; exact he rfl)]

/-- the place of a shared vertex in the tables -/
def PlaceOf (C : Ctx) (v k l : ℕ) : Prop := C.disp.getD 1 0 - C.disp.getD 0 0 ≤ v ∧ C.eqcV v = some k ∧ C.locV v = some l

theorem memSV_spec {C : Ctx} (nr : ℕ) (e : ℕ × ℕ × ℕ) (mems : List ℕ) (s : List (Option ℕ) × List (List SVEntry))
    (h : ∀ v ∈ mems, v < s.1.length ∧ (C.disp.getD 1 0 - C.disp.getD 0 0 ≤ v → ∃ k l, C.eqcV v = some k ∧ C.locV v = some l ∧ (get2 s.2 k l).isSome = true)) :
    ∃ r, mems.foldlM (memSV C nr e) s = some r ∧ r.1.length = s.1.length ∧ SameShape s.2 r.2 ∧
      (∀ w, (w ∈ mems → r.1[w]? = some (some nr)) ∧ (w ∉ mems → r.1[w]? = s.1[w]?)) ∧
      ∀ k l, ((∃ v ∈ mems, PlaceOf C v k l) → get2 r.2 k l = some (some e)) ∧ ((¬ ∃ v ∈ mems, PlaceOf C v k l) → get2 r.2 k l = get2 s.2 k l) := by
  induction mems generalizing s with
  | nil => exact ⟨s, rfl, rfl, fun _ => rfl, by simp, by simp⟩
  | cons v vs ih =>
    obtain ⟨hv, hp⟩ := h v (by simp)
    obtain ⟨s1, a1, a2, a3, a4, a5⟩ : ∃ s1, memSV C nr e s v = some s1 ∧ s1.1 = s.1.set v (some nr) ∧ SameShape s.2 s1.2 ∧
        (∀ k l, PlaceOf C v k l → get2 s1.2 k l = some (some e)) ∧ ∀ k l, ¬ PlaceOf C v k l → get2 s1.2 k l = get2 s.2 k l := by
      unfold memSV
      rw [if_pos hv]
      by_cases hl : v < C.disp.getD 1 0 - C.disp.getD 0 0
      · rw [if_pos hl]
        exact ⟨_, rfl, rfl, fun _ => rfl, fun k l hpl => absurd hpl.1 (by omega), fun _ _ _ => rfl⟩
      · rw [if_neg hl]
        obtain ⟨k, l, p1, p2, p3⟩ := hp (by omega)
        obtain ⟨t', t1, t2, t3⟩ := putTab_spec (some e) p3
        rw [p1, Option.bind_some, p2, Option.bind_some, t1]
        refine ⟨_, rfl, rfl, t2, fun k' l' hpl => ?_, fun k' l' hpl => ?_⟩
        · obtain ⟨-, q1, q2⟩ := hpl
          rw [p1] at q1; cases q1
          rw [p2] at q2; cases q2
          rw [t3, if_pos ⟨rfl, rfl⟩]
        · rw [t3, if_neg]
          rintro ⟨rfl, rfl⟩
          exact hpl ⟨by omega, p1, p2⟩
    obtain ⟨r, r1, r2, r3, r4, r5⟩ := ih s1 (by
      intro w hw
      obtain ⟨w1, w2⟩ := h w (by simp [hw])
      refine ⟨by rw [a2, List.length_set]; exact w1, fun hle => ?_⟩
      obtain ⟨k, l, k1, k2, k3⟩ := w2 hle
      exact ⟨k, l, k1, k2, by rw [a3.isSome]; exact k3⟩)
    refine ⟨r, ?_, by rw [r2, a2, List.length_set], a3.trans r3, ?_, ?_⟩
    · rw [List.foldlM_cons, a1]
      exact r1
    · intro w
      constructor
      · intro hw
        by_cases hvs : w ∈ vs
        · exact (r4 w).1 hvs
        · have : w = v := by simpa [hvs] using hw
          subst this
          rw [(r4 w).2 hvs, a2, List.getElem?_set_self hv]
      · intro hw
        rw [List.mem_cons, not_or] at hw
        rw [(r4 w).2 hw.2, a2, List.getElem?_set_ne (fun h => hw.1 h.symm)]
    · intro k l
      constructor
      · rintro ⟨w, hw, hpl⟩
        by_cases hvs : ∃ w ∈ vs, PlaceOf C w k l
        · exact (r5 k l).1 hvs
        · rw [(r5 k l).2 hvs]
          rcases List.mem_cons.mp hw with rfl | hw
          · exact a4 k l hpl
          · exact absurd ⟨w, hw, hpl⟩ hvs
      · intro hn
        rw [(r5 k l).2 (fun ⟨w, hw, hpl⟩ => hn ⟨w, by simp [hw], hpl⟩)]
        exact a5 k l (fun hpl => hn ⟨v, by simp, hpl⟩)

/-- what the loop uses of the agglomerate `a`: class and identifier of the class of the center, position of the process, offset -/
structure AggLoc (C : Ctx) (rank : ℕ) (red : List (List ℕ)) (aggs : List Agg) (kf idf kpf off : ℕ → ℕ) : Prop where
  cen : ∀ (a : ℕ) (g : Agg), aggs[a]? = some g → C.eqcV g.center = some (kf a) ∧ C.ids[kf a]? = some (idf a) ∧
    kpOf rank (C.T.getD (kf a) []) = some (kpf a) ∧ get2 red (kf a) (kpf a) = some (off a)
  mems : ∀ g ∈ aggs, ∀ v ∈ g.mems, v < C.disp.getLastD 0 ∧ (C.disp.getD 1 0 - C.disp.getD 0 0 ≤ v →
    ∃ k l, C.eqcV v = some k ∧ C.locV v = some l ∧ (get2 (initSV C red).ex k l).isSome = true)
  loc : ∀ (a : ℕ) (g : Agg), aggs[a]? = some g → kf a = 0 → ∀ v ∈ g.mems, v < C.disp.getD 1 0 - C.disp.getD 0 0
  disj : ∀ (a b : ℕ) (g h : Agg), aggs[a]? = some g → aggs[b]? = some h → ∀ v ∈ g.mems, v ∈ h.mems → a = b
  inj : ∀ g ∈ aggs, ∀ h ∈ aggs, ∀ v ∈ g.mems, ∀ w ∈ h.mems, ∀ k l, PlaceOf C v k l → PlaceOf C w k l → v = w

/-- the state after the first `n` agglomerates -/
structure LoopInv (C : Ctx) (red : List (List ℕ)) (aggs : List Agg) (kf idf kpf off : ℕ → ℕ) (n : ℕ) (st : SVSt) : Prop where
  rc : ∀ (b : ℕ) (g : Agg), aggs[b]? = some g → get2 st.rc (kf b) (kpf b) = some ((aggs.take n).countP (cenIn C (kf b)))
  len : st.vm.length = C.disp.getLastD 0
  shape : SameShape (initSV C red).ex st.ex
  vm : ∀ (a : ℕ) (g : Agg), a < n → aggs[a]? = some g → ∀ v ∈ g.mems, st.vm[v]? = some (some (off a + (aggs.take a).countP (cenIn C (kf a))))
  vm0 : ∀ v < C.disp.getLastD 0, (∀ (a : ℕ) (g : Agg), a < n → aggs[a]? = some g → v ∉ g.mems) → st.vm[v]? = some none
  ex : ∀ (a : ℕ) (g : Agg), a < n → aggs[a]? = some g → ∀ v ∈ g.mems, ∀ k l, PlaceOf C v k l →
    get2 st.ex k l = some (some (idf a, kpf a, (aggs.take a).countP (cenIn C (kf a))))
  ex0 : ∀ k l, (∀ (a : ℕ) (g : Agg), a < n → aggs[a]? = some g → ∀ v ∈ g.mems, ¬ PlaceOf C v k l) → get2 st.ex k l = get2 (initSV C red).ex k l

section
variable {C : Ctx} {rank : ℕ} {red : List (List ℕ)} {aggs : List Agg} {kf idf kpf off : ℕ → ℕ} (hL : AggLoc C rank red aggs kf idf kpf off)
include hL

theorem loop_init : LoopInv C red aggs kf idf kpf off 0 (initSV C red) where
  rc b g hg := by
    obtain ⟨-, -, -, h4⟩ := hL.cen b g hg
    unfold get2 at h4 ⊢
    show (((red.map fun row => List.replicate row.length 0)[kf b]?).bind fun row => row[kpf b]?) = _
    rw [List.getElem?_map]
    cases hr : red[kf b]? with
    | none => rw [hr] at h4; simp at h4
    | some row =>
      rw [hr, Option.bind_some] at h4
      have := (List.getElem?_eq_some_iff.mp h4).1
      simp [this]
  len := by simp [initSV]
  shape := fun _ => rfl
  vm a g ha := by omega
  vm0 v hv _ := by
    show (List.replicate (C.disp.getLastD 0) none)[v]? = _
    rw [List.getElem?_replicate, if_pos hv]
  ex a g ha := by omega
  ex0 _ _ _ := rfl

theorem loop_step {n : ℕ} {st : SVSt} {g : Agg} (hg : aggs[n]? = some g) (hI : LoopInv C red aggs kf idf kpf off n st) :
    ∃ st', aggSV C rank red st g = some st' ∧ LoopInv C red aggs kf idf kpf off (n + 1) st' := by
  obtain ⟨h1, h2, h3, h4⟩ := hL.cen n g hg
  have hgm := List.mem_of_getElem? hg
  obtain ⟨c, hc⟩ : ∃ c, c = (aggs.take n).countP (cenIn C (kf n)) := ⟨_, rfl⟩
  have hrc := hI.rc n g hg
  rw [← hc] at hrc
  obtain ⟨rc, p1, p2, p3⟩ := putTab_spec (c + 1) (t := st.rc) (k := kf n) (l := kpf n) (by rw [hrc]; rfl)
  have hcount : ∀ k, (aggs.take (n + 1)).countP (cenIn C k) = (aggs.take n).countP (cenIn C k) + if k = kf n then 1 else 0 := by
    intro k
    rw [List.take_succ, List.countP_append, hg]
    simp only [Option.toList_some, List.countP_cons, List.countP_nil, Nat.zero_add]
    congr 1
    unfold cenIn
    rw [h1]
    by_cases hk : k = kf n
    · simp [hk]
    · rw [if_neg (by simpa using fun h => hk h.symm), if_neg hk]
  have hmem := hL.mems g hgm
  -- the writes
  obtain ⟨r, q1, q2, q3, q4, q5⟩ : ∃ r : List (Option ℕ) × List (List SVEntry),
      (if kf n = 0 then (setAll st.vm g.mems (off n + c)).map fun vm => (⟨rc, vm, st.ex⟩ : SVSt)
        else (g.mems.foldlM (memSV C (off n + c) (idf n, kpf n, c)) (st.vm, st.ex)).map fun r => (⟨rc, r.1, r.2⟩ : SVSt)) = some ⟨rc, r.1, r.2⟩ ∧
      r.1.length = st.vm.length ∧ SameShape st.ex r.2 ∧
      (∀ w, (w ∈ g.mems → r.1[w]? = some (some (off n + c))) ∧ (w ∉ g.mems → r.1[w]? = st.vm[w]?)) ∧
      ∀ k l, ((∃ v ∈ g.mems, PlaceOf C v k l) → get2 r.2 k l = some (some (idf n, kpf n, c))) ∧
        ((¬ ∃ v ∈ g.mems, PlaceOf C v k l) → get2 r.2 k l = get2 st.ex k l) := by
    by_cases hk : kf n = 0
    · obtain ⟨vm, v1, v2, v3⟩ := setAll_spec (vm := st.vm) (mems := g.mems) (by intro v hv; rw [hI.len]; exact (hmem v hv).1) (off n + c)
      refine ⟨(vm, st.ex), by rw [if_pos hk, v1]; rfl, v2, fun _ => rfl, fun w => ?_, fun k l => ⟨?_, fun _ => rfl⟩⟩
      · rw [v3 w]
        exact ⟨fun h => if_pos h, fun h => if_neg h⟩
      · rintro ⟨v, hv, hpl⟩
        have := hL.loc n g hg hk v hv
        exact absurd hpl.1 (by omega)
    · obtain ⟨r, r1, r2, r3, r4, r5⟩ := memSV_spec (C := C) (off n + c) (idf n, kpf n, c) g.mems (st.vm, st.ex) (by
        intro v hv
        obtain ⟨m1, m2⟩ := hmem v hv
        refine ⟨by rw [hI.len]; exact m1, fun hle => ?_⟩
        obtain ⟨k, l, k1, k2, k3⟩ := m2 hle
        exact ⟨k, l, k1, k2, by rw [hI.shape.isSome]; exact k3⟩)
      exact ⟨r, by rw [if_neg hk, r1]; rfl, r2, r3, r4, r5⟩
  refine ⟨⟨rc, r.1, r.2⟩, ?_, ?_⟩
  · unfold aggSV
    unfold get2 at hrc h4
    rw [h1, Option.bind_some, h2, Option.bind_some, h3, Option.bind_some, hrc, Option.bind_some, h4, Option.bind_some, p1, Option.bind_some]
    exact q1
  · refine ⟨?_, by rw [q2]; exact hI.len, hI.shape.trans q3, ?_, ?_, ?_, ?_⟩
    · intro b g' hb
      obtain ⟨b1, -, b3, -⟩ := hL.cen b g' hb
      show get2 rc (kf b) (kpf b) = _
      rw [p3, hcount]
      by_cases hk : kf b = kf n
      · have : kpf b = kpf n := by rw [hk, h3] at b3; exact (Option.some.inj b3).symm
        rw [if_pos ⟨hk, this⟩, if_pos hk, hk, hc]
      · rw [if_neg (fun h => hk h.1), if_neg hk, hI.rc b g' hb]
        rfl
    · intro a g' ha hga v hv
      by_cases han : a = n
      · subst han
        rw [hg] at hga; cases hga
        rw [← hc]
        exact (q4 v).1 hv
      · show r.1[v]? = _
        rw [(q4 v).2 (fun hvg => han (hL.disj a n g' g hga hg v hv hvg))]
        exact hI.vm a g' (by omega) hga v hv
    · intro v hv hn
      show r.1[v]? = _
      rw [(q4 v).2 (hn n g (by omega) hg)]
      exact hI.vm0 v hv fun a g' ha hga => hn a g' (by omega) hga
    · intro a g' ha hga v hv k l hpl
      by_cases han : a = n
      · subst han
        rw [hg] at hga; cases hga
        rw [← hc]
        exact (q5 k l).1 ⟨v, hv, hpl⟩
      · show get2 r.2 k l = _
        rw [(q5 k l).2]
        · exact hI.ex a g' (by omega) hga v hv k l hpl
        · rintro ⟨w, hw, hpw⟩
          have := hL.inj g' (List.mem_of_getElem? hga) g hgm v hv w hw k l hpl hpw
          subst this
          exact han (hL.disj a n g' g hga hg v hv hw)
    · intro k l hn
      show get2 r.2 k l = _
      rw [(q5 k l).2 (fun ⟨v, hv, hpl⟩ => hn n g (by omega) hg v hv hpl)]
      exact hI.ex0 k l fun a g' ha hga => hn a g' (by omega) hga

theorem loop_spec : ∃ st, exvSV C rank aggs red = some st ∧ LoopInv C red aggs kf idf kpf off aggs.length st := by
  suffices h : ∀ (rest done : List Agg) (st : SVSt), done ++ rest = aggs → LoopInv C red aggs kf idf kpf off done.length st →
      ∃ st', rest.foldlM (aggSV C rank red) st = some st' ∧ LoopInv C red aggs kf idf kpf off aggs.length st' by
    exact h aggs [] _ rfl (loop_init hL)
  intro rest
  induction rest with
  | nil => intro done st he hI; rw [List.append_nil] at he; subst he; exact ⟨st, rfl, hI⟩
  | cons g gs ih =>
    intro done st he hI
    have hg : aggs[done.length]? = some g := by rw [← he]; simp
    obtain ⟨s1, a1, a2⟩ := loop_step hL hg hI
    obtain ⟨s2, b1, b2⟩ := ih (done ++ [g]) s1 (by simpa using he) (by simpa using a2)
    exact ⟨s2, by rw [List.foldlM_cons, a1]; exact b1, b2⟩

end

end NgsAMG.CMap
