import Verif.Props.CoarseMapSV3

/-!
# C93: `MapVerts_sv`, what a process writes and what the second `ReduceTable` gives
-/

namespace NgsAMG.CMap

open NgsAMG.EQC NgsAMG.RedTab NgsAMG.Exch NgsAMG.BTM

/-- the vertex `v` of process `p` is in the agglomerate `a` of process `m`: a copy of it there is a member -/
def InAggS (C : ℕ → Ctx) (aggs : ℕ → List Agg) (p v m a : ℕ) : Prop :=
  ∃ S r w g, IsVert p (C p) v S r ∧ IsVert m (C m) w S r ∧ (aggs m)[a]? = some g ∧ w ∈ g.mems

/-- class of the center of the agglomerate `a` of process `p` -/
def kfS (C : ℕ → Ctx) (aggs : ℕ → List Agg) (p a : ℕ) : ℕ := (((aggs p)[a]?).bind fun g => (C p).eqcV g.center).getD 0
/-- its processes -/
def setS (C : ℕ → Ctx) (aggs : ℕ → List Agg) (p a : ℕ) : Finset ℕ := mem C p (kfS C aggs p a)
/-- its identifier -/
def idS (C : ℕ → Ctx) (aggs : ℕ → List Agg) (p a : ℕ) : ℕ := ((C p).ids[kfS C aggs p a]?).getD 0
/-- position of `p` in the class -/
def kpS (C : ℕ → Ctx) (aggs : ℕ → List Agg) (p a : ℕ) : ℕ := kp (setS C aggs p a) p
/-- number in the block of `p` -/
def locS (C : ℕ → Ctx) (aggs : ℕ → List Agg) (p a : ℕ) : ℕ := ((aggs p).take a).countP (cenIn (C p) (kfS C aggs p a))
/-- offset of the block -/
def blkS (C : ℕ → Ctx) (aggs : ℕ → List Agg) (p a : ℕ) : ℕ := offSV C aggs p (kfS C aggs p a) + ((cnts C aggs (setS C aggs p a)).take (kpS C aggs p a)).sum

section
variable {np : ℕ} {C : ℕ → Ctx} (hM : Mesh np C)
include hM

theorem isVert_mem {p v r : ℕ} {S : Finset ℕ} (h : IsVert p (C p) v S r) : p ∈ S := by
  obtain ⟨k, a, b, d, -, h2, -⟩ := h
  rw [← h2]; exact mem_members.mpr (Or.inl rfl)

theorem isVert_procs {p v r q : ℕ} {S : Finset ℕ} (hp : p < np) (h : IsVert p (C p) v S r) (hq : q ∈ S) : q < np := (vert_partner hM hp h hq).1

theorem place_iff {p v k l : ℕ} (hp : p < np) : v < (C p).nv ∧ PlaceOf (C p) v k l ↔ k ≠ 0 ∧ ∃ d, (C p).T[k]? = some d ∧ IsVert p (C p) v (members p d) l := by
  constructor
  · rintro ⟨hv, h1, h2, h3⟩
    obtain ⟨k', a, b, d, g1, g2, g3, g4, g5⟩ := vert_block hM hp hv
    obtain ⟨q1, q2, -⟩ := vert_query hM hp g1 g2 g3 g4 g5
    rw [h2] at q1; cases q1
    rw [h3] at q2; cases q2
    refine ⟨?_, d, g1, k, a, b, d, g1, rfl, g2, g3, (Nat.add_sub_cancel' g4).symm, g5⟩
    rintro rfl
    rw [List.getD_eq_getElem?_getD, List.getD_eq_getElem?_getD, g2, g3] at h1
    rw [hM.d0 p hp] at g2; cases g2
    simp at h1
    omega
  · rintro ⟨hk, d, h1, hv⟩
    have hv' := isVert_lt hM hp hv
    obtain ⟨k', a, b, d', g1, g2, g3, g4, g5, g6⟩ := id hv
    have := cls_eq (hM.tabs.ok p hp) g1 h1 g2
    subst this
    rw [g1] at h1; cases h1
    obtain ⟨q1, q2, -⟩ := vert_query hM hp g1 g3 g4 (by omega) g6
    refine ⟨hv', ?_, q1, by rw [q2]; congr 1; omega⟩
    have hkl := (List.getElem?_eq_some_iff.mp g1).1
    have h1l : 1 < (C p).disp.length := by rw [hM.dl p hp]; omega
    have hd1 := List.getElem?_eq_getElem h1l
    have := offsets_le (hM.offs p hp) (show 1 ≤ k' by omega) hd1 g3
    rw [List.getD_eq_getElem?_getD, hd1, Option.getD_some]
    omega

theorem ex_len {p k : ℕ} {red : List (List ℕ)} (hk : k < (C p).T.length) :
    ((initSV (C p) red).ex)[k]? = some (if 0 < k then List.replicate (vertsOf (C p) k).length none else []) := by
  show ((List.range (C p).T.length).map _)[k]? = _
  rw [List.getElem?_map, List.getElem?_range hk, Option.map_some]

theorem init_ex {p k l : ℕ} {red : List (List ℕ)} (hk : k < (C p).T.length) (h0 : k ≠ 0) :
    get2 (initSV (C p) red).ex k l = if l < (vertsOf (C p) k).length then some none else none := by
  unfold get2
  rw [ex_len hM hk, Option.bind_some, if_pos (by omega), List.getElem?_replicate]

variable {aggs : ℕ → List Agg} (hA : SolidAggs np C aggs)
include hA

theorem cenS {p a : ℕ} {g : Agg} (hp : p < np) (hg : (aggs p)[a]? = some g) :
    ∃ d r, (C p).eqcV g.center = some (kfS C aggs p a) ∧ (C p).T[kfS C aggs p a]? = some d ∧ members p d = setS C aggs p a ∧
      IsVert p (C p) g.center (setS C aggs p a) r ∧ (C p).ids[kfS C aggs p a]? = some (idS C aggs p a) ∧ clsOf C p (setS C aggs p a) = kfS C aggs p a := by
  obtain ⟨k, d, r, i, h1, h2, h3, h4⟩ := sv_cen hM hA hp hg
  have hk : kfS C aggs p a = k := by unfold kfS; rw [hg, Option.bind_some, h1]; rfl
  have hs : setS C aggs p a = members p d := by unfold setS; rw [hk]; exact mem_get h2
  refine ⟨d, r, by rw [hk]; exact h1, by rw [hk]; exact h2, hs.symm, by rw [hs]; exact h3, ?_, by rw [hs, hk]; exact clsOf_get hM hp h2 rfl⟩
  unfold idS
  rw [hk, h4]; rfl

theorem at_set {p a : ℕ} {S : Finset ℕ} (hp : p < np) (h : AggAt C aggs p a S) : S = setS C aggs p a := by
  obtain ⟨g, r, h1, h2⟩ := h
  obtain ⟨d, r', -, -, -, c4, -⟩ := cenS hM hA hp h1
  exact (isVert_unique hM hp h2 c4).1

theorem num_eq {p a : ℕ} {g : Agg} (hp : p < np) (hg : (aggs p)[a]? = some g) :
    numS C aggs (setS C aggs p a) p a = ((cnts C aggs (setS C aggs p a)).take (kpS C aggs p a)).sum + locS C aggs p a := by
  obtain ⟨d, r, -, -, -, -, -, h⟩ := cenS hM hA hp hg
  unfold numS locS kpS
  rw [h]

theorem agg_loc {p : ℕ} (hp : p < np) : AggLoc (C p) p (redOf C aggs p) (aggs p) (kfS C aggs p) (idS C aggs p) (kpS C aggs p) (blkS C aggs p) where
  cen a g hg := by
    obtain ⟨d, r, h1, h2, h3, h4, h5, h6⟩ := cenS hM hA hp hg
    have hkl := (List.getElem?_eq_some_iff.mp h2).1
    have hkp : kpOf p ((C p).T.getD (kfS C aggs p a) []) = some (kpS C aggs p a) := by
      rw [List.getD_eq_getElem?_getD, h2, Option.getD_some, kpOf_eq ((hM.tabs.ok p hp).2 d (List.mem_of_getElem? h2))]
      unfold kpS
      rw [h3]
    refine ⟨h1, h5, hkp, ?_⟩
    unfold get2 blkS
    have hlt : kpS C aggs p a < (cnts C aggs (setS C aggs p a)).length := by
      unfold cnts
      rw [List.length_map]
      exact (List.getElem?_eq_some_iff.mp (kp_get (isVert_mem hM h4))).1
    exact redOf_get hkl hlt
  mems g hg v hv := by
    have hlt := hA.lt p hp g hg v hv
    refine ⟨hlt, fun hle => ?_⟩
    obtain ⟨k, a, b, d, g1, g2, g3, g4, g5⟩ := vert_block hM hp hlt
    obtain ⟨q1, q2, -⟩ := vert_query hM hp g1 g2 g3 g4 g5
    refine ⟨k, v - a, q1, q2, ?_⟩
    obtain ⟨hk, d', d1, d2⟩ := (place_iff hM hp).mp ⟨hlt, hle, q1, q2⟩
    rw [init_ex hM (List.getElem?_eq_some_iff.mp g1).1 hk, if_pos]
    · rfl
    · exact (List.getElem?_eq_some_iff.mp ((vertsOf_get hM hp d1).mpr d2)).1
  loc a g hg hk v hv := by
    obtain ⟨d, r, h1, h2, h3, h4, -, -⟩ := cenS hM hA hp hg
    have hgm := List.mem_of_getElem? hg
    have hlt := hA.lt p hp g hgm v hv
    by_contra hn
    obtain ⟨k, x, y, e, g1, g2, g3, g4, g5⟩ := vert_block hM hp hlt
    obtain ⟨q1, q2, -⟩ := vert_query hM hp g1 g2 g3 g4 g5
    obtain ⟨hk0, e', e1, e2⟩ := (place_iff hM hp).mp ⟨hlt, by omega, q1, q2⟩
    have hsub := hA.sub p hp g hgm v hv _ _ _ _ e2 h4
    rw [hk] at h2
    have hTne : (C p).T ≠ [] := by intro h; rw [h] at h2; simp at h2
    have h0 := hM.loc p hp hTne
    rw [h0] at h2; cases h2
    refine hk0 (cls_eq (hM.tabs.ok p hp) e1 h0 ?_)
    apply Finset.Subset.antisymm
    · rw [h3]; exact hsub
    · intro x hx
      rw [mem_members] at hx
      rcases hx with rfl | hx
      · exact mem_members.mpr (Or.inl rfl)
      · simp at hx
  disj a b g h hg hh v hv hw := by
    obtain ⟨S, r, hS, -⟩ := isVert_exists hM hp (hA.lt p hp g (List.mem_of_getElem? hg) v hv)
    exact (hA.disj p hp p hp a b g h hg hh v hv v hw S r hS hS).2
  inj g hg h hh v hv w hw k l hp1 hp2 := by
    obtain ⟨-, d, d1, d2⟩ := (place_iff hM hp).mp ⟨hA.lt p hp g hg v hv, hp1⟩
    obtain ⟨-, e, e1, e2⟩ := (place_iff hM hp).mp ⟨hA.lt p hp h hh w hw, hp2⟩
    rw [d1] at e1; cases e1
    exact isVert_inj hM hp d2 e2

theorem inAggS_facts {p v m a : ℕ} (hp : p < np) (h : InAggS C aggs p v m a) : ∃ S r w g, m < np ∧ IsVert p (C p) v S r ∧ IsVert m (C m) w S r ∧
    (aggs m)[a]? = some g ∧ w ∈ g.mems ∧ S ⊆ setS C aggs m a ∧ AggAt C aggs m a (setS C aggs m a) := by
  obtain ⟨S, r, w, g, h1, h2, h3, h4⟩ := h
  have hm : m < np := isVert_procs hM hp h1 (isVert_mem hM h2)
  obtain ⟨d, r', -, -, -, c4, -⟩ := cenS hM hA hm h3
  exact ⟨S, r, w, g, hm, h1, h2, h3, h4, hA.sub m hm g (List.mem_of_getElem? h3) w h4 _ _ _ _ h2 c4, g, r', h3, c4⟩

theorem inAggS_unique {p v m m' a a' : ℕ} (hp : p < np) (h : InAggS C aggs p v m a) (h' : InAggS C aggs p v m' a') : m = m' ∧ a = a' := by
  obtain ⟨S, r, w, g, hm, h1, h2, h3, h4, -⟩ := inAggS_facts hM hA hp h
  obtain ⟨S', r', w', g', hm', h1', h2', h3', h4', -⟩ := inAggS_facts hM hA hp h'
  obtain ⟨rfl, rfl⟩ := isVert_unique hM hp h1 h1'
  exact hA.disj m hm m' hm' a a' g g' h3 h3' w h4 w' h4' S r h2 h2'

end

/-! ### the lambda -/

theorem lastSet_spec (ins : List (List SVEntry)) (n : ℕ) (hne : ins ≠ []) (hn : ∀ row ∈ ins, row.length = n) :
    (lastSet ins).length = n ∧ ∀ l < n, ((∀ row ∈ ins, row[l]? = some none) → (lastSet ins)[l]? = some none) ∧
      ∀ e, (∃ row ∈ ins, row[l]? = some (some e)) → (∀ row ∈ ins, ∀ e', row[l]? = some (some e') → e' = e) → (lastSet ins)[l]? = some (some e) := by
  cases ins with
  | nil => exact absurd rfl hne
  | cons r rs =>
    clear hne
    unfold lastSet
    dsimp only
    induction rs generalizing r with
    | nil =>
      refine ⟨hn r (by simp), fun l _ => ⟨fun h => h r (by simp), fun e h _ => ?_⟩⟩
      obtain ⟨row, h1, h2⟩ := h
      rw [List.mem_singleton] at h1
      subst h1
      exact h2
    | cons s ss ih =>
      have hr := hn r (by simp)
      have hs := hn s (by simp)
      obtain ⟨h1, h2⟩ := ih (r.zipWith (fun o x => if x.isSome then x else o) s) (by
        intro row hrow
        rcases List.mem_cons.mp hrow with rfl | hrow
        · rw [List.length_zipWith, hr, hs, Nat.min_self]
        · exact hn row (by simp [hrow]))
      rw [List.foldl_cons]
      refine ⟨h1, fun l hl => ?_⟩
      obtain ⟨g1, g2⟩ := h2 l hl
      have hrl := List.getElem?_eq_getElem (l := r) (i := l) (by omega)
      have hsl := List.getElem?_eq_getElem (l := s) (i := l) (by omega)
      have hz : (r.zipWith (fun o x => if x.isSome then x else o) s)[l]? =
          some (if (s[l]'(by omega)).isSome then s[l]'(by omega) else r[l]'(by omega)) := by
        rw [List.getElem?_zipWith, hrl, hsl]
      refine ⟨fun h => g1 ?_, fun e he hu => ?_⟩
      · intro row hrow
        rcases List.mem_cons.mp hrow with rfl | hrow
        · have a1 := h r (by simp)
          have a2 := h s (by simp)
          rw [hrl, Option.some.injEq] at a1
          rw [hsl, Option.some.injEq] at a2
          rw [hz, a1, a2]
          rfl
        · exact h row (by simp [hrow])
      · apply g2 e
        · obtain ⟨row, h3, h4⟩ := he
          by_cases hss : ∃ row ∈ ss, row[l]? = some (some e)
          · obtain ⟨row, q1, q2⟩ := hss
            exact ⟨row, by simp [q1], q2⟩
          · refine ⟨_, List.mem_cons_self, ?_⟩
            rw [hz]
            rcases List.mem_cons.mp h3 with rfl | h3
            · rw [hrl, Option.some.injEq] at h4
              cases hsv : s[l]'(by omega) with
              | none => simp [h4]
              | some e' =>
                have := hu s (by simp) e' (by rw [hsl, hsv])
                simp [this]
            · rcases List.mem_cons.mp h3 with rfl | h3
              · rw [hsl, Option.some.injEq] at h4
                simp [h4]
              · exact absurd ⟨row, h3, h4⟩ hss
        · intro row hrow e' he'
          rcases List.mem_cons.mp hrow with rfl | hrow
          · rw [hz, Option.some.injEq] at he'
            split at he'
            · exact hu s (by simp) e' (by rw [hsl, he'])
            · exact hu r (by simp) e' (by rw [hrl, he'])
          · exact hu row (by simp [hrow]) e' he'

end NgsAMG.CMap
