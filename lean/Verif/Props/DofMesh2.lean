import Verif.Props.DofMesh1
import Verif.Props.SortedArray
import Verif.Props.RedTab
import Mathlib.Data.List.Pairwise

/-!
# C95: free vertices and edges of the finest mesh
-/

namespace NgsAMG.DofM
open NgsAMG.Spec NgsAMG.SortedArray

section
variable {ndof nv : ℕ} {bs D : List ℕ} {dof : ℕ → ℕ → ℕ} (hD : Dofs nv bs D dof) (hlt : ∀ d ∈ D, d < ndof) (hp : 0 < bs.sum) {m : Maps}
  (hm : Numbering ndof nv bs D id m.d2v m.v2d) {sort : List ℕ} (hsort : sort.Perm (List.range nv))

/-! ### vertices -/

include hD hm hp in
theorem vertDps_eq (dps : ℕ → List ℕ) : vertDps m bs.sum nv dps = some ((List.range nv).map fun v => dps (dof v 0)) := by
  unfold vertDps
  refine RedTab.mapM_some_of _ _ _ fun v hv => ?_
  rw [firstDof_eq hD hm hp (List.mem_range.mp hv)]
  rfl

include hD hlt hm hp hsort in
theorem freeVerts_spec {free : List Bool} (hf : free.length = ndof) : ∃ fv, freeVerts m bs.sum nv sort (some free) = some fv ∧ fv.length = nv ∧
    ∀ v < nv, fv[sort.getD v 0]? = free[dof v 0]? := by
  obtain ⟨fv, h1, h2, h3, h4⟩ := foldlM_inv (D := List.range nv) (f := fun (fv : List Bool) k =>
      (firstDof m bs.sum k).bind fun d => (free[d]?).bind fun b => (sort[k]?).bind fun n =>
        if b then (if n < fv.length then some (fv.set n true) else none) else some fv)
    (I := fun k fv => fv.length = nv ∧ (∀ v < nv, v < k → fv[sort.getD v 0]? = free[dof v 0]?) ∧ ∀ v < nv, k ≤ v → fv[sort.getD v 0]? = some false) (s := List.replicate nv false)
    (by
      rintro k k' fv hk ⟨i1, i2, i3⟩
      obtain ⟨hkl, hke⟩ := List.getElem?_eq_some_iff.mp hk
      rw [List.getElem_range] at hke
      subst hke
      rw [List.length_range] at hkl
      have hd : dof k 0 < free.length := by rw [hf]; exact hlt _ (dof_mem hD hkl hp)
      rw [firstDof_eq hD hm hp hkl, Option.bind_some, List.getElem?_eq_getElem hd, Option.bind_some, (sort_get hsort hkl).1, Option.bind_some]
      have hsv := (sort_get hsort hkl).2
      cases hb : free[dof k 0] with
      | true =>
        refine ⟨fv.set (sort.getD k 0) true, by rw [if_pos rfl, if_pos (by rw [i1]; exact hsv)], by simpa using i1, ?_, ?_⟩
        · intro v hv hvk
          by_cases he : k = v
          · subst he
            rw [List.getElem?_set_self (by rw [i1]; exact hsv), List.getElem?_eq_getElem hd, hb]
          · rw [List.getElem?_set_ne (fun h => he (sort_inj hsort hkl hv h))]
            exact i2 v hv (by omega)
        · intro v hv hvk
          rw [List.getElem?_set_ne (fun h => by have := sort_inj hsort hkl hv h; omega)]
          exact i3 v hv (by omega)
      | false =>
        refine ⟨fv, by simp, i1, ?_, fun v hv hvk => i3 v hv (by omega)⟩
        intro v hv hvk
        by_cases he : k = v
        · subst he
          rw [i3 k hkl le_rfl, List.getElem?_eq_getElem hd, hb]
        · exact i2 v hv (by omega))
    ⟨by simp, fun v _ h => absurd h (by omega), fun v hv _ => by rw [List.getElem?_replicate, if_pos (sort_get hsort hv).2]⟩
  rw [List.length_range] at h3
  exact ⟨fv, h1, h2, fun v hv => h3 v hv hv⟩

/-! ### edges -/

/-- `vt` finds the vertex a degree of freedom is the first of -/
def FindsVert (ndof nv : ℕ) (dof : ℕ → ℕ → ℕ) (vt : ℕ → Option (Option ℕ)) : Prop :=
  ∀ col < ndof, ∃ o, vt col = some o ∧ ∀ j, o = some j ↔ j < nv ∧ col = dof j 0

include hD hm hp in
theorem vertTab_finds : FindsVert ndof nv dof (vertTab m bs.sum) := by
  intro col hcol
  unfold vertTab
  by_cases hc : col ∈ D
  · obtain ⟨v, hv, c, hcs, rfl⟩ := hD.surj col hc
    rw [d2v_get hD hm hv hcs, Option.bind_some]
    dsimp only
    rw [firstDof_eq hD hm hp hv]
    refine ⟨_, rfl, fun j => ?_⟩
    dsimp only
    by_cases h : dof v 0 = dof v c
    · rw [if_pos h]
      constructor
      · intro hj; cases hj; exact ⟨hv, h.symm⟩
      · rintro ⟨hj, he⟩
        rw [(hD.inj v hv c hcs j hj 0 hp he).1]
    · rw [if_neg h]
      constructor
      · intro hj; cases hj
      · rintro ⟨hj, he⟩
        have := (hD.inj v hv c hcs j hj 0 hp he).2
        subst this
        exact absurd rfl h
  · rw [hm.off col hcol hc, Option.bind_some]
    refine ⟨none, rfl, fun j => ⟨fun h => (by cases h), ?_⟩⟩
    rintro ⟨hj, rfl⟩
    exact absurd (dof_mem hD hj hp) hc

/-- the pattern of the matrix: rows ascending, in range; the rows of the first degrees of freedom of the vertices have a diagonal entry, and the pattern is symmetric between them -/
structure Pattern (ndof nv : ℕ) (dof : ℕ → ℕ → ℕ) (g : List (List ℕ)) : Prop where
  len : g.length = ndof
  rows : ∀ ri ∈ g, ri.Pairwise (· < ·) ∧ ∀ c ∈ ri, c < ndof
  diag : ∀ v < nv, dof v 0 ∈ g.getD (dof v 0) []
  symm : ∀ v < nv, ∀ w < nv, dof w 0 ∈ g.getD (dof v 0) [] → dof v 0 ∈ g.getD (dof w 0) []

theorem behind_spec {row : ℕ} {ri : List ℕ} (hs : ri.Pairwise (· < ·)) (hd : row ∈ ri) : ∃ cols, behind row ri = some cols ∧ cols.Nodup ∧ ∀ c, c ∈ cols ↔ c ∈ ri ∧ row < c := by
  obtain ⟨r, h1, h2, -⟩ := find_correct row ri hs
  obtain ⟨i, rfl, hi⟩ := h2 hd
  refine ⟨ri.drop (i + 1), by unfold behind; rw [h1]; rfl, ((List.drop_sublist _ _).nodup (hs.imp fun h => h.ne)), fun c => ?_⟩
  obtain ⟨hil, hie⟩ := List.getElem?_eq_some_iff.mp hi
  rw [List.mem_drop_iff_getElem]
  constructor
  · rintro ⟨j, hj, rfl⟩
    refine ⟨List.getElem_mem _, ?_⟩
    rw [← hie]
    exact List.pairwise_iff_getElem.mp hs _ _ _ _ (by omega)
  · rintro ⟨hc, hlt⟩
    obtain ⟨j, hj, rfl⟩ := List.mem_iff_getElem.mp hc
    have hij : i < j := by
      by_contra hge
      rcases Nat.lt_or_ge j i with h | h
      · have := List.pairwise_iff_getElem.mp hs j i hj hil h
        omega
      · have : i = j := by omega
        subst this
        omega
    exact ⟨j - (i + 1), by omega, by congr 1; omega⟩

theorem nodup_filterMap_on {α β : Type} {f : α → Option β} {l : List α} (h : ∀ a ∈ l, ∀ a' ∈ l, ∀ b, f a = some b → f a' = some b → a = a') (hl : l.Nodup) :
    (l.filterMap f).Nodup := by
  induction l with
  | nil => simp
  | cons a l ih =>
    rw [List.nodup_cons] at hl
    have ih' := ih (fun a ha a' ha' => h a (by simp [ha]) a' (by simp [ha'])) hl.2
    rw [List.filterMap_cons]
    cases hfa : f a with
    | none => exact ih'
    | some b =>
      rw [List.nodup_cons]
      refine ⟨fun hb => ?_, ih'⟩
      obtain ⟨a', ha', hfa'⟩ := List.mem_filterMap.mp hb
      have := h a (by simp) a' (by simp [ha']) b hfa hfa'
      exact hl.1 (this ▸ ha')

theorem ordered_eq {a b c d : ℕ} (h : ordered a b = ordered c d) : (a = c ∧ b = d) ∨ (a = d ∧ b = c) := by
  unfold ordered at h
  split_ifs at h <;> simp only [Prod.mk.injEq] at h <;> omega

variable {g : List (List ℕ)} (hg : Pattern ndof nv dof g) {vt : ℕ → Option (Option ℕ)} (hvt : FindsVert ndof nv dof vt)

include hD hlt hm hp hsort hg hvt in
theorem vertEdges_spec {v : ℕ} (hv : v < nv) : ∃ l, vertEdges g m bs.sum vt sort v = some l ∧ l.Nodup ∧
    ∀ e, e ∈ l ↔ ∃ w < nv, dof w 0 ∈ g.getD (dof v 0) [] ∧ dof v 0 < dof w 0 ∧ e = ordered (sort.getD v 0) (sort.getD w 0) := by
  have hdl : dof v 0 < ndof := hlt _ (dof_mem hD hv hp)
  have hgl : dof v 0 < g.length := by rw [hg.len]; exact hdl
  have hge : g.getD (dof v 0) [] = g[dof v 0] := by rw [List.getD_eq_getElem?_getD, List.getElem?_eq_getElem hgl, Option.getD_some]
  have hdi := hg.diag v hv
  rw [hge] at hdi ⊢
  obtain ⟨hrs, hrl⟩ := hg.rows _ (List.getElem_mem hgl)
  obtain ⟨cols, h1, h2, h3⟩ := behind_spec hrs hdi
  have hcl : ∀ c ∈ cols, c < ndof := fun c hc => hrl c ((h3 c).mp hc).1
  -- the edge of a column
  have key : ∀ c, ∃ o, c < ndof → colEdge vt sort (sort.getD v 0) c = some o ∧ ∀ e, o = some e ↔ ∃ w < nv, c = dof w 0 ∧ e = ordered (sort.getD v 0) (sort.getD w 0) := by
    intro c
    by_cases hc : c < ndof
    · obtain ⟨o, o1, o2⟩ := hvt c hc
      unfold colEdge
      rw [o1, Option.bind_some]
      cases o with
      | none =>
        refine ⟨none, fun _ => ⟨rfl, fun e => ⟨fun h => (by cases h), ?_⟩⟩⟩
        rintro ⟨w, hw, hcw, -⟩
        exact absurd ((o2 w).mpr ⟨hw, hcw⟩) (by simp)
      | some j =>
        obtain ⟨hj, hcj⟩ := (o2 j).mp rfl
        dsimp only
        rw [(sort_get hsort hj).1]
        refine ⟨some (ordered (sort.getD v 0) (sort.getD j 0)), fun _ => ⟨rfl, fun e => ?_⟩⟩
        constructor
        · intro h; cases h; exact ⟨j, hj, hcj, rfl⟩
        · rintro ⟨w, hw, hcw, rfl⟩
          have := (o2 w).mpr ⟨hw, hcw⟩
          cases this
          rfl
    · exact ⟨none, fun h => absurd h hc⟩
  choose f hf using key
  have hmap : cols.mapM (colEdge vt sort (sort.getD v 0)) = some (cols.map f) := RedTab.mapM_some_of _ _ _ fun c hc => (hf c (hcl c hc)).1
  refine ⟨(cols.map f).filterMap id, ?_, ?_, ?_⟩
  · unfold vertEdges
    rw [firstDof_eq hD hm hp hv, Option.bind_some, List.getElem?_eq_getElem hgl, Option.bind_some, h1, Option.bind_some, (sort_get hsort hv).1, Option.bind_some, hmap]
    rfl
  · rw [List.filterMap_map]
    refine nodup_filterMap_on ?_ h2
    intro a ha a' ha' b hb hb'
    simp only [Function.comp_apply, id_eq] at hb hb'
    obtain ⟨w, hw, rfl, e1⟩ := ((hf a (hcl a ha)).2 b).mp hb
    obtain ⟨w', hw', rfl, e2⟩ := ((hf a' (hcl a' ha')).2 b).mp hb'
    have hvw : v ≠ w := by rintro rfl; have := ((h3 _).mp ha).2; omega
    rcases ordered_eq (e1.symm.trans e2) with ⟨-, h⟩ | ⟨-, h⟩
    · rw [sort_inj hsort hw hw' h]
    · exact absurd (sort_inj hsort hw hv h).symm hvw
  · intro e
    rw [List.mem_filterMap]
    simp only [List.mem_map, id_eq]
    constructor
    · rintro ⟨o, ⟨c, hc, rfl⟩, ho⟩
      obtain ⟨w, hw, rfl, e1⟩ := ((hf c (hcl c hc)).2 e).mp ho
      obtain ⟨g1, g2⟩ := (h3 _).mp hc
      exact ⟨w, hw, g1, g2, e1⟩
    · rintro ⟨w, hw, g1, g2, e1⟩
      have hc := (h3 _).mpr ⟨g1, g2⟩
      exact ⟨_, ⟨_, hc, rfl⟩, ((hf _ (hcl _ hc)).2 e).mpr ⟨w, hw, rfl, e1⟩⟩

include hD hlt hm hp hsort hg hvt in
/-- the edges: one for every pair of vertices whose first degrees of freedom are coupled in the matrix -/
theorem edgePairs_spec : ∃ L, edgePairs g m bs.sum nv vt sort = some L ∧ L.Nodup ∧
    ∀ e : ℕ × ℕ, e ∈ L ↔ e.1 < e.2 ∧ ∃ v < nv, ∃ w < nv, e = (sort.getD v 0, sort.getD w 0) ∧ dof w 0 ∈ g.getD (dof v 0) [] := by
  have key : ∀ v, ∃ l, v < nv → vertEdges g m bs.sum vt sort v = some l ∧ l.Nodup ∧
      ∀ e, e ∈ l ↔ ∃ w < nv, dof w 0 ∈ g.getD (dof v 0) [] ∧ dof v 0 < dof w 0 ∧ e = ordered (sort.getD v 0) (sort.getD w 0) := by
    intro v
    by_cases hv : v < nv
    · obtain ⟨l, h⟩ := vertEdges_spec hD hlt hp hm hsort hg hvt hv
      exact ⟨l, fun _ => h⟩
    · exact ⟨[], fun h => absurd h hv⟩
  choose f hf using key
  have hmap : (List.range nv).mapM (vertEdges g m bs.sum vt sort) = some ((List.range nv).map f) := RedTab.mapM_some_of _ _ _ fun v hv => (hf v (List.mem_range.mp hv)).1
  refine ⟨((List.range nv).map f).flatten, by unfold edgePairs; rw [hmap]; rfl, ?_, ?_⟩
  · rw [List.nodup_flatten]
    refine ⟨?_, ?_⟩
    · intro l hl
      obtain ⟨v, hv, rfl⟩ := List.mem_map.mp hl
      exact (hf v (List.mem_range.mp hv)).2.1
    · rw [List.pairwise_map]
      refine (List.pairwise_lt_range (n := nv)).imp_of_mem ?_
      intro v v' hv hv' hlt' e he he'
      rw [List.mem_range] at hv hv'
      obtain ⟨w, hw, -, h2, h3⟩ := ((hf v hv).2.2 e).mp he
      obtain ⟨w', hw', -, h5, h6⟩ := ((hf v' hv').2.2 e).mp he'
      rcases ordered_eq (h3.symm.trans h6) with ⟨h, -⟩ | ⟨ha, hb⟩
      · have := sort_inj hsort hv hv' h
        omega
      · have a1 := sort_inj hsort hv hw' ha
        have a2 := sort_inj hsort hw hv' hb
        subst a1; subst a2
        omega
  · intro e
    rw [List.mem_flatten]
    constructor
    · rintro ⟨l, hl, he⟩
      obtain ⟨v, hv, rfl⟩ := List.mem_map.mp hl
      rw [List.mem_range] at hv
      obtain ⟨w, hw, h1, h2, rfl⟩ := ((hf v hv).2.2 e).mp he
      have hne : sort.getD v 0 ≠ sort.getD w 0 := fun h => by have := sort_inj hsort hv hw h; subst this; omega
      unfold ordered
      split_ifs with h
      · exact ⟨h, v, hv, w, hw, rfl, h1⟩
      · exact ⟨by dsimp only; omega, w, hw, v, hv, rfl, hg.symm v hv w hw h1⟩
    · rintro ⟨h0, v, hv, w, hw, rfl, h1⟩
      dsimp only at h0
      have hvw : dof v 0 ≠ dof w 0 := fun h => by have := (hD.inj v hv 0 hp w hw 0 hp h).1; subst this; omega
      rcases Nat.lt_or_gt_of_ne hvw with h | h
      · exact ⟨f v, List.mem_map_of_mem (List.mem_range.mpr hv), ((hf v hv).2.2 _).mpr ⟨w, hw, h1, h, by unfold ordered; rw [if_pos h0]⟩⟩
      · refine ⟨f w, List.mem_map_of_mem (List.mem_range.mpr hw), ((hf w hw).2.2 _).mpr ⟨v, hv, hg.symm v hv w hw h1, h, ?_⟩⟩
        unfold ordered
        rw [if_neg (by omega)]

end

section
variable {ndof nv : ℕ} {D : List ℕ} {dof : ℕ → ℕ → ℕ} (hD : Dofs nv [1] D dof) {m : Maps} (hm : Numbering ndof nv [1] D id m.d2v m.v2d)

include hD hm in
theorem vertArr_finds : FindsVert ndof nv dof (vertArr m) := by
  intro col hcol
  unfold vertArr
  by_cases hc : col ∈ D
  · obtain ⟨v, hv, c, hcs, rfl⟩ := hD.surj col hc
    have hc0 : c = 0 := by simp at hcs; omega
    subst hc0
    rw [d2v_get hD hm hv hcs]
    refine ⟨_, rfl, fun j => ⟨fun h => (by cases h; exact ⟨hv, rfl⟩), ?_⟩⟩
    rintro ⟨hj, he⟩
    rw [(hD.inj v hv 0 hcs j hj 0 hcs he).1]
  · rw [hm.off col hcol hc]
    refine ⟨none, rfl, fun j => ⟨fun h => (by cases h), ?_⟩⟩
    rintro ⟨hj, rfl⟩
    exact absurd (dof_mem hD hj (by decide)) hc

end

end NgsAMG.DofM
