import Verif.Props.GSBlocks2
import Mathlib.Data.List.Nodup
import Mathlib.Data.List.Flatten
import Mathlib.Data.Int.Notation

/-!
C110, part 3: the blocks of the vertex-based preconditioners (`VertexAMGPC::GetGSBlocks`) and of the HDiv preconditioner
(`HDivStokesAMGPC::GetGSBlocks`, `GetFinestLevelGSBlocks`).
-/

namespace NgsAMG.GSB

/-! ### Vertices -/

/-- what the vertices add, in order -/
def addsOf (l : List (Option ℕ × List ℕ)) : List (ℕ × ℕ) :=
  l.flatMap fun e => match e.1 with
    | none => []
    | some cv => e.2.map fun d => (cv, d)

theorem vertexAdds_eq (dofs : List (List ℕ)) (vmap : List (Option ℕ)) : ∀ k, k + vmap.length ≤ dofs.length →
    vertexAdds dofs k vmap = some (addsOf (vmap.zip (dofs.drop k))) := by
  induction vmap with
  | nil => intro k _; rfl
  | cons m vmap ih =>
    intro k hk
    rw [List.length_cons] at hk
    have hlt : k < dofs.length := by omega
    rw [List.drop_eq_getElem_cons hlt, List.zip_cons_cons]
    cases m with
    | none => rw [vertexAdds, ih (k + 1) (by omega)]; simp [addsOf]
    | some cv =>
      rw [vertexAdds, ih (k + 1) (by omega), List.getElem?_eq_getElem hlt]
      simp [addsOf]

theorem addsOf_row (l : List (Option ℕ × List ℕ)) (i : ℕ) :
    ((addsOf l).filter fun e => e.1 = i).map Prod.snd = (l.filter fun e => e.1 = some i).flatMap Prod.snd := by
  induction l with
  | nil => rfl
  | cons e l ih =>
    obtain ⟨m, ds⟩ := e
    have hc : addsOf ((m, ds) :: l) = (match m with | none => [] | some cv => ds.map fun d => (cv, d)) ++ addsOf l := rfl
    rw [hc, List.filter_append, List.map_append, ih]
    cases m with
    | none => simp
    | some cv =>
      by_cases h : cv = i
      · subst h
        simp [List.filter_map, Function.comp_def]
      · simp [List.filter_map, Function.comp_def, h]

theorem addsOf_lt (l : List (Option ℕ × List ℕ)) (n : ℕ) (h : ∀ e ∈ l, ∀ c, e.1 = some c → c < n) : ∀ e ∈ addsOf l, e.1 < n := by
  intro e he
  rw [addsOf, List.mem_flatMap] at he
  obtain ⟨x, hx, hm⟩ := he
  obtain ⟨m, ds⟩ := x
  cases m with
  | none => simp at hm
  | some cv =>
    simp only [List.mem_map] at hm
    obtain ⟨d, -, rfl⟩ := hm
    exact h _ hx cv rfl

/-- **C110.** The block of the coarse vertex `i` consists of the DOFs of the vertices that are mapped to `i`, in their order, and
there is one block for every coarse vertex. -/
theorem gsBlocks_correct (ncv : ℕ) (vmap : List (Option ℕ)) (dofs : List (List ℕ)) (hv : ∀ c, some c ∈ vmap → c < ncv)
    (hd : vmap.length = dofs.length) :
    ∃ T, gsBlocks ncv vmap dofs = some T ∧ T.length = ncv ∧
      ∀ i < ncv, T[i]? = some (((vmap.zip dofs).filter fun e => e.1 = some i).flatMap Prod.snd) := by
  have h1 := vertexAdds_eq dofs vmap 0 (by omega)
  rw [List.drop_zero] at h1
  have h2 := addsOf_lt (vmap.zip dofs) ncv (by
    rintro ⟨m, ds⟩ he c rfl
    exact hv c (List.of_mem_zip he).1)
  refine ⟨(List.range ncv).map fun r => ((addsOf (vmap.zip dofs)).filter fun e => e.1 = r).map Prod.snd, ?_, by simp, ?_⟩
  · rw [gsBlocks, h1, Option.bind_some, mkTableN, if_pos]
    rw [List.all_eq_true]
    exact fun e he => decide_eq_true (h2 e he)
  · intro i hi
    rw [List.getElem?_map, List.getElem?_range hi, Option.map_some, addsOf_row]

/-- **C110.** A DOF is in the block `i` if and only if it is a DOF of a vertex that is mapped to `i`; if the vertices do not share
DOFs, every DOF of a mapped vertex is in exactly one block, once. -/
theorem gsBlocks_partition (ncv : ℕ) (vmap : List (Option ℕ)) (dofs : List (List ℕ)) (hv : ∀ c, some c ∈ vmap → c < ncv)
    (hd : vmap.length = dofs.length) :
    ∃ T, gsBlocks ncv vmap dofs = some T ∧
      (∀ i d, InBlock T i d ↔ ∃ (k : ℕ) (ds : List ℕ), vmap[k]? = some (some i) ∧ dofs[k]? = some ds ∧ d ∈ ds) ∧
      (dofs.flatten.Nodup → (∀ i j d, InBlock T i d → InBlock T j d → i = j) ∧ ∀ (i : ℕ) (r : List ℕ), T[i]? = some r → r.Nodup) := by
  obtain ⟨T, hT, hl, hr⟩ := gsBlocks_correct ncv vmap dofs hv hd
  have hmem : ∀ i d, InBlock T i d ↔ ∃ (k : ℕ) (ds : List ℕ), vmap[k]? = some (some i) ∧ dofs[k]? = some ds ∧ d ∈ ds := by
    intro i d
    constructor
    · rintro ⟨r, hir, hd'⟩
      have hi : i < ncv := by rw [← hl]; exact (List.getElem?_eq_some_iff.1 hir).1
      rw [hr i hi] at hir
      rw [← Option.some.inj hir, List.mem_flatMap] at hd'
      obtain ⟨⟨m, ds⟩, he, hds⟩ := hd'
      rw [List.mem_filter] at he
      have hm : m = some i := by simpa using he.2
      obtain ⟨k, hk⟩ := List.mem_iff_getElem?.1 he.1
      rw [List.getElem?_zip_eq_some] at hk
      exact ⟨k, ds, by rw [hk.1, hm], hk.2, hds⟩
    · rintro ⟨k, ds, hk, hds, hdm⟩
      have hi : i < ncv := hv i (List.mem_of_getElem? hk)
      refine ⟨_, hr i hi, List.mem_flatMap.2 ⟨(some i, ds), List.mem_filter.2 ⟨?_, by simp⟩, hdm⟩⟩
      exact List.mem_of_getElem? (List.getElem?_zip_eq_some.2 ⟨hk, hds⟩)
  refine ⟨T, hT, hmem, fun hn => ⟨?_, ?_⟩⟩
  · intro i j d hi hj
    obtain ⟨k, ds, hk, hds, hdm⟩ := (hmem i d).1 hi
    obtain ⟨k', ds', hk', hds', hdm'⟩ := (hmem j d).1 hj
    have hkk : k = k' := by
      rw [List.nodup_flatten] at hn
      by_contra hne
      rcases lt_or_gt_of_ne hne with h | h
      · obtain ⟨h1, e1⟩ := List.getElem?_eq_some_iff.1 hds
        obtain ⟨h2, e2⟩ := List.getElem?_eq_some_iff.1 hds'
        have := List.pairwise_iff_getElem.1 hn.2 k k' h1 h2 h
        rw [e1, e2] at this
        exact this hdm hdm'
      · obtain ⟨h1, e1⟩ := List.getElem?_eq_some_iff.1 hds
        obtain ⟨h2, e2⟩ := List.getElem?_eq_some_iff.1 hds'
        have := List.pairwise_iff_getElem.1 hn.2 k' k h2 h1 h
        rw [e1, e2] at this
        exact this hdm' hdm
    subst hkk
    rw [hk] at hk'
    exact Option.some.inj (Option.some.inj hk')
  · intro i r hir
    have hi : i < ncv := by rw [← hl]; exact (List.getElem?_eq_some_iff.1 hir).1
    rw [hr i hi] at hir
    rw [← Option.some.inj hir]
    have hz : ((vmap.zip dofs).map Prod.snd) = dofs := List.map_snd_zip (by omega)
    have hs : (((vmap.zip dofs).filter fun e => e.1 = some i).map Prod.snd).flatten.Sublist ((vmap.zip dofs).map Prod.snd).flatten :=
      List.Sublist.flatten (List.filter_sublist.map _)
    rw [hz] at hs
    rw [List.flatMap_def]
    exact hn.sublist hs

/-- the hypotheses are met: five vertices with the DOFs `2k, 2k + 1`, the vertex 2 is not mapped -/
example : gsBlocks 2 [some 1, some 0, none, some 1, some 0] [[0, 1], [2, 3], [4, 5], [6, 7], [8, 9]] =
    some [[2, 3, 8, 9], [0, 1, 6, 7]] ∧ ([[0, 1], [2, 3], [4, 5], [6, 7], [8, 9]] : List (List ℕ)).flatten.Nodup := by
  decide +kernel

/-! ### Edges, facets and elements -/

/-- the blocks `L` were added -/
structure Added (L : List (List ℕ)) (S : ℕ × List (ℕ × ℕ)) : Prop where
  cnt : S.1 = L.length
  lt : ∀ e ∈ S.2, e.1 < L.length
  row : ∀ (i : ℕ) (r : List ℕ), L[i]? = some r → (S.2.filter fun e => e.1 = i).map Prod.snd = r ∧ r ≠ []

theorem Added.step {L : List (List ℕ)} {S : ℕ × List (ℕ × ℕ)} (h : Added L S) (ds : List ℕ) :
    Added (L ++ if ds ≠ [] then [ds] else []) (addNonempty S ds) := by
  by_cases hds : ds = []
  · subst hds; simpa [addNonempty] using h
  · have hl : ds.length ≠ 0 := fun h0 => hds (List.eq_nil_of_length_eq_zero h0)
    rw [if_pos hds, addNonempty, if_pos hl]
    refine ⟨by simp [h.cnt], ?_, ?_⟩
    · intro e he
      rw [List.length_append, List.length_singleton]
      rcases List.mem_append.1 he with he | he
      · exact Nat.lt_succ_of_lt (h.lt e he)
      · rw [List.mem_map] at he
        obtain ⟨d, -, rfl⟩ := he
        rw [h.cnt]; exact Nat.lt_succ_self _
    · intro i r hr
      rw [mem_take_succ] at hr
      rw [List.filter_append, List.map_append]
      rcases hr with hr | ⟨rfl, rfl⟩
      · have hi := (List.getElem?_eq_some_iff.1 hr).1
        obtain ⟨h1, h2⟩ := h.row i r hr
        refine ⟨?_, h2⟩
        have hne : S.1 ≠ i := by rw [h.cnt]; omega
        rw [h1]
        simp [List.filter_map, Function.comp_def, hne]
      · refine ⟨?_, hds⟩
        have h0 : (S.2.filter fun e => e.1 = L.length) = [] := by
          rw [List.filter_eq_nil_iff]
          intro e he
          have := h.lt e he
          simp; omega
        rw [h0]
        simp [List.filter_map, Function.comp_def, h.cnt]

theorem Added.foldl (ls : List (List ℕ)) : ∀ {L : List (List ℕ)} {S : ℕ × List (ℕ × ℕ)}, Added L S →
    Added (L ++ ls.filter fun ds => ds ≠ []) (ls.foldl addNonempty S) := by
  induction ls with
  | nil => intro L S h; simpa using h
  | cons ds ls ih =>
    intro L S h
    have := ih (h.step ds)
    rw [List.foldl_cons]
    by_cases hds : ds = []
    · subst hds; simpa using this
    · simpa [hds] using this

theorem Added.table {L : List (List ℕ)} {S : ℕ × List (ℕ × ℕ)} (h : Added L S) : mkTable S.2 = L := by
  have hlen : (mkTable S.2).length = L.length := by
    refine mkTable_length h.lt fun i hi => ?_
    obtain ⟨h1, h2⟩ := h.row i L[i] (List.getElem?_eq_getElem hi)
    obtain ⟨x, hx⟩ := List.exists_mem_of_ne_nil _ h2
    rw [← h1] at hx
    exact ⟨x, mem_row.1 hx⟩
  refine List.ext_getElem hlen fun i h1 h2 => ?_
  have e := mkTable_row (List.getElem?_eq_getElem h1)
  rw [e]
  exact (h.row i L[i] (List.getElem?_eq_getElem h2)).1

theorem table_nonempty (ls : List (List ℕ)) : mkTable (ls.foldl addNonempty (0, [])).2 = ls.filter fun ds => ds ≠ [] := by
  have h : Added [] ((0, []) : ℕ × List (ℕ × ℕ)) := ⟨rfl, by simp, by simp⟩
  simpa using (Added.foldl ls h).table

/-- **C110.** On the coarse levels of the HDiv preconditioner the blocks are the DOFs of the edges that have DOFs, in the order of
the edges. -/
theorem edgeBlocks_correct (edgeDofs : List (List ℕ)) : edgeBlocks edgeDofs = edgeDofs.filter fun ds => ds ≠ [] :=
  table_nonempty edgeDofs

/-- **Specification**: a valid DOF number of a free DOF -/
def FreeDof (free : Option (List Bool)) (d : ℤ) : Prop := 0 ≤ d ∧ ∀ fr, free = some fr → fr[d.toNat]? = some true

theorem validFree_correct (free : Option (List Bool)) (ds : List ℤ)
    (h : ∀ fr, free = some fr → ∀ d ∈ ds, 0 ≤ d → d.toNat < fr.length) :
    ∃ r, validFree free ds = some r ∧ (r.map Int.ofNat).Sublist ds ∧ ∀ d : ℤ, d ∈ r.map Int.ofNat ↔ d ∈ ds ∧ FreeDof free d := by
  induction ds with
  | nil => exact ⟨[], rfl, by simp, by simp⟩
  | cons d ds ih =>
    obtain ⟨r, h1, h2, h3⟩ := ih fun fr hfr e he => h fr hfr e (by simp [he])
    rw [validFree.eq_def]
    dsimp only
    by_cases h0 : 0 ≤ d
    · have hto : Int.ofNat d.toNat = d := Int.toNat_of_nonneg h0
      have add : FreeDof free d → ((d.toNat :: r).map Int.ofNat).Sublist (d :: ds) ∧
          ∀ e : ℤ, e ∈ (d.toNat :: r).map Int.ofNat ↔ e ∈ d :: ds ∧ FreeDof free e := by
        intro hf
        rw [List.map_cons, hto]
        refine ⟨h2.cons_cons _, fun e => ?_⟩
        rw [List.mem_cons, List.mem_cons, h3]
        constructor
        · rintro (rfl | ⟨h4, h5⟩)
          · exact ⟨Or.inl rfl, hf⟩
          · exact ⟨Or.inr h4, h5⟩
        · rintro ⟨rfl | h4, h5⟩
          · exact Or.inl rfl
          · exact Or.inr ⟨h4, h5⟩
      rw [if_pos h0]
      cases free with
      | none =>
        obtain ⟨a1, a2⟩ := add ⟨h0, by simp⟩
        exact ⟨_, by simp only; rw [h1]; rfl, a1, a2⟩
      | some fr =>
        have hlt := h fr rfl d (by simp) h0
        have hg : fr[d.toNat]? = some fr[d.toNat] := List.getElem?_eq_getElem hlt
        simp only [hg]
        cases hb : fr[d.toNat] with
        | true =>
          rw [hb] at hg
          obtain ⟨a1, a2⟩ := add ⟨h0, fun fr' e => by rw [← Option.some.inj e]; exact hg⟩
          exact ⟨_, by simp only; rw [h1]; rfl, a1, a2⟩
        | false =>
          rw [hb] at hg
          refine ⟨r, by simp only; rw [h1], h2.trans (List.sublist_cons_self _ _), fun e => ?_⟩
          rw [h3, List.mem_cons]
          constructor
          · rintro ⟨h4, h5⟩; exact ⟨Or.inr h4, h5⟩
          · rintro ⟨rfl | h4, h5⟩
            · have := h5.2 fr rfl; rw [hg] at this; simp at this
            · exact ⟨h4, h5⟩
    · rw [if_neg h0]
      refine ⟨r, h1, h2.trans (List.sublist_cons_self _ _), fun e => ?_⟩
      rw [h3, List.mem_cons]
      constructor
      · rintro ⟨h4, h5⟩; exact ⟨Or.inr h4, h5⟩
      · rintro ⟨rfl | h4, h5⟩
        · exact absurd h5.1 h0
        · exact ⟨h4, h5⟩

theorem mapM_validFree (free : Option (List Bool)) (L : List (List ℤ))
    (h : ∀ fr, free = some fr → ∀ ds ∈ L, ∀ d ∈ ds, 0 ≤ d → d.toNat < fr.length) :
    ∃ R, L.mapM (validFree free) = some R ∧ List.Forall₂ (fun ds r => (r.map Int.ofNat).Sublist ds ∧
      ∀ d : ℤ, d ∈ r.map Int.ofNat ↔ d ∈ ds ∧ FreeDof free d) L R := by
  induction L with
  | nil => exact ⟨[], rfl, List.Forall₂.nil⟩
  | cons ds L ih =>
    obtain ⟨R, h1, h2⟩ := ih fun fr hfr e he => h fr hfr e (by simp [he])
    obtain ⟨r, h3, h4, h5⟩ := validFree_correct free ds fun fr hfr => h fr hfr ds (by simp)
    exact ⟨r :: R, by rw [List.mapM_cons, h3, h1]; rfl, List.Forall₂.cons ⟨h4, h5⟩ h2⟩

/-- **C110.** On the finest level of the HDiv preconditioner: take for every facet and then for every element its free DOFs (in the
order of `GetDofNrs`), and leave out the empty ones: these are the blocks. -/
theorem finestBlocks_correct (free : Option (List Bool)) (facetDofs elDofs : List (List ℤ))
    (h : ∀ fr, free = some fr → ∀ ds ∈ facetDofs ++ elDofs, ∀ d ∈ ds, 0 ≤ d → d.toNat < fr.length) :
    ∃ R, finestBlocks free facetDofs elDofs = some (R.filter fun r => r ≠ []) ∧
      List.Forall₂ (fun ds r => (r.map Int.ofNat).Sublist ds ∧ ∀ d : ℤ, d ∈ r.map Int.ofNat ↔ d ∈ ds ∧ FreeDof free d)
        (facetDofs ++ elDofs) R := by
  obtain ⟨R, h1, h2⟩ := mapM_validFree free (facetDofs ++ elDofs) h
  refine ⟨R, ?_, h2⟩
  rw [finestBlocks, h1, Option.map_some, table_nonempty]

/-- **C110.** On the finest level every free DOF of a facet or of an element is in a block, no other DOF is in a block, and no
block is empty. -/
theorem finestBlocks_cover (free : Option (List Bool)) (facetDofs elDofs : List (List ℤ))
    (h : ∀ fr, free = some fr → ∀ ds ∈ facetDofs ++ elDofs, ∀ d ∈ ds, 0 ≤ d → d.toNat < fr.length) :
    ∃ T, finestBlocks free facetDofs elDofs = some T ∧ (∀ r ∈ T, r ≠ []) ∧
      ∀ d : ℕ, (∃ i, InBlock T i d) ↔ (∃ ds ∈ facetDofs ++ elDofs, (d : ℤ) ∈ ds) ∧ FreeDof free d := by
  obtain ⟨R, h1, h2⟩ := finestBlocks_correct free facetDofs elDofs h
  refine ⟨_, h1, fun r hr => by simpa using (List.mem_filter.1 hr).2, fun d => ?_⟩
  have hmm : (∃ i, InBlock (R.filter fun r => r ≠ []) i d) ↔ ∃ r ∈ R, d ∈ r := by
    constructor
    · rintro ⟨i, r, hr, hd⟩
      exact ⟨r, (List.mem_filter.1 (List.mem_of_getElem? hr)).1, hd⟩
    · rintro ⟨r, hr, hd⟩
      have : r ∈ R.filter fun r => r ≠ [] := List.mem_filter.2 ⟨hr, by simpa using List.ne_nil_of_mem hd⟩
      obtain ⟨i, hi⟩ := List.mem_iff_getElem?.1 this
      exact ⟨i, r, hi, hd⟩
  rw [hmm]
  generalize facetDofs ++ elDofs = L at h2
  clear h1 hmm h
  induction h2 with
  | nil => simp
  | cons hab _ ih =>
    rename_i a b _ _ _
    have hd : d ∈ b ↔ (d : ℤ) ∈ a ∧ FreeDof free d := by
      rw [← hab.2]
      simp only [List.mem_map]
      constructor
      · intro hb; exact ⟨d, hb, rfl⟩
      · rintro ⟨e, he, hed⟩
        rwa [← Int.ofNat.inj hed]
    simp only [List.mem_cons, exists_eq_or_imp, ih, hd]
    tauto

/-- the hypotheses are met: DOF 1 is not free, the last facet has no valid DOF -/
example : finestBlocks (some [true, false, true, true, true]) [[0, 1], [1], [2, -1], [-1]] [[3, 4], []] =
    some [[0], [2], [3, 4]] := by decide +kernel

end NgsAMG.GSB
