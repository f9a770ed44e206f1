import Verif.Props.GridCtr

/-! # C89: `PartitionProcsMETIS` -/

namespace NgsAMG.GCtr
open NgsAMG.EQC NgsAMG.BTM

/-- what `QuickSortI` does: an order of the positions in which the values do not decrease -/
def SortsI (sortI : List ℕ → List ℕ) : Prop := ∀ a, (sortI a).Perm (List.range a.length) ∧ ((sortI a).map fun i => a.getD i 0).Pairwise (· ≤ ·)

theorem mkTable_bound {α : Type} (l : List (ℕ × α)) (m : ℕ) :
    let n := l.foldl (fun m e => max m (e.1 + 1)) m
    m ≤ n ∧ (∀ e ∈ l, e.1 < n) ∧ (n = m ∨ ∃ e ∈ l, e.1 + 1 = n) := by
  induction l generalizing m with
  | nil => simp
  | cons a l ih =>
    obtain ⟨h1, h2, h3⟩ := ih (max m (a.1 + 1))
    simp only [List.foldl_cons]
    refine ⟨le_trans (le_max_left _ _) h1, ?_, ?_⟩
    · intro e he
      rcases List.mem_cons.mp he with rfl | he
      · exact lt_of_lt_of_le (Nat.lt_succ_self _) (le_trans (le_max_right _ _) h1)
      · exact h2 e he
    · rcases h3 with h3 | ⟨e, he, h3⟩
      · rcases le_total m (a.1 + 1) with h | h
        · right; exact ⟨a, List.mem_cons_self, by rw [h3, max_eq_right h]⟩
        · left; rw [h3, max_eq_left h]
      · right; exact ⟨e, List.mem_cons_of_mem _ he, h3⟩

theorem minRanks_aux (part : ℕ → ℕ) (nparts : ℕ) (l : List ℕ) (hl : ∀ p ∈ l, part p < nparts) (a : List ℕ) (ha : a.length = nparts) :
    ∃ b, l.foldlM (fun (a : List ℕ) k => if part k < a.length then some (a.modify (part k) (min · k)) else none) a = some b ∧ b.length = nparts ∧
      ∀ (i x : ℕ), a[i]? = some x → ∃ m, b[i]? = some m ∧ m ≤ x ∧ (m = x ∨ (m ∈ l ∧ part m = i)) ∧ ∀ p ∈ l, part p = i → m ≤ p := by
  induction l generalizing a with
  | nil => exact ⟨a, rfl, ha, fun i x h => ⟨x, h, le_refl _, Or.inl rfl, fun p hp => by cases hp⟩⟩
  | cons k l ih =>
    rw [List.foldlM_cons, if_pos (by rw [ha]; exact hl k List.mem_cons_self)]
    obtain ⟨b, hb, hlen, h⟩ := ih (fun p hp => hl p (List.mem_cons_of_mem _ hp)) (a.modify (part k) (min · k)) (by simpa using ha)
    refine ⟨b, hb, hlen, ?_⟩
    intro i x hx
    by_cases hi : part k = i
    · obtain ⟨m, h1, h2, h3, h4⟩ := h i (min x k) (by rw [List.getElem?_modify, hx]; simp [hi])
      refine ⟨m, h1, le_trans h2 (min_le_left _ _), ?_, ?_⟩
      · rcases h3 with h3 | ⟨h3, h3'⟩
        · rcases le_total x k with hxk | hxk
          · left; rw [h3, min_eq_left hxk]
          · right; rw [h3, min_eq_right hxk]; exact ⟨List.mem_cons_self, hi⟩
        · right; exact ⟨List.mem_cons_of_mem _ h3, h3'⟩
      · intro p hp hpi
        rcases List.mem_cons.mp hp with rfl | hp
        · exact le_trans h2 (min_le_right _ _)
        · exact h4 p hp hpi
    · obtain ⟨m, h1, h2, h3, h4⟩ := h i x (by rw [List.getElem?_modify, hx]; simp [hi])
      refine ⟨m, h1, h2, ?_, ?_⟩
      · rcases h3 with h3 | ⟨h3, h3'⟩
        · exact Or.inl h3
        · right; exact ⟨List.mem_cons_of_mem _ h3, h3'⟩
      · intro p hp hpi
        rcases List.mem_cons.mp hp with rfl | hp
        · exact absurd hpi hi
        · exact h4 p hp hpi

theorem minRanks_spec {np nparts lo : ℕ} {part : ℕ → ℕ} (hp : ∀ p, lo ≤ p → p < np → part p < nparts) :
    ∃ a, minRanks np nparts lo part = some a ∧ a.length = nparts ∧
      ∀ i < nparts, ∃ m, a[i]? = some m ∧ (m = np ∨ (lo ≤ m ∧ m < np ∧ part m = i)) ∧ ∀ p, lo ≤ p → p < np → part p = i → m ≤ p := by
  have hmem : ∀ p, p ∈ List.range' lo (np - lo) ↔ lo ≤ p ∧ p < np := by
    intro p; rw [List.mem_range'_1]; omega
  obtain ⟨a, h1, h2, h3⟩ := minRanks_aux part nparts (List.range' lo (np - lo)) (fun p h => by rw [hmem] at h; exact hp p h.1 h.2) (List.replicate nparts np) (by simp)
  refine ⟨a, h1, h2, ?_⟩
  intro i hi
  obtain ⟨m, g1, -, g2, g3⟩ := h3 i np (by rw [List.getElem?_replicate, if_pos hi])
  refine ⟨m, g1, ?_, fun p h h' => g3 p ((hmem p).mpr ⟨h, h'⟩)⟩
  rcases g2 with g2 | ⟨g2, g2'⟩
  · exact Or.inl g2
  · rw [hmem] at g2; exact Or.inr ⟨g2.1, g2.2, g2'⟩

theorem places_aux (s : List ℕ) (hs : s.Nodup) (a : List ℕ) (k : ℕ) (hlt : ∀ i ∈ s, i < a.length) :
    ((s.zipIdx k).foldl (fun a e => a.set e.1 e.2) a).length = a.length ∧
    ∀ i, ((s.zipIdx k).foldl (fun (a : List ℕ) e => a.set e.1 e.2) a)[i]? = if i ∈ s then some (k + s.idxOf i) else a[i]? := by
  induction s generalizing a k with
  | nil => simp
  | cons x s ih =>
    rw [List.zipIdx_cons, List.foldl_cons]
    obtain ⟨hx, hs'⟩ := List.nodup_cons.mp hs
    obtain ⟨h1, h2⟩ := ih hs' (a.set x k) (k + 1) (fun i hi => by rw [List.length_set]; exact hlt i (List.mem_cons_of_mem _ hi))
    refine ⟨by rw [h1, List.length_set], ?_⟩
    intro i
    rw [h2 i]
    by_cases hi : i ∈ s
    · have hne : x ≠ i := fun h => hx (h ▸ hi)
      rw [if_pos hi, if_pos (List.mem_cons_of_mem _ hi), List.idxOf_cons_ne _ hne]
      congr 1; omega
    · rw [if_neg hi]
      by_cases hxi : x = i
      · subst hxi
        rw [if_pos List.mem_cons_self, List.getElem?_set_self (hlt x List.mem_cons_self), List.idxOf_cons_self]; rfl
      · rw [List.getElem?_set_ne hxi, if_neg]
        rw [List.mem_cons]; rintro (h | h)
        · exact hxi h.symm
        · exact hi h

theorem places_spec {sortI : List ℕ → List ℕ} (hS : SortsI sortI) (a : List ℕ) :
    ∃ pl : ℕ → ℕ, (∀ i < a.length, (places sortI a)[i]? = some (pl i) ∧ pl i < a.length) ∧ (∀ r < a.length, ∃ i < a.length, pl i = r) ∧
      (∀ i < a.length, ∀ j < a.length, pl i = pl j → i = j) ∧ ∀ i < a.length, ∀ j < a.length, a.getD i 0 < a.getD j 0 → pl i < pl j := by
  obtain ⟨hp, hs⟩ := hS a
  have hn : (sortI a).Nodup := hp.nodup_iff.mpr List.nodup_range
  have hm : ∀ i, i ∈ sortI a ↔ i < a.length := fun i => by rw [hp.mem_iff, List.mem_range]
  have hl : (sortI a).length = a.length := by rw [hp.length_eq, List.length_range]
  obtain ⟨-, h2⟩ := places_aux (sortI a) hn a 0 (fun i hi => (hm i).mp hi)
  refine ⟨fun i => (sortI a).idxOf i, ?_, ?_, ?_, ?_⟩
  · intro i hi
    refine ⟨?_, ?_⟩
    · have := h2 i
      rw [if_pos ((hm i).mpr hi), Nat.zero_add] at this
      exact this
    · dsimp only; rw [← hl]; exact List.idxOf_lt_length_of_mem ((hm i).mpr hi)
  · intro r hr
    have hr' : r < (sortI a).length := by rw [hl]; exact hr
    exact ⟨(sortI a)[r], (hm _).mp (List.getElem_mem hr'), hn.idxOf_getElem r hr'⟩
  · intro i hi j hj h
    exact (List.idxOf_inj ((hm i).mpr hi)).mp h
  · intro i hi j hj h
    by_contra hle
    dsimp only at hle
    have hi' := List.idxOf_lt_length_of_mem ((hm i).mpr hi)
    have hj' := List.idxOf_lt_length_of_mem ((hm j).mpr hj)
    have hne : (sortI a).idxOf j ≠ (sortI a).idxOf i := by
      intro he
      have := (List.idxOf_inj ((hm j).mpr hj)).mp he
      subst this; exact lt_irrefl _ h
    have := List.pairwise_iff_getElem.mp hs ((sortI a).idxOf j) ((sortI a).idxOf i) (by simpa using hj') (by simpa using hi') (by omega)
    simp only [List.getElem_map, List.getElem_idxOf] at this
    omega

/-- the table of groups: row `r` has the processes of place `r`. Generic lemma for both cases of the function -/
theorem mkTable_groups (np : ℕ) (f : ℕ → ℕ) (k : ℕ) (hk : ∀ p < np, f p < k) (hs : ∀ r < k, ∃ p < np, f p = r) (l : List (ℕ × ℕ)) (hl : l = (List.range np).map fun p => (f p, p))
    (hmin : ∀ p < np, ∀ q < np, (∀ p' < np, f p' = f p → p ≤ p') → (∀ q' < np, f q' = f q → q ≤ q') → f p < f q → p < q) :
    GroupsOK np (mkTable l) ∧ (mkTable l).length = k ∧ (∀ p < np, gOf (mkTable l) p = f p) ∧ ((mkTable l).map fun g => g.headD 0).Pairwise (· < ·) := by
  have hlen : (l.foldl (fun m e => max m (e.1 + 1)) 0) = k := by
    obtain ⟨h1, h2, h3⟩ := mkTable_bound l 0
    subst hl
    apply le_antisymm
    · rcases h3 with h3 | ⟨e, he, h3⟩
      · omega
      · obtain ⟨p, hp, rfl⟩ := List.mem_map.mp he
        have := hk p (List.mem_range.mp hp)
        dsimp only at h3
        omega
    · by_contra hlt
      obtain ⟨p, hp, hr⟩ := hs (k - 1) (by omega)
      have := h2 (f p, p) (List.mem_map.mpr ⟨p, List.mem_range.mpr hp, rfl⟩)
      dsimp only at this
      omega
  have hrow : ∀ r, (l.filter fun e => e.1 = r).map Prod.snd = (List.range np).filter fun p => f p = r := by
    intro r
    rw [hl, List.filter_map, List.map_map]
    show List.map id _ = _
    rw [List.map_id]; rfl
  have hget : ∀ (r : ℕ) (g : List ℕ), (mkTable l)[r]? = some g ↔ r < k ∧ g = (List.range np).filter fun p => f p = r := by
    intro r g
    unfold mkTable
    rw [hlen, List.getElem?_map, Option.map_eq_some_iff]
    constructor
    · rintro ⟨r', h1, h2⟩
      obtain ⟨h3, h4⟩ := List.getElem?_eq_some_iff.mp h1
      rw [List.getElem_range] at h4; subst h4
      rw [List.length_range] at h3
      exact ⟨h3, by rw [← h2, hrow]⟩
    · rintro ⟨h1, h2⟩
      exact ⟨r, by rw [List.getElem?_range h1], by rw [h2, hrow]⟩
  have hmem : ∀ p, p < np → ∃ g, (mkTable l)[f p]? = some g ∧ p ∈ g := fun p hp =>
    ⟨_, (hget _ _).mpr ⟨hk p hp, rfl⟩, by simp [hp]⟩
  have hok : GroupsOK np (mkTable l) := by
    refine ⟨?_, ?_, ?_⟩
    · refine (List.perm_ext_iff_of_nodup ?_ List.nodup_range).mpr ?_
      · rw [List.nodup_flatten]
        refine ⟨?_, ?_⟩
        · intro g hg
          obtain ⟨r, hr⟩ := List.mem_iff_getElem?.mp hg
          rw [((hget r g).mp hr).2]
          exact List.nodup_range.filter _
        · rw [List.pairwise_iff_getElem]
          intro i j hi hj hij
          have h1 := (hget i _).mp (List.getElem?_eq_getElem hi)
          have h2 := (hget j _).mp (List.getElem?_eq_getElem hj)
          rw [h1.2, h2.2]
          intro p hp hp'
          simp only [List.mem_filter, decide_eq_true_eq] at hp hp'
          omega
      · intro p
        rw [List.mem_flatten, List.mem_range]
        constructor
        · rintro ⟨g, hg, hp⟩
          obtain ⟨r, hr⟩ := List.mem_iff_getElem?.mp hg
          rw [((hget r g).mp hr).2] at hp
          simp only [List.mem_filter, List.mem_range] at hp
          exact hp.1
        · intro hp
          obtain ⟨g, h1, h2⟩ := hmem p hp
          exact ⟨g, List.mem_of_getElem? h1, h2⟩
    · intro g hg
      obtain ⟨r, hr⟩ := List.mem_iff_getElem?.mp hg
      obtain ⟨h1, h2⟩ := (hget r g).mp hr
      obtain ⟨p, hp, hpr⟩ := hs r h1
      have : p ∈ g := by rw [h2]; simp [hp, hpr]
      exact List.ne_nil_of_mem this
    · intro g hg
      obtain ⟨r, hr⟩ := List.mem_iff_getElem?.mp hg
      rw [((hget r g).mp hr).2]
      exact List.Pairwise.filter _ List.pairwise_lt_range
  refine ⟨hok, ?_, ?_, ?_⟩
  · unfold mkTable; rw [hlen, List.length_map, List.length_range]
  · intro p hp
    obtain ⟨g, h1, h2⟩ := hmem p hp
    exact hok.gOf_eq h1 h2
  · rw [List.pairwise_map, List.pairwise_iff_getElem]
    intro i j hi hj hij
    have head : ∀ (r : ℕ) (g : List ℕ), (mkTable l)[r]? = some g → g.headD 0 < np ∧ f (g.headD 0) = r ∧ ∀ p' < np, f p' = r → g.headD 0 ≤ p' := by
      intro r g hg
      obtain ⟨-, h2⟩ := (hget r g).mp hg
      have hne := hok.ne g (List.mem_of_getElem? hg)
      have hso := hok.sorted g (List.mem_of_getElem? hg)
      obtain ⟨x, xs, hx⟩ := List.exists_cons_of_ne_nil hne
      have hxm : x ∈ (List.range np).filter fun p => f p = r := by rw [← h2, hx]; exact List.mem_cons_self
      simp only [List.mem_filter, List.mem_range, decide_eq_true_eq] at hxm
      rw [hx]
      refine ⟨hxm.1, hxm.2, ?_⟩
      intro p' hp' hf
      have : p' ∈ g := by rw [h2]; simp [hp', hf]
      rw [hx] at this hso
      rcases List.mem_cons.mp this with rfl | h
      · exact le_refl _
      · exact le_of_lt ((List.pairwise_cons.mp hso).1 p' h)
    obtain ⟨a1, a2, a3⟩ := head i _ (List.getElem?_eq_getElem hi)
    obtain ⟨b1, b2, b3⟩ := head j _ (List.getElem?_eq_getElem hj)
    exact hmin _ a1 _ b1 (by rw [a2]; exact a3) (by rw [b2]; exact b3) (by rw [a2, b2]; exact hij)

/-- **C89** whatever METIS returns (parts may be empty), the groups partition the processes, none is empty, all are sorted, and they are ordered by their lowest rank, which is
the rank of their master; processes of the same part, and only these, are in the same group -/
theorem partition_correct {sortI : List ℕ → List ℕ} (hS : SortsI sortI) {np nparts : ℕ} (h0 : 0 < np) (h1 : 0 < nparts) (sepP0 : Bool) (h2 : sepP0 = true → 1 < np ∧ 1 < nparts) (part : ℕ → ℕ)
    (hp : ∀ p < np, part p < if sepP0 then nparts - 1 else nparts) :
    ∃ groups, partitionProcs sortI np nparts sepP0 part = some groups ∧ GroupsOK np groups ∧ groups.length ≤ nparts ∧ (groups.map fun g => g.headD 0).Pairwise (· < ·) ∧
      (sepP0 = true → groups[0]? = some [0] ∧ 1 < groups.length) ∧
      (nparts = 1 → groups.length = 1) ∧ (sepP0 = true → nparts = 2 → groups.length = 2) ∧
      ∀ p < np, ∀ q < np, (sepP0 = true → 0 < p ∧ 0 < q) → (gOf groups p = gOf groups q ↔ part p = part q) := by
  unfold partitionProcs
  rw [if_neg (by omega)]
  by_cases hn1 : nparts = 1
  · subst hn1
    have hs : sepP0 = false := by
      by_contra h
      have := h2 (by simpa using h); omega
    subst hs
    have hg : GroupsOK np [List.range np] := by
      refine ⟨by simp, ?_, ?_⟩
      · intro g hg; rw [List.mem_singleton] at hg; subst hg
        intro h; have : (List.range np).length = 0 := by rw [h]; rfl
        rw [List.length_range] at this; omega
      · intro g hg; rw [List.mem_singleton] at hg; subst hg
        exact List.pairwise_lt_range
    refine ⟨_, if_pos rfl, hg, by simp, by simp, by simp, by simp, by simp, ?_⟩
    intro p hp' q hq _
    have e : ∀ p < np, gOf [List.range np] p = 0 := fun p hp => hg.gOf_eq (gi := 0) rfl (by simpa using hp)
    have := hp p hp'
    have := hp q hq
    simp only [Bool.false_eq_true, if_false] at *
    rw [e p hp', e q hq]
    constructor
    · intro _; omega
    · intro _; rfl
  rw [if_neg hn1]
  by_cases hn2 : (sepP0 && nparts == 2) = true
  · rw [if_pos hn2]
    rw [Bool.and_eq_true, beq_iff_eq] at hn2
    obtain ⟨rfl, rfl⟩ := hn2
    obtain ⟨hnp, -⟩ := h2 rfl
    have hr : List.range np = 0 :: List.range' 1 (np - 1) := by
      obtain ⟨m, rfl⟩ : ∃ m, np = m + 1 := ⟨np - 1, by omega⟩
      rw [List.range_eq_range', List.range'_succ]; rfl
    have hg : GroupsOK np [[0], List.range' 1 (np - 1)] := by
      refine ⟨by rw [hr]; simp, ?_, ?_⟩
      · intro g hg
        simp only [List.mem_cons, List.not_mem_nil, or_false] at hg
        rcases hg with rfl | rfl
        · simp
        · intro h
          have : (List.range' 1 (np - 1)).length = 0 := by rw [h]; rfl
          rw [List.length_range'] at this; omega
      · intro g hg
        simp only [List.mem_cons, List.not_mem_nil, or_false] at hg
        rcases hg with rfl | rfl
        · simp
        · exact List.pairwise_lt_range'
    refine ⟨_, rfl, hg, by simp, ?_, by simp, by simp, by simp, ?_⟩
    · obtain ⟨m, rfl⟩ : ∃ m, np = m + 2 := ⟨np - 2, by omega⟩
      simp [List.range'_succ]
    · intro p hp' q hq h
      obtain ⟨h3, h4⟩ := h rfl
      have e : ∀ p, 0 < p → p < np → gOf [[0], List.range' 1 (np - 1)] p = 1 := fun p h hp => hg.gOf_eq (gi := 1) rfl (by rw [List.mem_range'_1]; omega)
      rw [e p h3 hp', e q h4 hq]
      have := hp p hp'
      have := hp q hq
      simp only [if_true] at *
      refine ⟨fun _ => by omega, fun _ => ?_⟩
      trivial
  rw [if_neg hn2]
  -- the places of the parts
  obtain ⟨lo, hlo⟩ : ∃ lo, lo = if sepP0 = true then 1 else 0 := ⟨_, rfl⟩
  rw [← hlo]
  have hpn : ∀ p < np, part p < nparts := fun p hp' => by
    have := hp p hp'
    split_ifs at this <;> omega
  obtain ⟨a, ha1, ha2, ha3⟩ := minRanks_spec (lo := lo) (fun p _ h => hpn p h)
  obtain ⟨pl, hp1, hp2, hp3, hp4⟩ := places_spec hS a
  rw [ha2] at hp1 hp2 hp3 hp4
  rw [ha1, Option.bind_some]
  have hmap : ∀ p < np, (places sortI a)[part p]? = some (pl (part p)) := fun p h => (hp1 _ (hpn p h)).1
  -- nonempty parts come first
  have hfirst : ∀ p, lo ≤ p → p < np → ∀ r ≤ pl (part p), ∃ q, lo ≤ q ∧ q < np ∧ pl (part q) = r := by
    intro p hlp hpp r hr
    obtain ⟨j, hj, hjr⟩ := hp2 r (lt_of_le_of_lt hr (hp1 _ (hpn p hpp)).2)
    obtain ⟨m, hm1, hm2, hm3⟩ := ha3 j hj
    rcases hm2 with hm2 | ⟨hm2, hm4, hm5⟩
    · exfalso
      obtain ⟨m', hm1', hm2', hm3'⟩ := ha3 (part p) (hpn p hpp)
      have hle := hm3' p hlp hpp rfl
      have : pl (part p) < pl j := hp4 _ (hpn p hpp) _ hj (by rw [List.getD_eq_getElem?_getD, List.getD_eq_getElem?_getD, hm1, hm1']; simp only [Option.getD_some]; omega)
      omega
    · exact ⟨m, hm2, hm4, by rw [hm5]; exact hjr⟩
  -- order by lowest rank
  have hord : ∀ p, lo ≤ p → p < np → ∀ q, lo ≤ q → q < np → (∀ p', lo ≤ p' → p' < np → part p' = part p → p ≤ p') → (∀ q', lo ≤ q' → q' < np → part q' = part q → q ≤ q') →
      pl (part p) < pl (part q) → p < q := by
    intro p hlp hpp q hlq hqq hmp hmq hlt
    by_contra hge
    have mn : ∀ p, lo ≤ p → p < np → (∀ p', lo ≤ p' → p' < np → part p' = part p → p ≤ p') → a.getD (part p) 0 = p := by
      intro p hlp hpp hmp
      obtain ⟨m, g1, g2, g3⟩ := ha3 (part p) (hpn p hpp)
      rw [List.getD_eq_getElem?_getD, g1, Option.getD_some]
      have := g3 p hlp hpp rfl
      rcases g2 with g2 | ⟨g2, g4, g5⟩
      · omega
      · have := hmp m g2 g4 g5; omega
    have hne : p ≠ q := by rintro rfl; omega
    have := hp4 (part q) (hpn q hqq) (part p) (hpn p hpp) (by rw [mn p hlp hpp hmp, mn q hlq hqq hmq]; omega)
    omega
  cases hsep : sepP0 with
  | false =>
    simp only [hsep, Bool.false_eq_true, if_false] at *
    subst hlo
    have hM : ((List.range np).mapM fun p => ((places sortI a)[part p]?).map fun g => (g, p)) = some ((List.range np).map fun p => (pl (part p), p)) :=
      RedTab.mapM_some_of _ _ _ (fun p hp => by rw [hmap p (List.mem_range.mp hp)]; rfl)
    rw [hM, Option.map_some]
    obtain ⟨h0', h1', h2'⟩ := mkTable_bound ((List.range np).map fun p => (pl (part p), p)) 0
    generalize hk : ((List.range np).map fun p => (pl (part p), p)).foldl (fun m e => max m (e.1 + 1)) 0 = k at *
    have hkk : 0 < k := lt_of_le_of_lt (Nat.zero_le _) (h1' (pl (part 0), 0) (List.mem_map.mpr ⟨0, List.mem_range.mpr h0, rfl⟩))
    obtain ⟨pm, hpm, hpm'⟩ : ∃ p < np, pl (part p) + 1 = k := by
      rcases h2' with h | ⟨e, he, h⟩
      · omega
      · obtain ⟨p, hp, rfl⟩ := List.mem_map.mp he
        exact ⟨p, List.mem_range.mp hp, h⟩
    obtain ⟨g1, g2, g3, g4⟩ := mkTable_groups np (fun p => pl (part p)) k (fun p hp => h1' _ (List.mem_map.mpr ⟨p, List.mem_range.mpr hp, rfl⟩))
      (fun r hr => by obtain ⟨q, -, h, h'⟩ := hfirst pm (Nat.zero_le _) hpm r (by omega); exact ⟨q, h, h'⟩) _ rfl
      (fun p hp q hq hmp hmq hlt => hord p (Nat.zero_le _) hp q (Nat.zero_le _) hq (fun p' _ h h' => hmp p' h (by rw [h'])) (fun q' _ h h' => hmq q' h (by rw [h'])) hlt)
    refine ⟨_, rfl, g1, ?_, g4, by simp, fun h => absurd h hn1, by simp, ?_⟩
    · rw [g2]; have := (hp1 _ (hpn pm hpm)).2; omega
    · intro p hpp q hqq _
      rw [g3 p hpp, g3 q hqq]
      exact ⟨fun h => hp3 _ (hpn p hpp) _ (hpn q hqq) h, fun h => by rw [h]⟩
  | true =>
    subst hsep
    simp only [if_true] at *
    subst hlo
    obtain ⟨hnp, hnp'⟩ := h2 trivial
    have hr : List.range np = 0 :: List.range' 1 (np - 1) := by
      obtain ⟨m, rfl⟩ : ∃ m, np = m + 1 := ⟨np - 1, by omega⟩
      rw [List.range_eq_range', List.range'_succ]; rfl
    have hM : ((List.range' 1 (np - 1)).mapM fun p => ((places sortI a)[part p]?).map fun g => (g + 1, p)) = some ((List.range' 1 (np - 1)).map fun p => (pl (part p) + 1, p)) :=
      RedTab.mapM_some_of _ _ _ (fun p hp => by rw [hmap p (by rw [List.mem_range'_1] at hp; omega)]; rfl)
    rw [hM, Option.map_some]
    obtain ⟨f, hf⟩ : ∃ f : ℕ → ℕ, f = fun p => if p = 0 then 0 else pl (part p) + 1 := ⟨_, rfl⟩
    have hf0 : f 0 = 0 := by rw [hf]; simp
    have hfs : ∀ p, 1 ≤ p → f p = pl (part p) + 1 := fun p h => by rw [hf]; simp only; rw [if_neg (by omega)]
    have hl : (0, 0) :: (List.range' 1 (np - 1)).map (fun p => (pl (part p) + 1, p)) = (List.range np).map fun p => (f p, p) := by
      rw [hr, List.map_cons, hf0]
      congr 1
      apply List.map_congr_left
      intro p hp
      rw [List.mem_range'_1] at hp
      rw [hfs p hp.1]
    rw [hl]
    obtain ⟨h0', h1', h2'⟩ := mkTable_bound ((List.range np).map fun p => (f p, p)) 0
    generalize hk : ((List.range np).map fun p => (f p, p)).foldl (fun m e => max m (e.1 + 1)) 0 = k at *
    have hkk : 1 < k := by
      have := h1' (f 1, 1) (List.mem_map.mpr ⟨1, List.mem_range.mpr hnp, rfl⟩)
      dsimp only at this
      rw [hfs 1 (le_refl _)] at this
      omega
    obtain ⟨pm, hpm, hpm'⟩ : ∃ p < np, f p + 1 = k := by
      rcases h2' with h | ⟨e, he, h⟩
      · omega
      · obtain ⟨p, hp, rfl⟩ := List.mem_map.mp he
        exact ⟨p, List.mem_range.mp hp, h⟩
    have hpm1 : 1 ≤ pm := by
      by_contra h
      have : pm = 0 := by omega
      subst this; rw [hf0] at hpm'; omega
    rw [hfs pm hpm1] at hpm'
    obtain ⟨g1, g2, g3, g4⟩ := mkTable_groups np f k (fun p hp => h1' _ (List.mem_map.mpr ⟨p, List.mem_range.mpr hp, rfl⟩))
      (fun r hr => by
        rcases Nat.eq_zero_or_pos r with rfl | hr0
        · exact ⟨0, h0, hf0⟩
        · obtain ⟨q, h'', h, h'⟩ := hfirst pm hpm1 hpm (r - 1) (by omega)
          exact ⟨q, h, by rw [hfs q h'', h']; omega⟩) _ rfl
      (fun p hp q hq hmp hmq hlt => by
        rcases Nat.eq_zero_or_pos p with rfl | hp0
        · rcases Nat.eq_zero_or_pos q with rfl | hq0
          · omega
          · exact hq0
        · rcases Nat.eq_zero_or_pos q with rfl | hq0
          · rw [hf0] at hlt; omega
          · refine hord p hp0 hp q hq0 hq (fun p' h1 h h' => hmp p' h (by rw [hfs _ h1, hfs _ hp0, h'])) (fun q' h1 h h' => hmq q' h (by rw [hfs _ h1, hfs _ hq0, h'])) ?_
            rw [hfs _ hp0, hfs _ hq0] at hlt
            omega)
    refine ⟨_, rfl, g1, ?_, g4, fun _ => ⟨?_, by omega⟩, fun h => absurd h hn1, fun _ h => absurd h (by simpa using hn2), ?_⟩
    · rw [g2]
      -- the places of parts that occur are below `nparts - 1`
      obtain ⟨i, hi, hie⟩ : ∃ i < nparts, (∀ p, 1 ≤ p → p < np → part p ≠ i) := ⟨nparts - 1, by omega, fun p _ h => by have := hp p h; omega⟩
      obtain ⟨m, hm1, hm2, hm3⟩ := ha3 i hi
      have hmn : m = np := by
        rcases hm2 with h | ⟨h, h', h''⟩
        · exact h
        · exact absurd h'' (hie m h h')
      obtain ⟨m', hm1', hm2', hm3'⟩ := ha3 (part pm) (hpn pm hpm)
      have hle := hm3' pm hpm1 hpm rfl
      have : pl (part pm) < pl i := hp4 _ (hpn pm hpm) _ hi (by rw [List.getD_eq_getElem?_getD, List.getD_eq_getElem?_getD, hm1, hm1']; simp only [Option.getD_some]; omega)
      have := (hp1 i hi).2
      omega
    · -- the group of process 0
      obtain ⟨-, g, hg, h0g⟩ := g1.gOf_lt h0
      rw [g3 0 h0, hf0] at hg
      rw [hg]
      congr 1
      have hone : ∀ p ∈ g, p = 0 := by
        intro p hp'
        have hpn' : p < np := g1.mem.mpr ⟨_, g, hg, hp'⟩
        have := g1.gOf_eq hg hp'
        rw [g3 p hpn'] at this
        by_contra hne
        rw [hfs p (by omega)] at this
        omega
      have hsg := g1.sorted g (List.mem_of_getElem? hg)
      match g, h0g, hone, hsg with
      | [x], _, ho, _ => rw [ho x List.mem_cons_self]
      | x :: y :: g, _, ho, hs =>
        have h1 := ho x List.mem_cons_self
        have h2 := ho y (by simp)
        have := (List.pairwise_cons.mp hs).1 y List.mem_cons_self
        omega
    · intro p hpp q hqq h
      rw [g3 p hpp, g3 q hqq, hfs p (h trivial).1, hfs q (h trivial).2]
      exact ⟨fun h => hp3 _ (hpn p hpp) _ (hpn q hqq) (by omega), fun h => by rw [h]⟩

/-- sorting the positions by insertion -/
def exSortI (a : List ℕ) : List ℕ := (List.range a.length).insertionSort fun i j => a.getD i 0 ≤ a.getD j 0

theorem exSortI_ok : SortsI exSortI := by
  intro a
  refine ⟨List.perm_insertionSort _ _, ?_⟩
  rw [List.pairwise_map]
  have : IsTrans ℕ (fun i j => a.getD i 0 ≤ a.getD j 0) := ⟨fun _ _ _ h1 h2 => le_trans h1 h2⟩
  have : Std.Total (fun i j => a.getD i 0 ≤ a.getD j 0) := ⟨fun i j => le_total _ _⟩
  exact List.pairwise_insertionSort _ _

/-- six processes, four parts of which one is empty -/
example : partitionProcs exSortI 6 4 false (fun p => [3, 0, 3, 2, 0, 3].getD p 0) = some [[0, 2, 5], [1, 4], [3]] := by decide

/-- the same with process 0 kept alone -/
example : partitionProcs exSortI 6 4 true (fun p => [2, 2, 1, 2, 1, 1].getD p 0) = some [[0], [1, 3], [2, 4, 5]] := by decide

/-- the hypotheses of the theorem are met -/
example : ∃ groups, partitionProcs exSortI 6 4 false (fun p => [3, 0, 3, 2, 0, 3].getD p 0) = some groups ∧ GroupsOK 6 groups :=
  let ⟨g, h1, h2, _⟩ := partition_correct exSortI_ok (np := 6) (nparts := 4) (by decide) (by decide) false (by decide) (fun p => [3, 0, 3, 2, 0, 3].getD p 0) (by decide)
  ⟨g, h1, h2⟩

end NgsAMG.GCtr
