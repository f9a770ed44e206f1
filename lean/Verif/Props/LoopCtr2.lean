import Verif.Props.LoopCtr1

/-!
# C113: loops of a contracted mesh
-/

namespace NgsAMG.LCtr

theorem mapM_ok {β γ : Type} {f : β → Option γ} {l : List β} (h : ∀ x ∈ l, ∃ y, f x = some y) :
    ∃ r, l.mapM f = some r ∧ r.length = l.length ∧ (∀ y, y ∈ r ↔ ∃ x ∈ l, f x = some y) ∧
      ∀ (i : ℕ) (x : β) (y : γ), l[i]? = some x → r[i]? = some y → f x = some y := by
  induction l with
  | nil => exact ⟨[], rfl, rfl, by simp, by simp⟩
  | cons x l ih =>
    obtain ⟨r, h1, h2, h3, h4⟩ := ih fun x hx => h x (by simp [hx])
    obtain ⟨y, hy⟩ := h x (by simp)
    refine ⟨y :: r, by rw [List.mapM_cons, hy, h1]; rfl, by simp [h2], ?_, ?_⟩
    · intro z
      rw [List.mem_cons, h3 z]
      constructor
      · rintro (rfl | ⟨w, hw, e⟩)
        · exact ⟨x, by simp, hy⟩
        · exact ⟨w, by simp [hw], e⟩
      · rintro ⟨w, hw, e⟩
        rcases List.mem_cons.mp hw with rfl | hw
        · rw [hy] at e
          exact Or.inl (Option.some.inj e).symm
        · exact Or.inr ⟨w, hw, e⟩
    · rintro (_ | i) x' y' hx hy'
      · simp only [List.getElem?_cons_zero, Option.some.injEq] at hx hy'
        subst hx hy'
        exact hy
      · exact h4 i x' y' (by simpa using hx) (by simpa using hy')

/-- a member of the group with consistent data: one loop and one list of processes for every global number; entries of loops are edges of its mesh -/
structure MemberOK (m : Member) : Prop where
  loops : m.loops.length = m.gnums.length
  dps : m.dps.length = m.gnums.length
  flips : m.flips.length = m.emap.length
  entry : ∀ l ∈ m.loops, ∀ x ∈ l, x ≠ 0 ∧ x.natAbs ≤ m.emap.length

/-- where an entry of a loop of the member goes: the edge `e` to the coarse edge, with the other sign if the edge is flipped -/
def Image (m : Member) (x y : ℤ) : Prop :=
  ∃ (e c : ℕ) (f : Bool), m.emap[e]? = some c ∧ m.flips[e]? = some f ∧ (x = (e : ℤ) + 1 ∧ y = (if f then -1 else 1) * ((c : ℤ) + 1) ∨ x = -((e : ℤ) + 1) ∧ y = (if f then 1 else -1) * ((c : ℤ) + 1))

theorem mapEntry_iff (m : Member) (x y : ℤ) (hx : x ≠ 0) : mapEntry m x = some y ↔ Image m x y := by
  unfold mapEntry
  dsimp only
  rcases lt_or_gt_of_ne hx with h | h
  · have h' : ¬ 0 < x := by omega
    rw [if_neg h', if_neg (by omega)]
    constructor
    · intro hy
      cases hc : m.emap[(-1 * x - 1).toNat]? with
      | none => rw [hc] at hy; cases hy
      | some c =>
        cases hf : m.flips[(-1 * x - 1).toNat]? with
        | none => rw [hc, hf] at hy; cases hy
        | some f =>
          rw [hc, hf] at hy
          refine ⟨_, c, f, hc, hf, Or.inr ⟨by omega, ?_⟩⟩
          have := Option.some.inj hy
          rw [← this]
          cases f <;> rfl
    · rintro ⟨e, c, f, hc, hf, ⟨rfl, rfl⟩ | ⟨rfl, rfl⟩⟩
      · omega
      · have : (-1 * -((e : ℤ) + 1) - 1).toNat = e := by omega
        rw [this, hc, hf]
        cases f <;> rfl
  · rw [if_pos h, if_neg (by omega)]
    constructor
    · intro hy
      cases hc : m.emap[(1 * x - 1).toNat]? with
      | none => rw [hc] at hy; cases hy
      | some c =>
        cases hf : m.flips[(1 * x - 1).toNat]? with
        | none => rw [hc, hf] at hy; cases hy
        | some f =>
          rw [hc, hf] at hy
          refine ⟨_, c, f, hc, hf, Or.inl ⟨by omega, ?_⟩⟩
          have := Option.some.inj hy
          rw [← this]
    · rintro ⟨e, c, f, hc, hf, ⟨rfl, rfl⟩ | ⟨rfl, rfl⟩⟩
      · have : (1 * ((e : ℤ) + 1) - 1).toNat = e := by omega
        rw [this, hc, hf]
        cases f <;> rfl
      · omega

theorem mapEntry_ok {m : Member} (hm : MemberOK m) {l : List ℤ} (hl : l ∈ m.loops) {x : ℤ} (hx : x ∈ l) : ∃ y, mapEntry m x = some y := by
  obtain ⟨h0, h1⟩ := hm.entry l hl x hx
  have he : x.natAbs - 1 < m.emap.length := by omega
  have hf : x.natAbs - 1 < m.flips.length := by rw [hm.flips]; exact he
  rcases lt_or_gt_of_ne h0 with h | h
  · exact ⟨_, (mapEntry_iff m x _ h0).mpr ⟨x.natAbs - 1, m.emap[x.natAbs - 1], m.flips[x.natAbs - 1], List.getElem?_eq_getElem he, List.getElem?_eq_getElem hf,
      Or.inr ⟨by omega, rfl⟩⟩⟩
  · exact ⟨_, (mapEntry_iff m x _ h0).mpr ⟨x.natAbs - 1, m.emap[x.natAbs - 1], m.flips[x.natAbs - 1], List.getElem?_eq_getElem he, List.getElem?_eq_getElem hf,
      Or.inl ⟨by omega, rfl⟩⟩⟩

/-- **C113**: the global numbers of the loops of the contracted mesh are those of all members, each once, ascending -/
theorem allGnums_correct (ms : List Member) :
    ∃ all, allGnums ms = some all ∧ all.Pairwise (· < ·) ∧ ∀ g, g ∈ all ↔ ∃ m ∈ ms, g ∈ m.gnums := by
  have key : ∀ (xs a : List ℕ), xs.foldlM (fun (a : List ℕ) g => (SortedArray.insertNodups g a).map Prod.snd) a = SortedArray.insertAll xs a := by
    intro xs
    induction xs with
    | nil => intro a; rfl
    | cons x xs ih =>
      intro a
      rw [List.foldlM_cons]
      unfold SortedArray.insertAll
      cases SortedArray.insertNodups x a with
      | none => rfl
      | some r => exact ih r.2
  obtain ⟨all, h1, h2, h3⟩ := SortedArray.insertAll_correct (ms.flatMap Member.gnums)
  refine ⟨all, by unfold allGnums; rw [key, h1], h2, fun g => ?_⟩
  rw [h3, List.mem_flatMap]

/-- **C113**: the loop of every member goes to the one with its global number -/
theorem loopMap_correct {all : List ℕ} (hs : all.Pairwise (· < ·)) (m : Member) (hm : ∀ g ∈ m.gnums, g ∈ all) :
    ∃ lm, loopMap all m = some lm ∧ lm.length = m.gnums.length ∧ ∀ (j g c : ℕ), m.gnums[j]? = some g → lm[j]? = some c → all[c]? = some g := by
  have hf : ∀ g ∈ m.gnums, ∃ i, (match SortedArray.find g all with | some (.pos i) => some i | _ => none) = some i ∧ all[i]? = some g := by
    intro g hg
    obtain ⟨r, h1, h2, -⟩ := SortedArray.find_correct g all hs
    obtain ⟨i, rfl, hi⟩ := h2 (hm g hg)
    exact ⟨i, by rw [h1], hi⟩
  obtain ⟨lm, h1, h2, -, h4⟩ := mapM_ok (fun g hg => (hf g hg).imp fun i hi => hi.1)
  refine ⟨lm, h1, h2, fun j g c hj hc => ?_⟩
  obtain ⟨i, e1, e2⟩ := hf g (List.mem_of_getElem? hj)
  have := h4 j g c hj hc
  rw [this] at e1
  rw [Option.some.inj e1]
  exact e2

theorem mem_zipIdx' {β : Type} {l : List β} {x : β} {i : ℕ} : (x, i) ∈ l.zipIdx ↔ l[i]? = some x := by
  rw [List.mem_zipIdx_iff_getElem?]

/-- the additions of all lists of a member; `g` gives the new entries of a list -/
theorem adds_spec {β γ : Type} {all : List ℕ} (hs : all.Pairwise (· < ·)) {m : Member} (hm : ∀ g ∈ m.gnums, g ∈ all) (ls : List β) (hl : ls.length = m.gnums.length)
    (f : β → Option (List γ)) (hf : ∀ l ∈ ls, ∃ xs, f l = some xs) :
    ∃ adds, ((loopMap all m).bind fun lm => (lm.zipIdx.mapM fun e => (ls[e.2]?).bind fun l => (f l).map fun xs => xs.map fun x => (e.1, x)).map List.flatten) = some adds ∧
      ∀ c x, (c, x) ∈ adds ↔ ∃ (j g : ℕ) (l : β) (xs : List γ), m.gnums[j]? = some g ∧ all[c]? = some g ∧ ls[j]? = some l ∧ f l = some xs ∧ x ∈ xs := by
  obtain ⟨lm, h1, h2, h3⟩ := loopMap_correct hs m hm
  obtain ⟨r, r1, -, r3, -⟩ := mapM_ok (l := lm.zipIdx) (f := fun e : ℕ × ℕ => (ls[e.2]?).bind fun l => (f l).map fun xs => xs.map fun x => (e.1, x)) (by
    rintro ⟨c, j⟩ he
    have hj : j < lm.length := (List.getElem?_eq_some_iff.mp (mem_zipIdx'.mp he)).1
    have hj' : j < ls.length := by omega
    obtain ⟨xs, hxs⟩ := hf ls[j] (List.getElem_mem _)
    exact ⟨_, by dsimp only; rw [List.getElem?_eq_getElem hj', Option.bind_some, hxs]; rfl⟩)
  refine ⟨r.flatten, by rw [h1, Option.bind_some, r1]; rfl, fun c x => ?_⟩
  have hnd : ∀ {a b g : ℕ}, all[a]? = some g → all[b]? = some g → a = b := by
    intro a b g ha hb
    obtain ⟨p1, p2⟩ := List.getElem?_eq_some_iff.mp ha
    obtain ⟨p3, p4⟩ := List.getElem?_eq_some_iff.mp hb
    exact (List.Nodup.getElem_inj_iff (hs.imp fun h => h.ne)).mp (p2.trans p4.symm)
  rw [List.mem_flatten]
  constructor
  · rintro ⟨y, hy, hx⟩
    obtain ⟨⟨c', j⟩, he, e⟩ := (r3 y).mp hy
    have hc := mem_zipIdx'.mp he
    have hj : j < lm.length := (List.getElem?_eq_some_iff.mp hc).1
    have hj' : j < ls.length := by omega
    have hg : j < m.gnums.length := by omega
    obtain ⟨xs, hxs⟩ := hf ls[j] (List.getElem_mem _)
    dsimp only at e
    rw [List.getElem?_eq_getElem hj', Option.bind_some, hxs, Option.map_some] at e
    rw [← Option.some.inj e, List.mem_map] at hx
    obtain ⟨x', hx', e'⟩ := hx
    obtain ⟨rfl, rfl⟩ := Prod.mk.inj e'
    exact ⟨j, _, _, xs, List.getElem?_eq_getElem hg, h3 j _ c' (List.getElem?_eq_getElem hg) hc, List.getElem?_eq_getElem hj', hxs, hx'⟩
  · rintro ⟨j, g, l, xs, hg, hc, hl', hxs, hx⟩
    have hj : j < lm.length := by rw [h2]; exact (List.getElem?_eq_some_iff.mp hg).1
    have hc' := List.getElem?_eq_getElem hj
    have : lm[j] = c := hnd (h3 j g _ hg hc') hc
    rw [this] at hc'
    refine ⟨xs.map fun x => (c, x), (r3 _).mpr ⟨(c, j), mem_zipIdx'.mpr hc', ?_⟩, List.mem_map.mpr ⟨x, hx, rfl⟩⟩
    dsimp only
    rw [hl', Option.bind_some, hxs]
    rfl

theorem ctrTable_spec {α : Type} [LinearOrder α] {n : ℕ} {adds : List (ℕ × α)} (h : ∀ e ∈ adds, e.1 < n) :
    ∃ t, ctrTable n adds = some t ∧ t.length = n ∧ ∀ (c : ℕ) (row : List α), t[c]? = some row → row.Pairwise (· < ·) ∧ ∀ x, x ∈ row ↔ (c, x) ∈ adds := by
  obtain ⟨t, h1, h2, -, h4⟩ := mapM_ok (l := List.range n) (f := fun r => removeDups false ((adds.filter fun e => e.1 = r).map Prod.snd)) (fun r _ => by
    obtain ⟨q, hq, -⟩ := removeDups_correct false ((adds.filter fun e => e.1 = r).map Prod.snd) (by simp)
    exact ⟨q, hq⟩)
  refine ⟨t, ?_, by rw [h2, List.length_range], ?_⟩
  · unfold ctrTable
    rw [if_pos (by simpa using fun a b hab => h (a, b) hab), h1]
  · intro c row hc
    have hcn : c < n := by
      have := (List.getElem?_eq_some_iff.mp hc).1
      rwa [h2, List.length_range] at this
    have := h4 c c row (List.getElem?_range hcn) hc
    obtain ⟨q, hq, q1, q2⟩ := removeDups_correct false ((adds.filter fun e => e.1 = c).map Prod.snd) (by simp)
    rw [hq] at this
    obtain rfl := Option.some.inj this
    refine ⟨q1, fun x => ?_⟩
    rw [q2, List.mem_map]
    constructor
    · rintro ⟨⟨a, b⟩, hab, rfl⟩
      rw [List.mem_filter, decide_eq_true_eq] at hab
      obtain ⟨hab, rfl⟩ := hab
      exact hab
    · intro hx
      exact ⟨(c, x), List.mem_filter.mpr ⟨hx, by simp⟩, rfl⟩

/-- **C113**: there is one loop for every global number; it has exactly the images of the entries that some member has in the loop of this number, each once;
its distant processes are exactly the images of those of the members, without the process itself, each once -/
theorem contract_correct {procMap : List ℕ} {rank : ℕ} {ms : List Member} (hm : ∀ m ∈ ms, MemberOK m)
    (hp : ∀ m ∈ ms, ∀ l ∈ m.dps, ∀ p ∈ l, p < procMap.length) :
    ∃ all cl cd, contract procMap rank ms = some (all, cl, cd) ∧ all.Pairwise (· < ·) ∧ (∀ g, g ∈ all ↔ ∃ m ∈ ms, g ∈ m.gnums) ∧
      cl.length = all.length ∧ cd.length = all.length ∧
      (∀ (c g : ℕ) (row : List ℤ), all[c]? = some g → cl[c]? = some row → row.Pairwise (· < ·) ∧
        ∀ y, y ∈ row ↔ ∃ m ∈ ms, ∃ (j : ℕ) (l : List ℤ), m.gnums[j]? = some g ∧ m.loops[j]? = some l ∧ ∃ x ∈ l, Image m x y) ∧
      ∀ (c g : ℕ) (row : List ℕ), all[c]? = some g → cd[c]? = some row → row.Pairwise (· < ·) ∧
        ∀ q, q ∈ row ↔ q ≠ rank ∧ ∃ m ∈ ms, ∃ (j : ℕ) (l : List ℕ), m.gnums[j]? = some g ∧ m.dps[j]? = some l ∧ ∃ p ∈ l, procMap[p]? = some q := by
  obtain ⟨all, a1, a2, a3⟩ := allGnums_correct ms
  have hsub : ∀ m ∈ ms, ∀ g ∈ m.gnums, g ∈ all := fun m hm g hg => (a3 g).mpr ⟨m, hm, hg⟩
  have L : ∀ m ∈ ms, ∃ adds, loopAdds all m = some adds ∧
      ∀ c x, (c, x) ∈ adds ↔ ∃ (j g : ℕ) (l : List ℤ) (xs : List ℤ), m.gnums[j]? = some g ∧ all[c]? = some g ∧ m.loops[j]? = some l ∧ l.mapM (mapEntry m) = some xs ∧ x ∈ xs :=
    fun m hmm => adds_spec a2 (hsub m hmm) m.loops (hm m hmm).loops (fun l => l.mapM (mapEntry m)) fun l hl => by
      obtain ⟨r, hr, -⟩ := mapM_ok (l := l) fun x hx => mapEntry_ok (hm m hmm) hl hx
      exact ⟨r, hr⟩
  have P : ∀ m ∈ ms, ∀ l ∈ m.dps, ∃ ps, l.mapM (fun p => procMap[p]?) = some ps ∧ ∀ q, q ∈ ps ↔ ∃ p ∈ l, procMap[p]? = some q := fun m hmm l hl => by
    obtain ⟨r, hr, -, h3, -⟩ := mapM_ok (l := l) (f := fun p => procMap[p]?) fun p hpl => ⟨_, List.getElem?_eq_getElem (hp m hmm l hl p hpl)⟩
    exact ⟨r, hr, h3⟩
  have Dd : ∀ m ∈ ms, ∃ adds, dpAdds procMap rank all m = some adds ∧
      ∀ c x, (c, x) ∈ adds ↔ ∃ (j g : ℕ) (l : List ℕ) (xs : List ℕ), m.gnums[j]? = some g ∧ all[c]? = some g ∧ m.dps[j]? = some l ∧
        ((l.mapM fun p => procMap[p]?).map fun ps => ps.filter fun p => p ≠ rank) = some xs ∧ x ∈ xs := by
    intro m hmm
    obtain ⟨adds, h1, h2⟩ := adds_spec a2 (hsub m hmm) m.dps (hm m hmm).dps (fun l => (l.mapM fun p => procMap[p]?).map fun ps => ps.filter fun p => p ≠ rank) fun l hl => by
      obtain ⟨r, hr, -⟩ := P m hmm l hl
      exact ⟨_, by rw [hr]; rfl⟩
    refine ⟨adds, ?_, h2⟩
    rw [← h1]
    unfold dpAdds
    simp only [Option.map_map, Function.comp_def]
  obtain ⟨la, l1, -, l3, -⟩ := mapM_ok (l := ms) (f := loopAdds all) fun m hmm => (L m hmm).imp fun _ h => h.1
  obtain ⟨da, d1, -, d3, -⟩ := mapM_ok (l := ms) (f := dpAdds procMap rank all) fun m hmm => (Dd m hmm).imp fun _ h => h.1
  have lmem : ∀ c y, (c, y) ∈ la.flatten ↔ ∃ m ∈ ms, ∃ (j g : ℕ) (l : List ℤ) (xs : List ℤ), m.gnums[j]? = some g ∧ all[c]? = some g ∧ m.loops[j]? = some l ∧ l.mapM (mapEntry m) = some xs ∧ y ∈ xs := by
    intro c y
    rw [List.mem_flatten]
    constructor
    · rintro ⟨t, ht, hy⟩
      obtain ⟨m, hmm, e⟩ := (l3 t).mp ht
      obtain ⟨adds, e1, e2⟩ := L m hmm
      rw [e] at e1
      obtain rfl := Option.some.inj e1
      exact ⟨m, hmm, (e2 c y).mp hy⟩
    · rintro ⟨m, hmm, h⟩
      obtain ⟨adds, e1, e2⟩ := L m hmm
      exact ⟨adds, (l3 adds).mpr ⟨m, hmm, e1⟩, (e2 c y).mpr h⟩
  have dmem : ∀ c y, (c, y) ∈ da.flatten ↔ ∃ m ∈ ms, ∃ (j g : ℕ) (l : List ℕ) (xs : List ℕ), m.gnums[j]? = some g ∧ all[c]? = some g ∧ m.dps[j]? = some l ∧
        ((l.mapM fun p => procMap[p]?).map fun ps => ps.filter fun p => p ≠ rank) = some xs ∧ y ∈ xs := by
    intro c y
    rw [List.mem_flatten]
    constructor
    · rintro ⟨t, ht, hy⟩
      obtain ⟨m, hmm, e⟩ := (d3 t).mp ht
      obtain ⟨adds, e1, e2⟩ := Dd m hmm
      rw [e] at e1
      obtain rfl := Option.some.inj e1
      exact ⟨m, hmm, (e2 c y).mp hy⟩
    · rintro ⟨m, hmm, h⟩
      obtain ⟨adds, e1, e2⟩ := Dd m hmm
      exact ⟨adds, (d3 adds).mpr ⟨m, hmm, e1⟩, (e2 c y).mpr h⟩
  obtain ⟨cl, c1, c2, c3⟩ := ctrTable_spec (n := all.length) (adds := la.flatten) (by
    rintro ⟨c, y⟩ he
    obtain ⟨m, hmm, j, g, l, xs, -, hc, -⟩ := (lmem c y).mp he
    exact (List.getElem?_eq_some_iff.mp hc).1)
  obtain ⟨cd, e1, e2, e3⟩ := ctrTable_spec (n := all.length) (adds := da.flatten) (by
    rintro ⟨c, y⟩ he
    obtain ⟨m, hmm, j, g, l, xs, -, hc, -⟩ := (dmem c y).mp he
    exact (List.getElem?_eq_some_iff.mp hc).1)
  refine ⟨all, cl, cd, ?_, a2, a3, c2, e2, ?_, ?_⟩
  · unfold contract
    rw [a1, Option.bind_some, l1, Option.bind_some, d1, Option.bind_some, c1, Option.bind_some, e1]
    rfl
  · intro c g row hg hr
    obtain ⟨r1, r2⟩ := c3 c row hr
    refine ⟨r1, fun y => ?_⟩
    rw [r2, lmem]
    constructor
    · rintro ⟨m, hmm, j, g', l, xs, h1, h2, h3, h4, h5⟩
      rw [hg] at h2
      obtain rfl := Option.some.inj h2
      have hl := List.mem_of_getElem? h3
      obtain ⟨r, q1, -, q3, -⟩ := mapM_ok (l := l) fun x hx => mapEntry_ok (hm m hmm) hl hx
      rw [h4] at q1
      obtain rfl := Option.some.inj q1
      obtain ⟨x, hx, e⟩ := (q3 y).mp h5
      exact ⟨m, hmm, j, l, h1, h3, x, hx, (mapEntry_iff m x y ((hm m hmm).entry l hl x hx).1).mp e⟩
    · rintro ⟨m, hmm, j, l, h1, h3, x, hx, hi⟩
      have hl := List.mem_of_getElem? h3
      obtain ⟨r, q1, -, q3, -⟩ := mapM_ok (l := l) fun x hx => mapEntry_ok (hm m hmm) hl hx
      exact ⟨m, hmm, j, g, l, r, h1, hg, h3, q1, (q3 y).mpr ⟨x, hx, (mapEntry_iff m x y ((hm m hmm).entry l hl x hx).1).mpr hi⟩⟩
  · intro c g row hg hr
    obtain ⟨r1, r2⟩ := e3 c row hr
    refine ⟨r1, fun q => ?_⟩
    rw [r2, dmem]
    constructor
    · rintro ⟨m, hmm, j, g', l, xs, h1, h2, h3, h4, h5⟩
      rw [hg] at h2
      obtain rfl := Option.some.inj h2
      obtain ⟨ps, q1, q2⟩ := P m hmm l (List.mem_of_getElem? h3)
      rw [q1, Option.map_some] at h4
      rw [← Option.some.inj h4, List.mem_filter, decide_eq_true_eq] at h5
      exact ⟨h5.2, m, hmm, j, l, h1, h3, (q2 q).mp h5.1⟩
    · rintro ⟨hq, m, hmm, j, l, h1, h3, hx⟩
      obtain ⟨ps, q1, q2⟩ := P m hmm l (List.mem_of_getElem? h3)
      exact ⟨m, hmm, j, g, l, _, h1, hg, h3, by rw [q1]; rfl, List.mem_filter.mpr ⟨(q2 q).mpr hx, by simpa using hq⟩⟩

/-- **C113**: when the flips are right, that is, all images of entries of a loop with the same coarse edge have the same sign, every edge is in the loop at most once -/
theorem contract_once {ms : List Member} {procMap : List ℕ} {rank : ℕ} {all : List ℕ} {cl : List (List ℤ)} {cd : List (List ℕ)} (hm : ∀ m ∈ ms, MemberOK m)
    (hp : ∀ m ∈ ms, ∀ l ∈ m.dps, ∀ p ∈ l, p < procMap.length) (hc : contract procMap rank ms = some (all, cl, cd))
    (hflip : ∀ m ∈ ms, ∀ m' ∈ ms, ∀ (j j' g : ℕ) (l l' : List ℤ), m.gnums[j]? = some g → m'.gnums[j']? = some g → m.loops[j]? = some l → m'.loops[j']? = some l' →
      ∀ x ∈ l, ∀ x' ∈ l', ∀ y y', Image m x y → Image m' x' y' → y ≠ -y') :
    ∀ row ∈ cl, (row.map Int.natAbs).Nodup := by
  obtain ⟨all', cl', cd', h1, -, -, h4, -, h6, -⟩ := contract_correct hm hp (rank := rank)
  rw [hc] at h1
  obtain ⟨rfl, h⟩ := Prod.mk.inj (Option.some.inj h1)
  obtain ⟨rfl, rfl⟩ := Prod.mk.inj h
  intro row hrow
  obtain ⟨c, hcr⟩ := List.getElem?_of_mem hrow
  have hlt : c < all.length := by rw [← h4]; exact (List.getElem?_eq_some_iff.mp hcr).1
  obtain ⟨r1, r2⟩ := h6 c _ row (List.getElem?_eq_getElem hlt) hcr
  refine List.Nodup.map_on ?_ (r1.imp fun h => h.ne)
  intro y hy y' hy' he
  obtain ⟨m, hmm, j, l, a1, a2, x, hx, hi⟩ := (r2 y).mp hy
  obtain ⟨m', hmm', j', l', b1, b2, x', hx', hi'⟩ := (r2 y').mp hy'
  have := hflip m hmm m' hmm' j j' _ l l' a1 b1 a2 b2 x hx x' hx' y y' hi hi'
  omega

/-! ### ghost vertices -/

/-- **C113**: a vertex of the contracted mesh is a ghost exactly if no member has it as a vertex that is no ghost -/
theorem ghosts_correct {nv : ℕ} {ms : List Member} (hl : ∀ m ∈ ms, m.ghost.length ≤ m.vmap.length) (hv : ∀ m ∈ ms, ∀ v ∈ m.vmap, v < nv) :
    ∃ b, ghosts nv ms = some b ∧ b.length = nv ∧ ∀ v < nv, (b[v]? = some true ↔ ∀ m ∈ ms, ∀ j : ℕ, m.vmap[j]? = some v → m.ghost[j]? ≠ some false) := by
  have one : ∀ (m : Member) (hvm : ∀ v ∈ m.vmap, v < nv) (es : List (Bool × ℕ)) (_ : ∀ e ∈ es, e.2 < m.vmap.length) (b : List Bool) (_ : b.length = nv),
      ∃ b', es.foldlM (fun (b : List Bool) e => if e.1 then some b else (m.vmap[e.2]?).bind fun v => if v < b.length then some (b.set v true) else none) b = some b' ∧ b'.length = nv ∧
        ∀ v < nv, (b'[v]? = some true ↔ b[v]? = some true ∨ ∃ e ∈ es, e.1 = false ∧ m.vmap[e.2]? = some v) := by
    intro m hvm es
    induction es with
    | nil => exact fun _ b hb => ⟨b, rfl, hb, by simp⟩
    | cons e es ih =>
      intro he b hb
      have he2 := he e (by simp)
      have hw : m.vmap[e.2] < nv := hvm _ (List.getElem_mem _)
      rcases hg : e.1 with _ | _
      · obtain ⟨b', h1, h2, h3⟩ := ih (fun e h => he e (by simp [h])) (b.set m.vmap[e.2] true) (by simpa using hb)
        refine ⟨b', ?_, h2, ?_⟩
        · rw [List.foldlM_cons, hg, if_neg (by simp), List.getElem?_eq_getElem he2, Option.bind_some, if_pos (by omega)]
          exact h1
        · intro v hvn
          rw [h3 v hvn]
          constructor
          · rintro (h | ⟨e', h, h'⟩)
            · by_cases hv' : m.vmap[e.2] = v
              · exact Or.inr ⟨e, by simp, hg, by rw [List.getElem?_eq_getElem he2, hv']⟩
              · rw [List.getElem?_set_ne hv'] at h
                exact Or.inl h
            · exact Or.inr ⟨e', by simp [h], h'⟩
          · rintro (h | ⟨e', h, h', h''⟩)
            · left
              by_cases hv' : m.vmap[e.2] = v
              · rw [hv', List.getElem?_set_self (by omega)]
              · rwa [List.getElem?_set_ne hv']
            · rcases List.mem_cons.mp h with rfl | h
              · left
                rw [List.getElem?_eq_getElem he2] at h''
                rw [Option.some.inj h'', List.getElem?_set_self (by omega)]
              · exact Or.inr ⟨e', h, h', h''⟩
      · obtain ⟨b', h1, h2, h3⟩ := ih (fun e h => he e (by simp [h])) b hb
        refine ⟨b', ?_, h2, ?_⟩
        · rw [List.foldlM_cons, hg, if_pos rfl]
          exact h1
        · intro v hvn
          rw [h3 v hvn]
          constructor
          · rintro (h | ⟨e', h, h'⟩)
            · exact Or.inl h
            · exact Or.inr ⟨e', by simp [h], h'⟩
          · rintro (h | ⟨e', h, h', h''⟩)
            · exact Or.inl h
            · rcases List.mem_cons.mp h with rfl | h
              · rw [hg] at h'
                cases h'
              · exact Or.inr ⟨e', h, h', h''⟩
  have many : ∀ (ms : List Member), (∀ m ∈ ms, m.ghost.length ≤ m.vmap.length) → (∀ m ∈ ms, ∀ v ∈ m.vmap, v < nv) → ∀ (b : List Bool), b.length = nv →
      ∃ b', ms.foldlM nonGhosts b = some b' ∧ b'.length = nv ∧
        ∀ v < nv, (b'[v]? = some true ↔ b[v]? = some true ∨ ∃ m ∈ ms, ∃ j : ℕ, m.vmap[j]? = some v ∧ m.ghost[j]? = some false) := by
    intro ms
    induction ms with
    | nil => exact fun _ _ b hb => ⟨b, rfl, hb, by simp⟩
    | cons m ms ih =>
      intro hl hv b hb
      obtain ⟨b1, g1, g2, g3⟩ := one m (hv m (by simp)) m.ghost.zipIdx (by
        rintro ⟨x, i⟩ he
        have := (List.getElem?_eq_some_iff.mp (mem_zipIdx'.mp he)).1
        exact lt_of_lt_of_le this (hl m (by simp))) b hb
      obtain ⟨b2, k1, k2, k3⟩ := ih (fun m h => hl m (by simp [h])) (fun m h => hv m (by simp [h])) b1 g2
      refine ⟨b2, ?_, k2, ?_⟩
      · rw [List.foldlM_cons]
        have : nonGhosts b m = some b1 := g1
        rw [this]
        exact k1
      · intro v hvn
        rw [k3 v hvn, g3 v hvn]
        constructor
        · rintro ((h | ⟨⟨x, i⟩, h1, h2, h3⟩) | ⟨m', h, j, h1, h2⟩)
          · exact Or.inl h
          · dsimp only at h2 h3
            subst h2
            exact Or.inr ⟨m, by simp, i, h3, mem_zipIdx'.mp h1⟩
          · exact Or.inr ⟨m', by simp [h], j, h1, h2⟩
        · rintro (h | ⟨m', h, j, h1, h2⟩)
          · exact Or.inl (Or.inl h)
          · rcases List.mem_cons.mp h with rfl | h
            · exact Or.inl (Or.inr ⟨(false, j), mem_zipIdx'.mpr h2, rfl, h1⟩)
            · exact Or.inr ⟨m', h, j, h1, h2⟩
  obtain ⟨b, h1, h2, h3⟩ := many ms hl hv (List.replicate nv false) (by simp)
  refine ⟨b.map not, by unfold ghosts; rw [h1]; rfl, by simpa using h2, fun v hvn => ?_⟩
  have h3v := h3 v hvn
  have hlt : v < b.length := by omega
  rw [List.getElem?_eq_getElem hlt] at h3v
  rw [List.getElem?_map, List.getElem?_eq_getElem hlt, Option.map_some]
  constructor
  · intro h m hm j hj hg
    have : some b[v] = some true := h3v.mpr (Or.inr ⟨m, hm, j, hj, hg⟩)
    rw [Option.some.inj this] at h
    cases h
  · intro h
    cases hb : b[v]
    · rfl
    · rw [hb] at h3v
      rcases h3v.mp rfl with h' | ⟨m, hm, j, h1, h2⟩
      · simp [hvn] at h'
      · exact absurd h2 (h m hm j h1)

/-- **C113**: a member without an array of ghost vertices sends none (908-914), which counts as if all of its vertices were ghosts: with no such array at all, every
vertex of the contracted mesh is a ghost -/
theorem null_all_ghosts (nv : ℕ) (ms : List Member) (h : ∀ m ∈ ms, m.ghost = []) : ghosts nv ms = some (List.replicate nv true) := by
  have : ∀ b, ms.foldlM nonGhosts b = some b := by
    induction ms with
    | nil => exact fun b => rfl
    | cons m ms ih =>
      intro b
      rw [List.foldlM_cons]
      unfold nonGhosts
      rw [h m (by simp)]
      exact ih (fun m hm => h m (by simp [hm])) b
  unfold ghosts
  rw [this]
  simp

/-- two members that share the loop 7; the second one has its edge 0 flipped -/
def exMs : List Member :=
  [⟨[3, 7], [[1, -2], [2, 3]], [[], [1]], [false, true], [0, 1, 2], [false, false, false], [0, 1]⟩,
   ⟨[7, 9], [[-1, 2], [2]], [[0], []], [true, false], [2, 3], [true, false], [1, 2]⟩]

example : (∀ m ∈ exMs, MemberOK m) ∧ ∀ m ∈ exMs, ∀ l ∈ m.dps, ∀ p ∈ l, p < [0, 0].length := by
  refine ⟨fun m hm => ?_, by decide⟩
  simp only [exMs, List.mem_cons, List.not_mem_nil, or_false] at hm
  rcases hm with rfl | rfl <;> exact ⟨by decide, by decide, by decide, by decide⟩

/-- no edge is flipped: the condition of `contract_once` holds -/
example : let ms : List Member := [⟨[7], [[1, 2]], [[]], [], [0, 1], [false, false], []⟩]
    ∀ m ∈ ms, ∀ m' ∈ ms, ∀ (j j' g : ℕ) (l l' : List ℤ), m.gnums[j]? = some g → m'.gnums[j']? = some g → m.loops[j]? = some l → m'.loops[j']? = some l' →
      ∀ x ∈ l, ∀ x' ∈ l', ∀ y y', Image m x y → Image m' x' y' → y ≠ -y' := by
  have pos : ∀ x y : ℤ, 0 < x → Image ⟨[7], [[1, 2]], [[]], [], [0, 1], [false, false], []⟩ x y → 0 < y := by
    rintro x y hx ⟨e, c, f, -, hf, ⟨rfl, rfl⟩ | ⟨rfl, -⟩⟩
    · have : f = false := by simpa using List.mem_of_getElem? hf
      subst this
      simp only [Bool.false_eq_true, if_false]
      omega
    · omega
  have mem : ∀ (j : ℕ) (l : List ℤ), ([[1, 2]] : List (List ℤ))[j]? = some l → ∀ x ∈ l, 0 < x := by
    intro j l hj x hx
    have : l = [1, 2] := by simpa using List.mem_of_getElem? hj
    subst this
    simp at hx
    omega
  intro ms m hm m' hm' j j' g l l' _ _ h1 h2 x hx x' hx' y y' i1 i2
  rw [List.mem_singleton] at hm hm'
  subst hm hm'
  have := pos x y (mem j l h1 x hx) i1
  have := pos x' y' (mem j' l' h2 x' hx') i2
  omega

example : ∀ m ∈ exMs, m.ghost.length ≤ m.vmap.length ∧ ∀ v ∈ m.vmap, v < 3 := by decide

example : ghosts 3 exMs = some [false, true, false] := by decide +kernel

end NgsAMG.LCtr
