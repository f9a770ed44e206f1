import Verif.Props.P2Emb2

/-!
# C112: the P2 embedding of the algebraic ordering
-/

namespace NgsAMG.P2E
open NgsAMG.DofM NgsAMG.Spec

variable {B : Type} [Zero B]

/-- the matrix belongs to the maps: a degree of freedom of a vertex is taken from this vertex, the middle of an edge from the two vertices at its ends, where
`half a b` is the contribution of the vertex `a`; fixed degrees of freedom contribute zero -/
structure EmbOK (one : B) (half : ℕ → ℕ → B) (free : Option (List Bool)) (trips : List Trip) (m : Maps) (rows : List (List (ℕ × B))) : Prop where
  vert : ∀ d v, m.d2v[d]? = some (some v) → rows[d]? = some [(v, if Fr free d then one else 0)]
  mid : ∀ t ∈ trips, ∀ a b, m.d2v[t.vI]? = some (some a) → m.d2v[t.vJ]? = some (some b) →
    ∃ r, rows[t.vMid]? = some r ∧ r.Perm [(a, if Fr free t.vI then half a b else 0), (b, if Fr free t.vJ then half b a else 0)]

/-- admissible middles: every degree of freedom is the middle of at most one edge, and the ends are the middle of no edge -/
structure TripsOK (inSS : ℕ) (trips : List Trip) : Prop where
  lt : ∀ t ∈ trips, t.vMid < inSS
  nodup : (trips.map Trip.vMid).Nodup
  ends : ∀ t ∈ trips, t.vI ∈ properDofs inSS trips ∧ t.vJ ∈ properDofs inSS trips

theorem slot_one {nv k v c : ℕ} (hk : k < nv) (h : slot nv [1] k = some (v, c)) : v = k ∧ c = 0 := by
  rw [slot_single (by omega), Nat.div_one, Nat.mod_one] at h
  obtain ⟨rfl, rfl⟩ := Prod.mk.inj (Option.some.inj h)
  exact ⟨rfl, rfl⟩

theorem mrow_perm {half : ℕ → ℕ → B} {free : Option (List Bool)} {vd : ℕ → ℕ} (a b : ℕ) :
    (mRow half free vd a b).Perm [(a, if Fr free (vd a) then half a b else 0), (b, if Fr free (vd b) then half b a else 0)] := by
  unfold mRow
  rcases le_total a b with h | h
  · rw [min_eq_left h, max_eq_right h]
  · rw [min_eq_right h, max_eq_left h]
    exact List.Perm.swap _ _ _

/-- the whole path: the maps have the new numbers, but the rows of the middles have the columns `a`, `b` of the numbers before `vert_sort` -/
theorem p2Embedding_result (one : B) (half : ℕ → ℕ → B) {free : Option (List Bool)} {inSS : ℕ} {trips : List Trip} {sort : List ℕ}
    (hf : ∀ f, free = some f → f.length = inSS) (ht : TripsOK inSS trips) (hs : sort.Perm (List.range (properDofs inSS trips).length)) :
    ∃ m rows vd, p2Embedding one half free inSS trips sort = some (m, rows) ∧ rows.length = inSS ∧
      Numbering inSS (properDofs inSS trips).length [1] (properDofs inSS trips) (fun v => sort.getD v 0) m.d2v m.v2d ∧
      (∀ k d : ℕ, (properDofs inSS trips)[k]? = some d → vd (sort.getD k 0) = d ∧ rows[d]? = some [(sort.getD k 0, if Fr free d then one else 0)]) ∧
      ∀ t ∈ trips, ∀ a b : ℕ, (properDofs inSS trips)[a]? = some t.vI → (properDofs inSS trips)[b]? = some t.vJ →
        rows[t.vMid]? = some (mRow half free vd a b) := by
  obtain ⟨m0, h1, h2⟩ := algMaps_correct ht.lt
  obtain ⟨m0', ps, q1, q2, q3, q4⟩ := algParents_correct ht.lt ht.ends
  rw [h1] at q1
  obtain ⟨rfl, -⟩ := Prod.mk.inj (Option.some.inj q1)
  have hmem : ∀ d, d ∈ properDofs inSS trips ↔ d < inSS ∧ ∀ t ∈ trips, t.vMid ≠ d := fun d => mem_properDofs
  have hsorted := properDofs_sorted inSS trips
  set D := properDofs inSS trips with hDef
  have hnd : D.Nodup := hsorted.imp fun h => h.ne
  have hlt : ∀ d ∈ D, d < inSS := fun d hd => ((hmem d).mp hd).1
  obtain ⟨dof, hdof⟩ := dofs_exist (nv := D.length) (bs := [1]) (by simp) hsorted
  obtain ⟨m, r1, r2⟩ := updateArr_correct hdof hlt h2 hs
  have hidx : ∀ {a b d : ℕ}, D[a]? = some d → D[b]? = some d → a = b := by
    intro a b d ha hb
    obtain ⟨p1, p2⟩ := List.getElem?_eq_some_iff.mp ha
    obtain ⟨p3, p4⟩ := List.getElem?_eq_some_iff.mp hb
    exact (List.Nodup.getElem_inj_iff hnd).mp (p2.trans p4.symm)
  -- the degree of freedom of a new number
  let vd : ℕ → ℕ := fun n => ((m.v2d[n]?).join).getD 0
  have on' : ∀ {k d : ℕ}, D[k]? = some d → m.d2v[d]? = some (some (sort.getD k 0)) ∧ m.v2d[sort.getD k 0]? = some (some d) := by
    intro k d hk
    have hkl : k < D.length := (List.getElem?_eq_some_iff.mp hk).1
    have := r2.on k d (k / 1) (k % 1) hk (slot_single (by omega))
    simpa only [Nat.div_one, Nat.mod_one, List.sum_cons, List.sum_nil, Nat.add_zero, Nat.mul_one] using this
  have hvd : ∀ {k d : ℕ}, D[k]? = some d → vd (sort.getD k 0) = d := by
    intro k d hk
    show ((m.v2d[sort.getD k 0]?).join).getD 0 = d
    rw [(on' hk).2]
    rfl
  have hsl : sort.length = D.length := by rw [hs.length_eq, List.length_range]
  have surj : ∀ v < D.length, ∃ k d, D[k]? = some d ∧ sort.getD k 0 = v := by
    intro v hv
    have : v ∈ sort := hs.mem_iff.mpr (List.mem_range.mpr hv)
    obtain ⟨k, hk, he⟩ := List.mem_iff_getElem.mp this
    refine ⟨k, D[k], List.getElem?_eq_getElem (by omega), ?_⟩
    simp [List.getD_eq_getElem?_getD, hk, he]
  have hsize : m.v2d.length = D.length := by rw [r2.size]; simp
  have hL : Layout inSS D.length m ps vd := by
    refine ⟨?_, ?_, ?_, ?_, ?_, ?_, ?_⟩
    · refine List.ext_getElem? fun v => ?_
      by_cases hv : v < D.length
      · obtain ⟨k, d, hk, rfl⟩ := surj v hv
        rw [List.getElem?_map, List.getElem?_range hv, (on' hk).2, Option.map_some, hvd hk]
      · rw [List.getElem?_eq_none (by omega), List.getElem?_eq_none (by simpa using hv)]
    · intro v hv
      obtain ⟨k, d, hk, rfl⟩ := surj v hv
      rw [hvd hk]
      exact hlt d (List.mem_of_getElem? hk)
    · intro v hv w hw he
      obtain ⟨k, d, hk, rfl⟩ := surj v hv
      obtain ⟨l, e, hl, rfl⟩ := surj w hw
      rw [hvd hk, hvd hl] at he
      subst he
      rw [hidx hk hl]
    · intro p hp
      obtain ⟨k, hk⟩ := List.getElem?_of_mem hp
      have hkt : k < trips.length := by rw [← q3]; exact (List.getElem?_eq_some_iff.mp hk).1
      rw [(q4 k trips[k] p (List.getElem?_eq_getElem hkt) hk).1]
      exact ht.lt _ (List.getElem_mem _)
    · have : ps.map Parent.dof = trips.map Trip.vMid := by
        refine List.ext_getElem? fun k => ?_
        rw [List.getElem?_map, List.getElem?_map]
        by_cases hk : k < trips.length
        · rw [List.getElem?_eq_getElem hk, List.getElem?_eq_getElem (by omega : k < ps.length), Option.map_some, Option.map_some,
            (q4 k trips[k] (ps[k]'(by omega)) (List.getElem?_eq_getElem hk) (List.getElem?_eq_getElem _)).1]
        · rw [List.getElem?_eq_none (by omega), List.getElem?_eq_none (by omega)]
          rfl
      rw [this]
      exact ht.nodup
    · intro p hp v hv he
      obtain ⟨k, hk⟩ := List.getElem?_of_mem hp
      have hkt : k < trips.length := by rw [← q3]; exact (List.getElem?_eq_some_iff.mp hk).1
      obtain ⟨l, d, hl, rfl⟩ := surj v hv
      rw [hvd hl, (q4 k trips[k] p (List.getElem?_eq_getElem hkt) hk).1] at he
      exact ((hmem d).mp (List.mem_of_getElem? hl)).2 _ (List.getElem_mem _) he.symm
    · intro p hp
      obtain ⟨k, hk⟩ := List.getElem?_of_mem hp
      have hkt : k < trips.length := by rw [← q3]; exact (List.getElem?_eq_some_iff.mp hk).1
      obtain ⟨-, ⟨a, a1, a2⟩, b, b1, b2⟩ := q4 k trips[k] p (List.getElem?_eq_getElem hkt) hk
      exact ⟨a, b, a1, b1, (List.getElem?_eq_some_iff.mp a2).1, (List.getElem?_eq_some_iff.mp b2).1⟩
  obtain ⟨rows, e1, e2, e3, e4, e5⟩ := buildED_rows hL one half hf
  refine ⟨m, rows, vd, ?_, e2, r2, ?_, ?_⟩
  · unfold p2Embedding renumber
    rw [h1, Option.bind_some, q2, Option.bind_some, r1, Option.map_some, Option.bind_some, e1]
    rfl
  · intro k d hk
    have hkl : k < sort.length := by rw [hsl]; exact (List.getElem?_eq_some_iff.mp hk).1
    have hv : sort.getD k 0 < D.length := by
      have : sort.getD k 0 ∈ sort := by
        rw [List.getD_eq_getElem?_getD, List.getElem?_eq_getElem hkl]
        exact List.getElem_mem _
      exact List.mem_range.mp (hs.mem_iff.mp this)
    refine ⟨hvd hk, ?_⟩
    have := e3 _ hv
    rw [hvd hk] at this
    rw [this]
    rfl
  · intro t htm a b ha hb
    obtain ⟨k, hk⟩ := List.getElem?_of_mem htm
    have hkp : k < ps.length := by rw [q3]; exact (List.getElem?_eq_some_iff.mp hk).1
    obtain ⟨z1, ⟨a', a1, a2⟩, b', b1, b2⟩ := q4 k t ps[k] hk (List.getElem?_eq_getElem hkp)
    rw [hidx ha a2, hidx hb b2, ← z1]
    exact e4 _ (List.getElem_mem _) a' b' a1 b1

/-- **C112**: when the mesh keeps the order of the vertices, the matrix of the P2 embedding belongs to the maps -/
theorem p2Embedding_partial (one : B) (half : ℕ → ℕ → B) {free : Option (List Bool)} {inSS : ℕ} {trips : List Trip}
    (hf : ∀ f, free = some f → f.length = inSS) (ht : TripsOK inSS trips) :
    ∃ m rows, p2Embedding one half free inSS trips (List.range (properDofs inSS trips).length) = some (m, rows) ∧ rows.length = inSS ∧
      Numbering inSS (properDofs inSS trips).length [1] (properDofs inSS trips) id m.d2v m.v2d ∧ EmbOK one half free trips m rows := by
  obtain ⟨m, rows, vd, h1, h2, h3, h4, h5⟩ := p2Embedding_result one half hf ht (List.Perm.refl _)
  have hends := ht.ends
  set D := properDofs inSS trips with hDef
  have hid : ∀ k < D.length, (List.range D.length).getD k 0 = k := fun k hk => by simp [List.getD_eq_getElem?_getD, hk]
  have on' : ∀ {k d : ℕ}, D[k]? = some d → m.d2v[d]? = some (some k) ∧ m.v2d[k]? = some (some d) := by
    intro k d hk
    have hkl : k < D.length := (List.getElem?_eq_some_iff.mp hk).1
    have := h3.on k d (k / 1) (k % 1) hk (slot_single (by omega))
    simpa only [Nat.div_one, Nat.mod_one, List.sum_cons, List.sum_nil, Nat.add_zero, Nat.mul_one, hid k hkl] using this
  have back : ∀ {d v : ℕ}, m.d2v[d]? = some (some v) → D[v]? = some d := by
    intro d v hdv
    by_cases hd : d ∈ D
    · obtain ⟨k, hk⟩ := List.getElem?_of_mem hd
      rw [(on' hk).1] at hdv
      obtain rfl := Option.some.inj (Option.some.inj hdv)
      exact hk
    · have hlt : d < inSS := by rw [← h3.len]; exact (List.getElem?_eq_some_iff.mp hdv).1
      rw [h3.off d hlt hd] at hdv
      exact absurd (Option.some.inj hdv) (by simp)
  refine ⟨m, rows, h1, h2, ⟨h3.len, h3.size, ?_, h3.off⟩, ?_, ?_⟩
  · intro k d v c hk hs
    obtain ⟨rfl, rfl⟩ := slot_one (List.getElem?_eq_some_iff.mp hk).1 hs
    simpa using on' hk
  · intro d v hdv
    have := (h4 v d (back hdv)).2
    rwa [hid v (List.getElem?_eq_some_iff.mp (back hdv)).1] at this
  · intro t htm a b ha hb
    have ha' := back ha
    have hb' := back hb
    have va := (h4 a _ ha').1
    have vb := (h4 b _ hb').1
    rw [hid a (List.getElem?_eq_some_iff.mp ha').1] at va
    rw [hid b (List.getElem?_eq_some_iff.mp hb').1] at vb
    refine ⟨_, h5 t htm a b ha' hb', ?_⟩
    have := mrow_perm (half := half) (free := free) (vd := vd) a b
    rwa [va, vb] at this

theorem trips_ok : TripsOK 5 [⟨0, 2, 1⟩, ⟨2, 4, 3⟩] := ⟨by decide, by decide, by decide +kernel⟩

example : TripsOK 5 [⟨0, 2, 1⟩, ⟨2, 4, 3⟩] := trips_ok

example : p2Embedding (10 : ℤ) (fun a b => 100 * a + b + 1) none 5 [⟨0, 2, 1⟩, ⟨2, 4, 3⟩] [0, 1, 2] =
    some (⟨[some 0, none, some 1, none, some 2], [some 0, some 2, some 4]⟩, [[(0, 10)], [(0, 2), (1, 101)], [(1, 10)], [(1, 103), (2, 202)], [(2, 10)]]) := by
  decide +kernel

/-- **C112**, in general the matrix does not belong to the maps: the parents of the middles keep the numbers of the vertices before `vert_sort` -/
theorem p2Embedding_refuted : ¬ ∀ (one : ℤ) (half : ℕ → ℕ → ℤ) (free : Option (List Bool)) (inSS : ℕ) (trips : List Trip) (sort : List ℕ),
    (∀ f, free = some f → f.length = inSS) → TripsOK inSS trips → sort.Perm (List.range (properDofs inSS trips).length) →
    ∃ m rows, p2Embedding one half free inSS trips sort = some (m, rows) ∧ EmbOK one half free trips m rows := by
  intro h
  obtain ⟨m, rows, h1, h2⟩ := h 10 (fun a b => 100 * a + b + 1) none 5 [⟨0, 2, 1⟩, ⟨2, 4, 3⟩] [2, 0, 1] (by simp) trips_ok (by decide +kernel)
  have e : p2Embedding (10 : ℤ) (fun a b => 100 * a + b + 1) none 5 [⟨0, 2, 1⟩, ⟨2, 4, 3⟩] [2, 0, 1] =
      some (⟨[some 2, none, some 0, none, some 1], [some 2, some 4, some 0]⟩, [[(2, 10)], [(0, 2), (1, 101)], [(0, 10)], [(1, 103), (2, 202)], [(1, 10)]]) := by
    decide +kernel
  rw [e] at h1
  obtain ⟨rfl, rfl⟩ := Prod.mk.inj (Option.some.inj h1)
  obtain ⟨r, r1, r2⟩ := h2.mid ⟨0, 2, 1⟩ (by simp) 2 0 rfl rfl
  obtain rfl := Option.some.inj r1.symm
  revert r2
  decide +kernel

end NgsAMG.P2E
