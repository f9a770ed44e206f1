import Verif.Props.LoopSort4
import Mathlib.Tactic.IntervalCases

/-!
# Sorting of loops 5: **C105**, loops of one process and of several processes
-/

namespace NgsAMG.LSort

theorem byEnds_tup (loop : List (GV × GV)) : ByEnds (Prod.fst : GV × GV → GV) Prod.snd flipTup orientTup loop :=
  ⟨fun _ _ _ _ _ => rfl, fun _ _ => rfl, fun _ _ => rfl⟩

theorem byEnds_code (edge : ℕ → ℕ × ℕ) (loop : List ℤ) (hpos : ∀ c ∈ loop, 0 < c) :
    ByEnds (codeSrc edge) (codeTgt edge) (fun c => -c) (orientCode edge) loop := by
  refine ⟨fun a ha fa b hb => ?_, fun a ha => ?_, fun a ha => ?_⟩
  · have h1 := hpos a ha
    have h2 := hpos b hb
    have h3 : ¬ a < 0 := by omega
    simp [orientCode, codeSrc, codeTgt, h1, h2, h3]
  · have h1 := hpos a ha
    simp only [codeSrc, codeTgt]
    rw [if_neg (by omega), if_pos h1, Int.natAbs_neg]
  · have h1 := hpos a ha
    simp only [codeSrc, codeTgt]
    rw [if_neg (by omega), if_pos h1, Int.natAbs_neg]

/-- the coded edges of the facets -/
theorem mapM_codes (f2e : ℕ → Option ℕ) (facets es : List ℕ) (h : facets.mapM f2e = some es) :
    (facets.mapM fun f => (f2e f).map fun e : ℕ => 1 + (e : ℤ)) = some (es.map fun e : ℕ => 1 + (e : ℤ)) := by
  induction facets generalizing es with
  | nil => simp at h; subst h; rfl
  | cons f l ih =>
    simp only [List.mapM_cons, Option.bind_eq_bind, Option.bind_eq_some_iff, Option.pure_def, Option.some.injEq] at h
    obtain ⟨e, h1, es', h2, rfl⟩ := h
    simp [List.mapM_cons, h1, ih es' h2]

theorem degree_codes (edge : ℕ → ℕ × ℕ) (es : List ℕ) (v : ℕ) :
    degree (codeSrc edge) (codeTgt edge) (es.map fun e : ℕ => 1 + (e : ℤ)) v = degree (fun e => (edge e).1) (fun e => (edge e).2) es v := by
  unfold degree
  rw [List.map_map]
  congr 1
  apply List.map_congr_left
  intro e _
  have h1 : (0 : ℤ) < 1 + e := by omega
  have h2 : (1 + (e : ℤ)).natAbs - 1 = e := by omega
  simp [codeSrc, codeTgt, h1, h2]

theorem connected_codes (edge : ℕ → ℕ × ℕ) (es : List ℕ) (h : Connected (fun e => (edge e).1) (fun e => (edge e).2) es) :
    Connected (codeSrc edge) (codeTgt edge) (es.map fun e : ℕ => 1 + (e : ℤ)) := by
  have hs : ∀ e : ℕ, codeSrc edge (1 + (e : ℤ)) = (edge e).1 ∧ codeTgt edge (1 + (e : ℤ)) = (edge e).2 := by
    intro e
    have h1 : (0 : ℤ) < 1 + e := by omega
    have h2 : (1 + (e : ℤ)).natAbs - 1 = e := by omega
    simp [codeSrc, codeTgt, h1, h2]
  intro A hA
  simp only [List.mem_map, forall_exists_index, and_imp, forall_apply_eq_imp_iff₂, (hs _).1, (hs _).2] at hA ⊢
  exact h A hA

/-- the edges of turned codes are the same edges in another order -/
theorem turned_codes (es : List ℕ) (out : List ℤ) (h : Turned (fun c : ℤ => -c) (es.map fun e : ℕ => 1 + (e : ℤ)) out) :
    (out.map fun c => c.natAbs - 1).Perm es ∧ ∀ c ∈ out, c ≠ 0 := by
  obtain ⟨l', h1, h2⟩ := h
  have key : ∀ (es : List ℕ) (l' : List ℤ), List.Forall₂ (fun x y => y = x ∨ y = -x) (es.map fun e : ℕ => 1 + (e : ℤ)) l' →
      (l'.map fun c => c.natAbs - 1) = es ∧ ∀ c ∈ l', c ≠ 0 := by
    intro es
    induction es with
    | nil => intro l' h; cases h; simp
    | cons e es ih =>
      intro l' h
      cases h with
      | @cons _ y _ l' hxy h =>
        obtain ⟨i1, i2⟩ := ih l' h
        have hxy : y = 1 + (e : ℤ) ∨ y = -(1 + (e : ℤ)) := hxy
        refine ⟨?_, ?_⟩
        · rw [List.map_cons, i1]; congr 1; omega
        · intro c hc
          rcases List.mem_cons.1 hc with rfl | hc
          · omega
          · exact i2 c hc
  obtain ⟨k1, k2⟩ := key es l' h1
  exact ⟨k1 ▸ h2.map _, fun c hc => k2 c (h2.subset hc)⟩

/-- **C105 (loop of one process).** Facets whose edges are a simple closed loop: no exception, every edge once, as one closed walk of coded edges. -/
theorem localLoop_closed (f2e : ℕ → Option ℕ) (edge : ℕ → ℕ × ℕ) (facets es : List ℕ) (hf : facets.mapM f2e = some es) (hne : es ≠ [])
    (hC : Cycle (fun e => (edge e).1) (fun e => (edge e).2) es) :
    ∃ codes a, localLoop f2e edge facets = some codes ∧ (codes.map fun c => c.natAbs - 1).Perm es ∧ (∀ c ∈ codes, c ≠ 0) ∧
      Walk (codeSrc edge) (codeTgt edge) a codes a := by
  have hE := byEnds_code edge (es.map fun e : ℕ => 1 + (e : ℤ)) (by
    intro c hc
    simp only [List.mem_map] at hc
    obtain ⟨e, -, rfl⟩ := hc
    omega)
  obtain ⟨out, a, h1, h2, h3⟩ := cycle_sorted hE (by simpa using hne)
    ⟨connected_codes edge es hC.conn, fun v => by rw [degree_codes]; exact hC.deg v⟩
  obtain ⟨k1, k2⟩ := turned_codes es out h2
  refine ⟨out, a, ?_, k1, k2, h3⟩
  rw [localLoop, mapM_codes f2e facets es hf, Option.bind_some, h1]
  rfl

/-- **C105 (loop of one process, whenever there is no exception).** If every vertex has an even number of the edges, the result is one closed walk. -/
theorem localLoop_even (f2e : ℕ → Option ℕ) (edge : ℕ → ℕ × ℕ) (facets es : List ℕ) (hf : facets.mapM f2e = some es) (hne : es ≠ [])
    (he : ∀ v, Even (degree (fun e => (edge e).1) (fun e => (edge e).2) es v)) {codes : List ℤ} (h : localLoop f2e edge facets = some codes) :
    (codes.map fun c => c.natAbs - 1).Perm es ∧ ∃ a, Walk (codeSrc edge) (codeTgt edge) a codes a := by
  have hE := byEnds_code edge (es.map fun e : ℕ => 1 + (e : ℤ)) (by
    intro c hc
    simp only [List.mem_map] at hc
    obtain ⟨e, -, rfl⟩ := hc
    omega)
  obtain ⟨out, nch, cs, h1, h2, h3, h4, h5⟩ := sort_chunked hE
  rw [localLoop, mapM_codes f2e facets es hf, Option.bind_some, h1, Option.bind_some] at h
  by_cases hn : 1 < nch
  · rw [if_pos hn] at h; cases h
  · rw [if_neg hn, Option.some.injEq] at h
    subst h
    have hk := turned_codes es out h5
    have : nch = 1 := by
      by_contra hn1
      have : cs.length = 0 := by omega
      obtain rfl := List.length_eq_zero_iff.1 this
      subst h3
      have := hk.1.length_eq
      simp [flat] at this
      exact hne (by simpa using this.symm)
    subst this
    exact ⟨hk.1, closed_walk hE h1 fun v => by rw [degree_codes]; exact he v⟩

/-- **C105 (loop of several processes).** The parts of the processes are together a simple closed loop: no exception, the result has every edge once and
is one closed walk. -/
theorem reduceLoops_closed (parts : List (List (GV × GV))) (hne : parts.flatten ≠ []) (hC : Cycle Prod.fst Prod.snd parts.flatten) :
    ∃ out a, reduceLoops parts = some out ∧ Turned Prod.swap parts.flatten out ∧ Walk Prod.fst Prod.snd a out a := by
  obtain ⟨out, a, h1, h2, h3⟩ := cycle_sorted (byEnds_tup parts.flatten) hne hC
  refine ⟨out, a, ?_, h2, h3⟩
  rw [reduceLoops, if_neg hne, h1]
  rfl

/-- what a process knows about the vertices and edges of the loop: the numbers of different vertices are different; an edge that is not between ghosts has
a number and goes from its smaller to its larger vertex -/
structure Knows (vert : GV → Option ℕ) (ghost : ℕ → Bool) (econ : ℕ → ℕ → ℕ) (edge : ℕ → ℕ × ℕ) (loop : List (GV × GV)) : Prop where
  inj : ∀ g g' v, vert g = some v → vert g' = some v → g = g'
  ends : ∀ t ∈ loop, ∀ v0 v1, vert t.1 = some v0 → vert t.2 = some v1 → ¬ (ghost v0 ∧ ghost v1) →
    v0 ≠ v1 ∧ edge (econ v0 v1) = (min v0 v1, max v0 v1)

theorem encode_ends {edge : ℕ → ℕ × ℕ} {v0 v1 e : ℕ} (hne : v0 ≠ v1) (he : edge e = (min v0 v1, max v0 v1)) :
    codeSrc edge (loopEncode v0 v1 e) = v0 ∧ codeTgt edge (loopEncode v0 v1 e) = v1 := by
  unfold loopEncode codeSrc codeTgt
  by_cases h : v0 < v1
  · rw [if_pos h, if_pos (by omega), if_pos (by omega)]
    have : ((e : ℤ) + 1).natAbs - 1 = e := by omega
    rw [this, he]; simp; omega
  · rw [if_neg h, if_neg (by omega), if_neg (by omega)]
    have : (-(e : ℤ) - 1).natAbs - 1 = e := by omega
    rw [this, he]; simp; omega

/-- **C105 (decoding).** At a vertex of a process that is not a ghost and whose neighbors in the loop are known, the loop of the process has the boundary of
the loop of all processes. -/
theorem decode_boundary (vert : GV → Option ℕ) (ghost : ℕ → Bool) (econ : ℕ → ℕ → ℕ) (edge : ℕ → ℕ × ℕ) (loop : List (GV × GV))
    (hK : Knows vert ghost econ edge loop) (g : GV) (v : ℕ) (hg : vert g = some v) (hng : ghost v = false)
    (hn : ∀ t ∈ loop, (t.1 = g → (vert t.2).isSome) ∧ (t.2 = g → (vert t.1).isSome)) :
    boundary (codeSrc edge) (codeTgt edge) (decodeLoop vert ghost econ loop) v = boundary Prod.fst Prod.snd loop g := by
  induction loop with
  | nil => rfl
  | cons t l ih =>
    have ih := ih ⟨hK.inj, fun t ht => hK.ends t (by simp [ht])⟩ (fun t ht => hn t (by simp [ht]))
    have hnt := hn t (by simp)
    rw [boundary_cons (src := Prod.fst) (tgt := Prod.snd), ← ih]
    unfold decodeLoop
    rw [List.filterMap_cons]
    -- an edge that does not touch g
    have hno : ∀ v', (vert t.1 = some v' → t.1 ≠ g → v' ≠ v) ∧ (vert t.2 = some v' → t.2 ≠ g → v' ≠ v) := by
      intro v'
      refine ⟨fun h1 h2 h3 => h2 (hK.inj _ _ v (h3 ▸ h1) hg), fun h1 h2 h3 => h2 (hK.inj _ _ v (h3 ▸ h1) hg)⟩
    cases h0 : vert t.1 with
    | none =>
      have n1 : t.1 ≠ g := fun h => by rw [h, hg] at h0; cases h0
      have n2 : t.2 ≠ g := fun h => by have := hnt.2 h; rw [h0] at this; cases this
      simp [n1, n2]
    | some v0 =>
      cases h1 : vert t.2 with
      | none =>
        have n2 : t.2 ≠ g := fun h => by rw [h, hg] at h1; cases h1
        have n1 : t.1 ≠ g := fun h => by have := hnt.1 h; rw [h1] at this; cases this
        simp [n1, n2]
      | some v1 =>
        simp only [Option.bind_some]
        by_cases hgg : ghost v0 = true ∧ ghost v1 = true
        · have n1 : t.1 ≠ g := by
            intro h; rw [h, hg] at h0; cases h0; rw [hng] at hgg; exact absurd hgg.1 (by decide)
          have n2 : t.2 ≠ g := by
            intro h; rw [h, hg] at h1; cases h1; rw [hng] at hgg; exact absurd hgg.2 (by decide)
          simp [hgg.1, hgg.2, n1, n2]
        · have hgb : ¬ ((ghost v0 && ghost v1) = true) := by rwa [Bool.and_eq_true]
          rw [if_neg hgb]
          simp only
          rw [boundary_cons]
          obtain ⟨e1, e2⟩ := hK.ends t (by simp) v0 v1 h0 h1 hgg
          obtain ⟨f1, f2⟩ := encode_ends e1 e2
          rw [f1, f2]
          have g0 : v0 = v ↔ t.1 = g := ⟨fun h => by_contra fun h' => (hno v0).1 h0 h' h, fun h => by rw [h, hg] at h0; cases h0; rfl⟩
          have g1 : v1 = v ↔ t.2 = g := ⟨fun h => by_contra fun h' => (hno v1).2 h1 h' h, fun h => by rw [h, hg] at h1; cases h1; rfl⟩
          simp only [g0, g1]

/-- **C105 (divergence).** On every process, the part of a simple closed loop of all processes enters every vertex that is not a ghost as often as it
leaves it. -/
theorem shared_divergence_free (parts : List (List (GV × GV))) (hne : parts.flatten ≠ []) (hC : Cycle Prod.fst Prod.snd parts.flatten) :
    ∃ out, reduceLoops parts = some out ∧ ∀ (vert : GV → Option ℕ) (ghost : ℕ → Bool) (econ : ℕ → ℕ → ℕ) (edge : ℕ → ℕ × ℕ),
      Knows vert ghost econ edge out → ∀ g v, vert g = some v → ghost v = false →
        (∀ t ∈ out, (t.1 = g → (vert t.2).isSome) ∧ (t.2 = g → (vert t.1).isSome)) →
          boundary (codeSrc edge) (codeTgt edge) (decodeLoop vert ghost econ out) v = 0 := by
  obtain ⟨out, a, h1, -, h3⟩ := reduceLoops_closed parts hne hC
  refine ⟨out, h1, fun vert ghost econ edge hK g v hg hng hn => ?_⟩
  rw [decode_boundary vert ghost econ edge out hK g v hg hng hn, h3.boundary_eq]
  simp

/-- **C105 (an eight).** A connected closed loop that passes one vertex twice: in one order of its edges it is found, in another the result is an exception. -/
theorem eight_exception :
    ∃ l l' : List (GV × GV), l.Perm l' ∧ (∃ a, Walk Prod.fst Prod.snd a l a) ∧ reduceLoops [l] = some l ∧ reduceLoops [l'] = none := by
  refine ⟨[((0, 1), (0, 2)), ((0, 2), (0, 0)), ((0, 0), (0, 3)), ((0, 3), (0, 4)), ((0, 4), (0, 0)), ((0, 0), (0, 1))],
    [((0, 1), (0, 2)), ((0, 2), (0, 0)), ((0, 0), (0, 1)), ((0, 0), (0, 3)), ((0, 3), (0, 4)), ((0, 4), (0, 0))], by decide,
    ⟨(0, 1), by simp [Walk]⟩, by decide +kernel, by decide +kernel⟩

/-- **C105 (open loop).** A loop that is not closed can be left in an order that is no walk. -/
theorem open_unsorted :
    ∃ l : List (GV × GV), (∃ l', l.Perm l' ∧ Walk Prod.fst Prod.snd (0, 1) l' (0, 4)) ∧ reduceLoops [l] = some l ∧
      ∀ a b, ¬ Walk Prod.fst Prod.snd a l b := by
  refine ⟨[((0, 2), (0, 3)), ((0, 3), (0, 4)), ((0, 1), (0, 2))],
    ⟨[((0, 1), (0, 2)), ((0, 2), (0, 3)), ((0, 3), (0, 4))], by decide, by simp [Walk]⟩, by decide +kernel, ?_⟩
  intro a b h
  have := h.2.2.1
  revert this
  decide

end NgsAMG.LSort
