import Verif.Props.LoopSort5

/-!
# Sorting of loops 6: **C105**, concrete loops
-/

namespace NgsAMG.LSort

/-- three edges between the vertices 0, 1, 2 -/
def triEdge : ℕ → ℕ × ℕ
  | 0 => (0, 1)
  | 1 => (0, 2)
  | _ => (1, 2)

theorem triangle_cycle : Cycle (fun e => (triEdge e).1) (fun e => (triEdge e).2) [0, 1, 2] := by
  refine ⟨?_, ?_⟩
  · intro A hA
    have h0 := hA 0 (by simp)
    have h1 := hA 1 (by simp)
    simp only [triEdge] at h0 h1
    by_cases h : A 0
    · left
      intro t ht
      simp only [List.mem_cons, List.not_mem_nil, or_false] at ht
      rcases ht with rfl | rfl | rfl
      · exact h
      · exact h
      · exact h0.1 h
    · right
      intro t ht
      simp only [List.mem_cons, List.not_mem_nil, or_false] at ht
      rcases ht with rfl | rfl | rfl
      · exact h
      · exact h
      · exact fun k => h (h0.2 k)
  · intro v
    match v with
    | 0 => right; decide
    | 1 => right; decide
    | 2 => right; decide
    | v + 3 =>
        left
        refine degree_zero' fun t ht => ?_
        simp only [List.mem_cons, List.not_mem_nil, or_false] at ht
        rcases ht with rfl | rfl | rfl <;> simp [triEdge]

/-- a triangle of facets of one process: two edges are turned -/
example : localLoop (fun f => if f < 13 then some (f - 10) else none) triEdge [10, 11, 12] = some [1, 3, -2] := by decide +kernel

example : ∃ codes a, localLoop (fun f => if f < 13 then some (f - 10) else none) triEdge [10, 11, 12] = some codes ∧
    (codes.map fun c => c.natAbs - 1).Perm [0, 1, 2] ∧ (∀ c ∈ codes, c ≠ 0) ∧ Walk (codeSrc triEdge) (codeTgt triEdge) a codes a :=
  localLoop_closed _ triEdge [10, 11, 12] [0, 1, 2] (by decide) (by decide) triangle_cycle

example : ∃ a, Walk (codeSrc triEdge) (codeTgt triEdge) a [1, 3, -2] a :=
  (localLoop_even (fun f => if f < 13 then some (f - 10) else none) triEdge [10, 11, 12] [0, 1, 2] (by decide) (by decide)
    (fun v => by rcases triangle_cycle.deg v with h | h <;> rw [h] <;> decide) (by decide +kernel)).2

/-- the parts of two processes of a loop with four edges -/
def parts : List (List (GV × GV)) := [[((1, 0), (3, 0)), ((3, 0), (2, 0))], [((2, 0), (3, 1)), ((1, 0), (3, 1))]]

theorem parts_cycle : Cycle Prod.fst Prod.snd parts.flatten := by
  refine ⟨?_, ?_⟩
  · intro A hA
    have h0 := hA ((1, 0), (3, 0)) (by decide)
    have h1 := hA ((3, 0), (2, 0)) (by decide)
    simp only at h0 h1
    by_cases h : A (1, 0)
    · left
      intro t ht
      simp only [parts, List.flatten_cons, List.flatten_nil, List.cons_append, List.nil_append, List.mem_cons, List.not_mem_nil, or_false] at ht
      rcases ht with rfl | rfl | rfl | rfl
      · exact h
      · exact h0.1 h
      · exact h1.1 (h0.1 h)
      · exact h
    · right
      intro t ht
      simp only [parts, List.flatten_cons, List.flatten_nil, List.cons_append, List.nil_append, List.mem_cons, List.not_mem_nil, or_false] at ht
      rcases ht with rfl | rfl | rfl | rfl
      · exact h
      · exact fun k => h (h0.2 k)
      · exact fun k => h (h0.2 (h1.2 k))
      · exact h
  · intro v
    by_cases h : v ∈ [((1, 0) : GV), (3, 0), (2, 0), (3, 1)]
    · right
      simp only [List.mem_cons, List.not_mem_nil, or_false] at h
      rcases h with rfl | rfl | rfl | rfl <;> decide
    · left
      simp only [List.mem_cons, List.not_mem_nil, or_false, not_or] at h
      refine degree_zero' fun t ht => ?_
      simp only [parts, List.flatten_cons, List.flatten_nil, List.cons_append, List.nil_append, List.mem_cons, List.not_mem_nil, or_false] at ht
      rcases ht with rfl | rfl | rfl | rfl <;> simp <;> tauto

/-- the loop of all processes -/
def whole : List (GV × GV) := [((1, 0), (3, 0)), ((3, 0), (2, 0)), ((2, 0), (3, 1)), ((3, 1), (1, 0))]

theorem parts_whole : reduceLoops parts = some whole := by decide +kernel

/-- the numbers of the vertices of the first process, which has the classes 1 and 3 and a ghost for the vertex of class 2 -/
def vert0 : GV → Option ℕ := fun g => if g = (1, 0) then some 0 else if g = (3, 0) then some 1 else if g = (3, 1) then some 2 else
  if g = (2, 0) then some 3 else none

/-- the edges of the first process -/
def edge0 : ℕ → ℕ × ℕ
  | 0 => (0, 1)
  | 1 => (0, 2)
  | 2 => (1, 3)
  | _ => (2, 3)

theorem knows0 : Knows vert0 (fun v => v == 3) (fun v w => if min v w = 0 then max v w - 1 else min v w + 1) edge0 whole := by
  refine ⟨?_, ?_⟩
  · intro g g' v h h'
    unfold vert0 at h h'
    split_ifs at h h' <;> simp only [Option.some.injEq, reduceCtorEq] at h h' <;> first | omega | simp_all
  · intro t ht v0 v1 h0 h1 hg
    simp only [whole, List.mem_cons, List.not_mem_nil, or_false] at ht
    rcases ht with rfl | rfl | rfl | rfl <;> simp [vert0] at h0 h1 <;> subst h0 <;> subst h1 <;> decide

/-- the process finds its coded edges, its vertex 1 is entered and left once -/
example : decodeLoop vert0 (fun v => v == 3) (fun v w => if min v w = 0 then max v w - 1 else min v w + 1) whole = [1, 3, -4, -2] ∧
    boundary (codeSrc edge0) (codeTgt edge0) [1, 3, -4, -2] 1 = 0 := by decide

example : boundary (codeSrc edge0) (codeTgt edge0)
    (decodeLoop vert0 (fun v => v == 3) (fun v w => if min v w = 0 then max v w - 1 else min v w + 1) whole) 1 = 0 := by
  obtain ⟨out, h1, h2⟩ := shared_divergence_free parts (by decide) parts_cycle
  rw [parts_whole] at h1
  cases h1
  exact h2 _ _ _ _ knows0 (3, 0) 1 rfl rfl (by decide)

example : ∃ out a, reduceLoops parts = some out ∧ Turned Prod.swap parts.flatten out ∧ Walk Prod.fst Prod.snd a out a :=
  reduceLoops_closed parts (by decide) parts_cycle

example : ∃ out a, sortLoop flipTup orientTup parts.flatten = some (out, 1) ∧ Turned flipTup parts.flatten out ∧ Walk Prod.fst Prod.snd a out a :=
  cycle_sorted (byEnds_tup _) (by decide) parts_cycle

example : ∃ out nch, sortLoop flipTup orientTup parts.flatten = some (out, nch) ∧ Turned flipTup parts.flatten out :=
  sort_total (byEnds_tup _)

/-- the path of three edges: one chunk, with the boundary of a path -/
example : ∃ a b, ∀ v, boundary Prod.fst Prod.snd ([((0, 2), (0, 3)), ((0, 3), (0, 4)), ((0, 1), (0, 2))] : List (GV × GV)) v =
    (if b = v then 1 else 0) - (if a = v then 1 else 0) :=
  one_boundary (byEnds_tup [((0, 2), (0, 3)), ((0, 3), (0, 4)), ((0, 1), (0, 2))]) (by decide +kernel)

example : ∃ a, Walk Prod.fst Prod.snd a whole a :=
  closed_walk (byEnds_tup parts.flatten) (by decide +kernel) fun v => by rcases parts_cycle.deg v with h | h <;> rw [h] <;> decide

example : ∃ out, sortLoop flipTup orientTup parts.flatten = some (out, 1) :=
  connected_one (byEnds_tup _) (by decide) parts_cycle.conn fun v => by rcases parts_cycle.deg v with h | h <;> omega

example : boundary (codeSrc edge0) (codeTgt edge0)
    (decodeLoop vert0 (fun v => v == 3) (fun v w => if min v w = 0 then max v w - 1 else min v w + 1) whole) 0 = boundary Prod.fst Prod.snd whole (1, 0) :=
  decode_boundary _ _ _ _ _ knows0 (1, 0) 0 rfl rfl (by decide)

end NgsAMG.LSort
