import Verif.Props.Curl3
import Verif.Props.Loops6
import Mathlib.Algebra.BigOperators.Intervals
import Mathlib.Algebra.BigOperators.Field

/-!
# The divergence of the curl of a loop is zero (C100)
-/

namespace NgsAMG.Curl
open NgsAMG.SparseMM NgsAMG.Spec NgsAMG.Loop
variable {K : Type} [Field K] {b : ℕ}

/-- the edge has a degree of freedom, and it is mine -/
def mineDof (e2d : List (Option ℕ)) (master : ℕ → Bool) (e : ℕ) : Bool := (e2d.getD e none).any master

theorem loopDofs_nodup (col : ℕ → Option ℕ) (hinj : ∀ e e' d, col e = some d → col e' = some d → e = e') (loop : List ℤ) (h : (loop.map enr).Nodup) :
    (loopDofs col loop).Nodup := by
  induction loop with
  | nil => exact List.nodup_nil
  | cons k t ih =>
    rw [List.map_cons, List.nodup_cons] at h
    cases hk : col (enr k) with
    | none =>
      have : loopDofs col (k :: t) = loopDofs col t := by simp [loopDofs, hk]
      rw [this]
      exact ih h.2
    | some d =>
      have : loopDofs col (k :: t) = d :: loopDofs col t := by simp [loopDofs, hk]
      rw [this, List.nodup_cons]
      refine ⟨fun hd => ?_, ih h.2⟩
      rw [loopDofs, List.mem_filterMap] at hd
      obtain ⟨x, hx, hx'⟩ := hd
      exact h.1 (List.mem_map.2 ⟨x, hx, hinj _ _ _ hx' hk⟩)

/-- **C100** (unit flow): the flow over an edge of a loop is one, in the direction of the loop -/
theorem unit_flow (flow : ℕ → Fin b → K) (k : ℤ) (hf : ∑ m, flow (enr k) m * flow (enr k) m ≠ 0) : ∑ m, flow (enr k) m * ncVal flow k 0 m = sgn k := by
  simp only [ncVal]
  rw [show (∑ m, flow (enr k) m * (sgn k * flow (enr k) m / ∑ m, flow (enr k) m * flow (enr k) m))
    = sgn k * (∑ m, flow (enr k) m * flow (enr k) m) / ∑ m, flow (enr k) m * flow (enr k) m from ?_]
  · rw [mul_div_assoc, div_self hf, mul_one]
  · rw [Finset.mul_sum, Finset.sum_div]
    apply Finset.sum_congr rfl
    intro m _
    ring

/-- the numbering of the edges with degrees of freedom, in the form in which it is used here -/
theorem e2d_facts {e2d : List (Option ℕ)} {d2e : List ℕ} (h3 : ∀ e d : ℕ, e2d[e]? = some (some d) ↔ d2e[d]? = some e) :
    (∀ e d, e2d.getD e none = some d ↔ d2e[d]? = some e) ∧ (∀ e d, e2d.getD e none = some d → d < d2e.length) ∧
    ∀ e e' d, e2d.getD e none = some d → e2d.getD e' none = some d → e = e' := by
  have h : ∀ e d, e2d.getD e none = some d ↔ d2e[d]? = some e := by
    intro e d
    rw [← h3, List.getD_eq_getElem?_getD]
    cases e2d[e]? with
    | none => simp
    | some x => simp
  refine ⟨h, fun e d hd => (List.getElem?_eq_some_iff.1 ((h e d).1 hd)).1, fun e e' d h1 h2 => ?_⟩
  have := ((h e d).1 h1).symm.trans ((h e' d).1 h2)
  exact Option.some.inj this

/-- **C100** (on one process): the divergence of the curl of a loop in a vertex is what the edges of the loop that are mine bring out of it -/
theorem div_curl_local (nv : ℕ) (edges : ℕ → ℕ × ℕ) (e2d : List (Option ℕ)) (d2e : List ℕ) (h3 : ∀ e d : ℕ, e2d[e]? = some (some d) ↔ d2e[d]? = some e)
    (hd : ∀ e ∈ d2e, (edges e).1 ≠ (edges e).2) (master : ℕ → Bool) (fac : ℕ → K) (flow : ℕ → Fin b → K) (junk : Mt 1 b K) (active : ℕ → Bool)
    (loops : List (List ℤ)) {k : ℕ} {loop : List ℤ} (hk : loops[k]? = some loop) (ha : active k = true) (hn : (loop.map enr).Nodup)
    (hf : ∀ x ∈ loop, ∑ m, flow (enr x) m * flow (enr x) m ≠ 0) (v : ℕ) (hv : v < nv) :
    (∑ d ∈ Finset.range d2e.length, (ncDiv nv edges d2e master fac flow).entry v d * ((ncCurlT junk e2d d2e.length flow active loops).entry k d).transpose) 0 0
      = fac v * ((loop.filter fun x => mineDof e2d master (enr x)).map (outflow edges v)).sum := by
  obtain ⟨hcol, hlt, hinj⟩ := e2d_facts h3
  have hld := loopDofs_nodup (fun e => e2d.getD e none) hinj loop hn
  have e1 : ∀ d, (ncCurlT junk e2d d2e.length flow active loops).entry k d = loopVal (fun e => e2d.getD e none) (ncVal flow) loop d :=
    fun d => curlT_entry junk _ _ _ active loops hk ha hld d
  simp only [e1]
  rw [loop_sum d2e.length _ _ _ hlt loop hld]
  clear hn hld hk e1
  induction loop with
  | nil => simp
  | cons x t ih =>
    rw [List.map_cons, List.sum_cons, Matrix.add_apply, ih fun y hy => hf y (List.mem_cons_of_mem _ hy), List.filter_cons]
    cases hx : e2d.getD (enr x) none with
    | none =>
      have hmd : ¬ mineDof e2d master (enr x) = true := by rw [mineDof, hx]; simp
      rw [if_neg hmd]
      simp
    | some d =>
      simp only [Option.map_some, Option.getD_some]
      rw [((ncDiv_correct nv edges d2e master fac flow hd).2 v hv d (enr x) ((hcol _ _).1 hx))]
      by_cases hm : master d = true
      · have hmd : mineDof e2d master (enr x) = true := by rw [mineDof, hx]; simpa using hm
        rw [if_pos hmd, List.map_cons, List.sum_cons, mul_add]
        congr 1
        rw [Matrix.mul_apply]
        simp only [divEntry, hm, if_true, Matrix.transpose_apply]
        have := unit_flow flow x (hf x (by simp))
        rw [outflow, ← this, Finset.sum_mul, Finset.mul_sum]
        apply Finset.sum_congr rfl
        intro m _
        rw [inc]
        ring
      · have hmd : ¬ mineDof e2d master (enr x) = true := by rw [mineDof, hx]; simpa using hm
        rw [if_neg hmd, Matrix.mul_apply]
        simp [divEntry, hm]

/-- what a list of entries brings out of a vertex (in any numbering of the vertices): how often a step begins in it, less how often one ends in it -/
theorem outflow_count {F : Type} [DecidableEq F] (edges : ℕ → ℕ × ℕ) (glob : ℕ → F) (nv : ℕ) (L : List ℤ) (h0 : ∀ k ∈ L, k ≠ 0)
    (hr : ∀ k ∈ L, (edges (enr k)).1 < nv ∧ (edges (enr k)).2 < nv) (V : F) :
    ∑ v ∈ Finset.range nv, (if glob v = V then (L.map (outflow (K := K) edges v)).sum else 0)
      = ((((L.map (entryVerts edges)).map (Prod.map glob glob)).map Prod.fst).count V : K) - (((L.map (entryVerts edges)).map (Prod.map glob glob)).map Prod.snd).count V := by
  induction L with
  | nil => simp
  | cons k t ih =>
    have ih' := ih (fun x hx => h0 x (List.mem_cons_of_mem _ hx)) (fun x hx => hr x (List.mem_cons_of_mem _ hx))
    have hs : ∀ v, (if glob v = V then ((k :: t).map (outflow (K := K) edges v)).sum else 0)
        = (if glob v = V then outflow (K := K) edges v k else 0) + (if glob v = V then (t.map (outflow (K := K) edges v)).sum else 0) := by
      intro v
      split
      · rw [List.map_cons, List.sum_cons]
      · rw [add_zero]
    simp only [hs]
    rw [Finset.sum_add_distrib, ih']
    obtain ⟨hr1, hr2⟩ := hr k (by simp)
    have hk : ∑ v ∈ Finset.range nv, (if glob v = V then outflow (K := K) edges v k else 0)
        = sgn k * ((if glob (edges (enr k)).1 = V then 1 else 0) - (if glob (edges (enr k)).2 = V then 1 else 0)) := by
      have hd : ∀ i < nv, ∑ v ∈ Finset.range nv, (if glob v = V then (if i = v then (1 : K) else 0) else 0) = if glob i = V then 1 else 0 := by
        intro i hi
        rw [Finset.sum_eq_single i]
        · simp
        · intro v _ hv
          simp [Ne.symm hv]
        · intro h
          exact absurd (Finset.mem_range.2 hi) h
      rw [mul_sub, ← hd _ hr1, ← hd _ hr2, Finset.mul_sum, Finset.mul_sum, ← Finset.sum_sub_distrib]
      apply Finset.sum_congr rfl
      intro v _
      split
      · rw [outflow, mul_sub]
      · simp
    rw [hk]
    simp only [List.map_cons, List.count_cons]
    have hne := h0 k (by simp)
    by_cases hp : 0 < k
    · have e1 : entryVerts edges k = edges (enr k) := by rw [entryVerts, if_pos hp]; rfl
      have e2 : (sgn k : K) = 1 := by rw [sgn, if_neg (by omega)]
      rw [e1, e2]
      simp only [Prod.map_fst, Prod.map_snd, beq_iff_eq]
      push_cast
      ring
    · have e1 : entryVerts edges k = (edges (enr k)).swap := by rw [entryVerts, if_neg hp]; rfl
      have e2 : (sgn k : K) = -1 := by rw [sgn, if_pos (by omega)]
      rw [e1, e2]
      simp only [Prod.map_fst, Prod.map_snd, Prod.fst_swap, Prod.snd_swap, beq_iff_eq]
      push_cast
      ring

/-- what a process holds for the two operators: its vertices, edges with their flow, the numbering of those with degrees of freedom, and its loops -/
structure Part (b : ℕ) (K F : Type) where
  nv : ℕ
  edges : ℕ → ℕ × ℕ
  glob : ℕ → F
  e2d : List (Option ℕ)
  d2e : List ℕ
  master : ℕ → Bool
  flow : ℕ → Fin b → K
  junk : Mt 1 b K
  active : ℕ → Bool
  loops : List (List ℤ)

/-- the part is in order: edges join two different vertices of the process, degrees of freedom and edges belong to each other one to one, and the
loops go over edges of the process, over none twice, and only over such with nonzero flow -/
structure Part.OK {F : Type} (p : Part b K F) : Prop where
  dof : ∀ e d : ℕ, p.e2d[e]? = some (some d) ↔ p.d2e[d]? = some e
  diff : ∀ e < p.e2d.length, (p.edges e).1 ≠ (p.edges e).2
  verts : ∀ e < p.e2d.length, (p.edges e).1 < p.nv ∧ (p.edges e).2 < p.nv
  entries : ∀ l ∈ p.loops, ∀ k ∈ l, k ≠ 0 ∧ enr k < p.e2d.length
  once : ∀ l ∈ p.loops, (l.map enr).Nodup
  flow : ∀ l ∈ p.loops, ∀ k ∈ l, ∑ m, p.flow (enr k) m * p.flow (enr k) m ≠ 0

/-- the entry of the product of divergence and curl on a process -/
def Part.divCurl {F : Type} (p : Part b K F) (fac : F → K) (v k : ℕ) : K :=
  (∑ d ∈ Finset.range p.d2e.length, (ncDiv p.nv p.edges p.d2e p.master (fun v => fac (p.glob v)) p.flow).entry v d
    * ((ncCurlT p.junk p.e2d p.d2e.length p.flow p.active p.loops).entry k d).transpose) 0 0

/-- **C100**. Take any number of processes `ps`, a closed walk `w` of the whole mesh, and on each process the number `k p` of the (active) loop that is its part
of the walk. If every step of the walk is on exactly one process a degree of freedom it is the master of, then in every vertex `V` of the whole mesh,
whatever the volumes, the contributions of the processes to the divergence of the curl of the loop add up to zero. -/
theorem div_curl_zero {P F : Type} [LinearOrder F] (ps : List P) (part : P → Part b K F) (hok : ∀ p ∈ ps, (part p).OK) (fac : F → K) (w : List F)
    (hw : Closed w) (k : P → ℕ) (loop : P → List ℤ) (hk : ∀ p ∈ ps, (part p).loops[k p]? = some (loop p)) (ha : ∀ p ∈ ps, (part p).active (k p) = true)
    (h : (ps.flatMap fun p => (((loop p).filter fun x => mineDof (part p).e2d (part p).master (enr x)).map (entryVerts (part p).edges)).map
      (Prod.map (part p).glob (part p).glob)).Perm (steps w)) (V : F) :
    (ps.map fun p => ∑ v ∈ Finset.range (part p).nv, if (part p).glob v = V then (part p).divCurl fac v (k p) else 0).sum = 0 := by
  have hb := Balanced.perm h (closed_balanced hw.2)
  have key : (ps.map fun p => ∑ v ∈ Finset.range (part p).nv, if (part p).glob v = V then (part p).divCurl fac v (k p) else 0).sum
      = fac V * ((((ps.flatMap fun p => (((loop p).filter fun x => mineDof (part p).e2d (part p).master (enr x)).map (entryVerts (part p).edges)).map
      (Prod.map (part p).glob (part p).glob)).map Prod.fst).count V : K) - ((ps.flatMap fun p => (((loop p).filter fun x => mineDof (part p).e2d (part p).master (enr x)).map
        (entryVerts (part p).edges)).map (Prod.map (part p).glob (part p).glob)).map Prod.snd).count V) := by
    clear hb h
    induction ps with
    | nil => simp
    | cons p ps ih =>
      have ok := hok p (by simp)
      have hl : loop p ∈ (part p).loops := List.mem_of_getElem? (hk p (by simp))
      rw [List.map_cons, List.sum_cons, ih (fun q hq => hok q (List.mem_cons_of_mem _ hq)) (fun q hq => hk q (List.mem_cons_of_mem _ hq))
        (fun q hq => ha q (List.mem_cons_of_mem _ hq)), List.flatMap_cons, List.map_append, List.map_append, List.count_append, List.count_append]
      push_cast
      have hd : ∀ e ∈ (part p).d2e, ((part p).edges e).1 ≠ ((part p).edges e).2 := by
        intro e he
        obtain ⟨d, hd⟩ := List.getElem?_of_mem he
        exact ok.diff e (List.getElem?_eq_some_iff.1 ((ok.dof e d).2 hd)).1
      have e1 : ∑ v ∈ Finset.range (part p).nv, (if (part p).glob v = V then (part p).divCurl fac v (k p) else 0)
          = fac V * ∑ v ∈ Finset.range (part p).nv, (if (part p).glob v = V then (((loop p).filter fun x => mineDof (part p).e2d (part p).master (enr x)).map
              (outflow (K := K) (part p).edges v)).sum else 0) := by
        rw [Finset.mul_sum]
        apply Finset.sum_congr rfl
        intro v hv
        split
        · rename_i hg
          rw [Part.divCurl, div_curl_local (part p).nv (part p).edges (part p).e2d (part p).d2e ok.dof hd (part p).master _ (part p).flow (part p).junk
            (part p).active (part p).loops (hk p (by simp)) (ha p (by simp)) (ok.once _ hl) (ok.flow _ hl) v (Finset.mem_range.1 hv), hg]
        · simp
      rw [e1, outflow_count (part p).edges (part p).glob (part p).nv _ (fun x hx => (ok.entries _ hl x (List.mem_of_mem_filter hx)).1)
        (fun x hx => ok.verts _ (ok.entries _ hl x (List.mem_of_mem_filter hx)).2) V]
      ring
  rw [key, hb V, sub_self, mul_zero]

end NgsAMG.Curl
