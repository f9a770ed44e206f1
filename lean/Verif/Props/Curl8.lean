import Verif.Props.Curl7
import Mathlib.Algebra.Field.Rat

/-!
# The divergence of the curl of a loop is zero (C100): the H(div)-conforming discretization
-/

namespace NgsAMG.Curl
open NgsAMG.SparseMM NgsAMG.Spec NgsAMG.Loop
variable {K : Type} [Field K]

/-- **C100** (H(div), one process): the divergence of the curl of a loop in a vertex is what the edges of the loop with degrees of freedom bring out of it. The divergence here is the matrix that is
built; the edges may have any number of degrees of freedom, those of the loop that count have at least one, with nonzero flow. -/
theorem hdiv_curl_local (nv : ℕ) (edges : ℕ → ℕ × ℕ) (ns : List ℕ) (ord : List ℕ) (flow0 : ℕ → K) (hord : ord.Perm (List.range ns.length))
    (hd : ∀ e < ns.length, (edges e).1 ≠ (edges e).2) (dofed : ℕ → Bool) (hdof : ∀ e, dofed e = true → 0 < ns.getD e 0) (junk : Mt 1 1 K) (active : ℕ → Bool)
    (loops : List (List ℤ)) {k : ℕ} {loop : List ℤ} (hk : loops[k]? = some loop) (ha : active k = true) (hn : (loop.map enr).Nodup)
    (hf : ∀ x ∈ loop, dofed (enr x) = true → flow0 (enr x) ≠ 0) {D : CSR (Mt 1 1 K)} (hD : hDiv nv edges (offsets ns) ord flow0 = some D) (v : ℕ) (hv : v < nv) :
    (∑ d ∈ Finset.range D.width, D.entry v d * ((hCurlT junk (offsets ns) dofed flow0 active loops).entry k d).transpose) 0 0
      = ((loop.filter fun x => dofed (enr x)).map (outflow edges v)).sum := by
  obtain ⟨D', hD', -, -, hDw, hDe⟩ := hDiv_correct nv edges ns ord flow0 hord hd
  obtain rfl : D = D' := Option.some.inj (hD.symm.trans hD')
  have hcol : ∀ e d, (if dofed e then some (firstDof (offsets ns) e) else none) = some d ↔ dofed e = true ∧ firstDof (offsets ns) e = d := by
    intro e d
    by_cases h : dofed e = true
    · simp [h]
    · simp [h]
  have hlt : ∀ e d, (if dofed e then some (firstDof (offsets ns) e) else none) = some d → d < D.width := by
    intro e d h
    obtain ⟨h1, h2⟩ := (hcol e d).1 h
    have := (dofToEdge_correct ns e 0 (hdof e h1)).1
    rw [hDw]
    omega
  have hinj : ∀ e e' d, (if dofed e then some (firstDof (offsets ns) e) else none) = some d → (if dofed e' then some (firstDof (offsets ns) e') else none) = some d → e = e' := by
    intro e e' d h h'
    obtain ⟨h1, h2⟩ := (hcol e d).1 h
    obtain ⟨h1', h2'⟩ := (hcol e' d).1 h'
    have g1 := (dofToEdge_correct ns e 0 (hdof e h1)).2.2
    have g2 := (dofToEdge_correct ns e' 0 (hdof e' h1')).2.2
    rw [Nat.add_zero] at g1 g2
    rw [h2] at g1
    rw [h2', g1] at g2
    exact Option.some.inj g2
  have hld := loopDofs_nodup _ hinj loop hn
  have e1 : ∀ d, (hCurlT junk (offsets ns) dofed flow0 active loops).entry k d
      = loopVal (fun e => if dofed e then some (firstDof (offsets ns) e) else none) (hVal flow0) loop d :=
    fun d => curlT_entry junk _ _ _ active loops hk ha hld d
  simp only [e1]
  rw [loop_sum D.width _ _ _ hlt loop hld]
  clear hn hld hk e1
  induction loop with
  | nil => simp
  | cons x t ih =>
    rw [List.map_cons, List.sum_cons, Matrix.add_apply, ih fun y hy => hf y (List.mem_cons_of_mem _ hy), List.filter_cons]
    by_cases hx : dofed (enr x) = true
    · rw [if_pos hx, if_pos hx, List.map_cons, List.sum_cons]
      congr 1
      simp only [Option.map_some, Option.getD_some]
      have := hDe v hv (enr x) 0 (hdof _ hx)
      rw [Nat.add_zero] at this
      rw [this, Matrix.mul_apply, Fin.sum_univ_one]
      simp only [hEntry, Matrix.transpose_apply, hVal, if_true, inc, outflow]
      have := hf x (by simp) hx
      field_simp
    · rw [if_neg hx, if_neg hx]
      simp

/-- counting through a numbering that gives no other vertex the same number -/
theorem count_glob {F : Type} [DecidableEq F] (glob : ℕ → F) (v : ℕ) (l : List ℕ) (h : ∀ i ∈ l, glob i = glob v → i = v) : (l.map glob).count (glob v) = l.count v := by
  induction l with
  | nil => rfl
  | cons a t ih =>
    rw [List.map_cons, List.count_cons, List.count_cons, ih fun i hi => h i (List.mem_cons_of_mem _ hi)]
    congr 1
    by_cases ha : a = v
    · simp [ha]
    · have : ¬ glob a = glob v := fun e => ha (h a (by simp) e)
      simp [ha, this]

/-- **C100** (H(div)). Let a process have a part of a closed walk `w` of the whole mesh, and a vertex `v` such that it has all steps of the walk that begin or end in that vertex, over edges with
degrees of freedom. Then the divergence of the curl of the loop is zero in `v`. (With one process, this is every vertex.) -/
theorem hdiv_curl_zero {F : Type} [LinearOrder F] (nv : ℕ) (edges : ℕ → ℕ × ℕ) (ns : List ℕ) (ord : List ℕ) (flow0 : ℕ → K) (hord : ord.Perm (List.range ns.length))
    (hd : ∀ e < ns.length, (edges e).1 ≠ (edges e).2) (hr : ∀ e < ns.length, (edges e).1 < nv ∧ (edges e).2 < nv) (dofed : ℕ → Bool) (hdof : ∀ e, dofed e = true → 0 < ns.getD e 0)
    (junk : Mt 1 1 K) (active : ℕ → Bool) (loops : List (List ℤ)) {k : ℕ} {loop : List ℤ} (hk : loops[k]? = some loop) (ha : active k = true) (hn : (loop.map enr).Nodup)
    (h0 : ∀ x ∈ loop, x ≠ 0 ∧ enr x < ns.length) (hf : ∀ x ∈ loop, dofed (enr x) = true → flow0 (enr x) ≠ 0)
    (glob : ℕ → F) (w : List F) (hw : Closed w) (v : ℕ) (hv : v < nv) (hg : ∀ i < nv, glob i = glob v → i = v)
    (hall : ((((loop.filter fun x => dofed (enr x)).map (entryVerts edges)).map (Prod.map glob glob)).filter fun x => decide (x.1 = glob v ∨ x.2 = glob v)).Perm
      ((steps w).filter fun x => decide (x.1 = glob v ∨ x.2 = glob v))) :
    ∃ D, hDiv nv edges (offsets ns) ord flow0 = some D ∧
      ∑ d ∈ Finset.range D.width, D.entry v d * ((hCurlT junk (offsets ns) dofed flow0 active loops).entry k d).transpose = 0 := by
  obtain ⟨D, hD, -, -, -, -⟩ := hDiv_correct nv edges ns ord flow0 hord hd
  refine ⟨D, hD, Matrix.ext fun i j => ?_⟩
  have hi : i = 0 := Subsingleton.elim _ _
  have hj : j = 0 := Subsingleton.elim _ _
  subst hi hj
  rw [hdiv_curl_local nv edges ns ord flow0 hord hd dofed hdof junk active loops hk ha hn hf hD v hv]
  obtain ⟨L, hL⟩ : ∃ L, L = loop.filter fun x => dofed (enr x) := ⟨_, rfl⟩
  have hLm : ∀ x ∈ L, x ∈ loop := by
    intro x hx
    rw [hL] at hx
    exact List.mem_of_mem_filter hx
  rw [← hL] at hall ⊢
  have hoc := outflow_count (K := K) edges id nv L (fun x hx => (h0 x (hLm x hx)).1) (fun x hx => hr _ (h0 x (hLm x hx)).2) v
  rw [Finset.sum_eq_single v] at hoc
  rotate_left
  · intro v' _ hne
    exact if_neg hne
  · intro h
    exact absurd (Finset.mem_range.2 hv) h
  have hoc := (if_pos (rfl : v = v)).symm.trans hoc
  rw [show (Prod.map id id : ℕ × ℕ → ℕ × ℕ) = id from Prod.map_id, List.map_id] at hoc
  rw [hoc]
  refine sub_eq_zero.2 ?_
  congr 1
  have hrange : ∀ x ∈ L.map (entryVerts edges), x.1 < nv ∧ x.2 < nv := by
    intro x hx
    obtain ⟨y, hy, rfl⟩ := List.mem_map.1 hx
    have := hr _ (h0 y (hLm y hy)).2
    rw [entryVerts]
    split
    · exact this
    · exact ⟨this.2, this.1⟩
  have cnt : ∀ (S : List (F × F)) (f : F × F → F), (∀ x, f x = glob v → (x.1 = glob v ∨ x.2 = glob v)) →
      ((S.filter fun x => decide (x.1 = glob v ∨ x.2 = glob v)).map f).count (glob v) = (S.map f).count (glob v) := by
    intro S f hfx
    induction S with
    | nil => rfl
    | cons x t ih =>
      rw [List.filter_cons]
      by_cases hx : x.1 = glob v ∨ x.2 = glob v
      · rw [if_pos (by simpa using hx), List.map_cons, List.map_cons, List.count_cons, List.count_cons, ih]
      · rw [if_neg (by simpa using hx), List.map_cons, List.count_cons, ih, if_neg (by simpa using fun h => hx (hfx x h)), Nat.add_zero]
  have hb := closed_balanced hw.2 (glob v)
  rw [← cnt (steps w) Prod.fst (fun x h => Or.inl h), ← cnt (steps w) Prod.snd (fun x h => Or.inr h), ← (hall.map Prod.fst).count_eq, ← (hall.map Prod.snd).count_eq,
    cnt _ Prod.fst (fun x h => Or.inl h), cnt _ Prod.snd (fun x h => Or.inr h)] at hb
  have c1 := count_glob glob v ((L.map (entryVerts edges)).map Prod.fst) (fun i hi h => by
    obtain ⟨x, hx, rfl⟩ := List.mem_map.1 hi
    exact hg _ (hrange x hx).1 h)
  have c2 := count_glob glob v ((L.map (entryVerts edges)).map Prod.snd) (fun i hi h => by
    obtain ⟨x, hx, rfl⟩ := List.mem_map.1 hi
    exact hg _ (hrange x hx).2 h)
  rw [List.map_map] at c1 c2
  rw [← c1, ← c2]
  simp only [List.map_map] at hb ⊢
  exact hb

/-! ### an example: a triangle and an edge beside it; three, one, two and no degrees of freedom -/

example : ∃ D, hDiv 4 (fun e => [(0, 1), (0, 2), (1, 2), (1, 3)].getD e (0, 0)) (offsets [3, 1, 2, 0]) [2, 0, 3, 1] (fun e => (e : ℚ) + 1) = some D ∧
    ∑ d ∈ Finset.range D.width, D.entry 1 d * ((hCurlT !![99] (offsets [3, 1, 2, 0]) (fun e => decide (e < 3)) (fun e => (e : ℚ) + 1) (fun _ => true) [[3, -2, 1]]).entry 0 d).transpose = 0 :=
  hdiv_curl_zero 4 _ [3, 1, 2, 0] [2, 0, 3, 1] _ (by decide) (by decide) (by decide) (fun e => decide (e < 3))
    (by intro e he; have : e < 3 := by simpa using he
        have : e = 0 ∨ e = 1 ∨ e = 2 := by omega
        rcases this with rfl | rfl | rfl <;> decide) _ _ [[3, -2, 1]] (loop := [3, -2, 1]) rfl rfl (by decide) (by decide)
    (fun x _ _ => Nat.cast_add_one_ne_zero (enr x)) id [0, 1, 2, 0] ⟨by decide, by decide⟩ 1 (by decide) (fun i _ h => h) (by decide)

/-- the product of a row of the divergence with the row of a loop -/
def prodEntry (D C : CSR (Mt 1 1 K)) (v k : ℕ) : Mt 1 1 K := ∑ d ∈ Finset.range D.width, D.entry v d * (C.entry k d).transpose

/-- **C100** (H(div), several processes: the sum does not vanish). In contrast to the other discretization, the divergence is not restricted to the degrees of freedom the process is master of;
for the walk `0, 1, 2, 0` with edges `0–1`, `1–2` on one process and `0–1`, `0–2` on another one the contributions to vertex `0` are `1` and `0`, as the edge `0–1` is counted on both -/
theorem hdiv_shared : ∃ D D' : CSR (Mt 1 1 ℚ), hDiv 3 (fun e => [(0, 1), (1, 2)].getD e (0, 1)) (offsets [1, 1]) [0, 1] (fun _ => 1) = some D ∧
    hDiv 3 (fun e => [(0, 1), (0, 2)].getD e (0, 1)) (offsets [1, 1]) [0, 1] (fun _ => 1) = some D' ∧
    (([[1, 2]] : List (List ℤ)).flatten.map (entryVerts fun e => [(0, 1), (1, 2)].getD e (0, 1))) = [(0, 1), (1, 2)] ∧
    (([[1, -2]] : List (List ℤ)).flatten.map (entryVerts fun e => [(0, 1), (0, 2)].getD e (0, 1))) = [(0, 1), (2, 0)] ∧
    prodEntry D (hCurlT 0 (offsets [1, 1]) (fun e => decide (e < 2)) (fun _ => 1) (fun _ => true) [[1, 2]]) 0 0 0 0 = 1 ∧
    prodEntry D' (hCurlT 0 (offsets [1, 1]) (fun e => decide (e < 2)) (fun _ => 1) (fun _ => true) [[1, -2]]) 0 0 0 0 = 0 := by
  have hdof : ∀ e, decide (e < 2) = true → 0 < [1, 1].getD e 0 := by
    intro e he
    have : e < 2 := by simpa using he
    have : e = 0 ∨ e = 1 := by omega
    rcases this with rfl | rfl <;> decide
  obtain ⟨D, hD, -, -, -, -⟩ := hDiv_correct (K := ℚ) 3 (fun e => [(0, 1), (1, 2)].getD e (0, 1)) [1, 1] [0, 1] (fun _ => 1) (by decide) (by decide)
  obtain ⟨D', hD', -, -, -, -⟩ := hDiv_correct (K := ℚ) 3 (fun e => [(0, 1), (0, 2)].getD e (0, 1)) [1, 1] [0, 1] (fun _ => 1) (by decide) (by decide)
  refine ⟨D, D', hD, hD', by decide, by decide, ?_, ?_⟩
  · refine (hdiv_curl_local 3 _ [1, 1] [0, 1] _ (by decide) (by decide) _ hdof 0 (fun _ => true) [[1, 2]] (loop := [1, 2]) rfl rfl (by decide) (fun _ _ _ => one_ne_zero) hD 0 (by decide)).trans ?_
    simp [outflow, sgn, enr]
  · refine (hdiv_curl_local 3 _ [1, 1] [0, 1] _ (by decide) (by decide) _ hdof 0 (fun _ => true) [[1, -2]] (loop := [1, -2]) rfl rfl (by decide) (fun _ _ _ => one_ne_zero) hD' 0 (by decide)).trans ?_
    simp [outflow, sgn, enr]

end NgsAMG.Curl
