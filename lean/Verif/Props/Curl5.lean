import Verif.Props.Curl4
import Mathlib.Data.Rat.Defs
import Mathlib.Tactic.NormNum
import Mathlib.LinearAlgebra.Matrix.Notation

/-!
# The divergence of the curl of a loop is zero (C100): loops that occur, the product of the matrices, and what goes wrong
-/

namespace NgsAMG.Curl
open NgsAMG.SparseMM NgsAMG.Spec NgsAMG.Loop

/-! ### coarse loops go over no edge twice -/

theorem steps_get {V : Type} (l : List V) (i : ℕ) : (steps l)[i]? = (l[i]?).bind fun a => (l[i + 1]?).map fun c => (a, c) := by
  induction l generalizing i with
  | nil => rfl
  | cons a t ih =>
    cases t with
    | nil =>
      cases i with
      | zero => rfl
      | succ i => simp [steps]
    | cons c t =>
      cases i with
      | zero => simp [steps]
      | succ i =>
        rw [steps, List.getElem?_cons_succ, ih]
        simp

/-- a loop that goes through no vertex twice and has at least three goes over no edge twice, in either direction -/
theorem simple_steps {V : Type} {l : List V} (h : SimpleLoop l) (h4 : 4 ≤ l.length) : (steps l).Pairwise fun x y => x ≠ y ∧ x ≠ y.swap := by
  obtain ⟨⟨_, hc⟩, hn⟩ := h
  -- vertices at different positions behind the first one differ
  have inj : ∀ i j : ℕ, 1 ≤ i → 1 ≤ j → ∀ v : V, l[i]? = some v → l[j]? = some v → i = j := by
    intro i j hi hj v h1 h2
    have e1 : l.tail[i - 1]? = some v := by rw [List.getElem?_tail, Nat.sub_add_cancel hi, h1]
    have e2 : l.tail[j - 1]? = some v := by rw [List.getElem?_tail, Nat.sub_add_cancel hj, h2]
    have := (List.getElem?_inj (List.getElem?_eq_some_iff.1 e1).1 hn).1 (e1.trans e2.symm)
    omega
  have hlast : l[0]? = l[l.length - 1]? := by
    rw [← List.head?_eq_getElem?, hc, List.getLast?_eq_getElem?]
  rw [List.pairwise_iff_getElem]
  intro i j hi hj hij
  have gi := List.getElem?_eq_getElem hi
  have gj := List.getElem?_eq_getElem hj
  rw [steps_get, Option.bind_eq_some_iff] at gi gj
  obtain ⟨a, ha, gi⟩ := gi
  obtain ⟨c, hc', gj⟩ := gj
  rw [Option.map_eq_some_iff] at gi gj
  obtain ⟨a', ha', gi⟩ := gi
  obtain ⟨c', hc'', gj⟩ := gj
  rw [← gi, ← gj]
  have hjl : j + 1 < l.length := (List.getElem?_eq_some_iff.1 hc'').1
  refine ⟨fun e => ?_, fun e => ?_⟩
  · rw [Prod.mk.injEq] at e
    have := inj (i + 1) (j + 1) (by omega) (by omega) c' (by rw [ha', e.2]) hc''
    omega
  · simp only [Prod.swap, Prod.mk.injEq] at e
    -- `l[i] = l[j+1]` and `l[i+1] = l[j]`
    have h1 := inj (i + 1) j (by omega) (by omega) c (by rw [ha', e.2]) hc'
    by_cases h0 : i = 0
    · subst h0
      rw [hlast] at ha
      have := inj (l.length - 1) (j + 1) (by omega) (by omega) c' (by rw [ha, e.1]) hc''
      omega
    · have := inj i (j + 1) (by omega) (by omega) c' (by rw [ha, e.1]) hc''
      omega

/-- the entries a process makes of a loop are some of its steps, in their order -/
theorem convert_sublist {V : Type} (num : V → Option ℕ) (eid : ℕ → ℕ → Option ℕ) (cedges : ℕ → ℕ × ℕ) (l : List V)
    (hdiff : ∀ x ∈ steps l, ∀ a b, num x.1 = some a → num x.2 = some b → a ≠ b)
    (hedge : ∀ a b e, eid a b = some e → cedges e = (min a b, max a b)) :
    ∃ S : List (V × V), S.Sublist (steps l) ∧ (∀ x ∈ S, (num x.1).isSome ∧ (num x.2).isSome) ∧
      (convertLoop num eid l).map (entryVerts cedges) = S.map (Prod.map (fun v => (num v).getD 0) (fun v => (num v).getD 0)) ∧
      ∀ k ∈ convertLoop num eid l, k ≠ 0 := by
  induction l with
  | nil => exact ⟨[], List.Sublist.refl _, by simp, rfl, by simp [convertLoop]⟩
  | cons a t ih =>
    cases t with
    | nil => exact ⟨[], List.Sublist.refl _, by simp, rfl, by simp [convertLoop]⟩
    | cons c t =>
      obtain ⟨S, h1, h2, h3, h4⟩ := ih fun x hx => hdiff x (by simp only [steps]; exact List.mem_cons_of_mem _ hx)
      have skip : ∃ S' : List (V × V), S'.Sublist (steps (a :: c :: t)) ∧ (∀ x ∈ S', (num x.1).isSome ∧ (num x.2).isSome) ∧
          (convertLoop num eid (c :: t)).map (entryVerts cedges) = S'.map (Prod.map (fun v => (num v).getD 0) (fun v => (num v).getD 0)) ∧
          ∀ k ∈ convertLoop num eid (c :: t), k ≠ 0 := ⟨S, by simp only [steps]; exact h1.cons _, h2, h3, h4⟩
      rw [convertLoop]
      cases ha : num a with
      | none => exact skip
      | some x =>
        cases hc : num c with
        | none => exact skip
        | some y =>
          simp only
          cases he : eid x y with
          | none => exact skip
          | some e =>
            have hxy := hdiff (a, c) (by simp [steps]) x y ha hc
            have hce := hedge x y e he
            refine ⟨(a, c) :: S, by simp only [steps]; exact h1.cons_cons _, ?_, ?_, ?_⟩
            · intro z hz
              rcases List.mem_cons.1 hz with rfl | hz
              · simp [ha, hc]
              · exact h2 z hz
            · rw [List.map_cons, List.map_cons, h3]
              congr 1
              simp only [Prod.map, ha, hc, Option.getD_some]
              rw [entryVerts, loopEncode]
              by_cases hlt : x < y
              · have hk : (0 : ℤ) < (e : ℤ) + 1 := by omega
                have hn : ((e : ℤ) + 1).natAbs - 1 = e := by omega
                rw [if_pos hlt, if_pos hk, hn, hce, min_eq_left hlt.le, max_eq_right hlt.le]
              · have hk : ¬ (0 : ℤ) < -(e : ℤ) - 1 := by omega
                have hn : (-(e : ℤ) - 1).natAbs - 1 = e := by omega
                have hlt' : y < x := by omega
                rw [if_neg hlt, if_neg hk, hn, hce, min_eq_right hlt'.le, max_eq_left hlt'.le]
                rfl
            · intro k hk
              rcases List.mem_cons.1 hk with rfl | hk
              · rw [loopEncode]
                split <;> omega
              · exact h4 k hk

/-- **C100** (loops of coarse levels). Whatever part of the vertices and edges a process has: the entries it makes of a loop that goes through no vertex twice and has at
least three vertices (coarse loops are like that, see C98) go over no edge twice, and none is zero. -/
theorem convert_once {V : Type} (num : V → Option ℕ) (eid : ℕ → ℕ → Option ℕ) (cedges : ℕ → ℕ × ℕ) (l : List V) (hl : SimpleLoop l) (h4 : 4 ≤ l.length)
    (hinj : ∀ v v' a, num v = some a → num v' = some a → v = v') (hedge : ∀ a b e, eid a b = some e → cedges e = (min a b, max a b)) :
    ((convertLoop num eid l).map enr).Nodup ∧ ∀ k ∈ convertLoop num eid l, k ≠ 0 := by
  have hss := simple_steps hl h4
  have hdiff : ∀ x ∈ steps l, ∀ a b, num x.1 = some a → num x.2 = some b → a ≠ b := by
    rintro ⟨x, y⟩ hx a b ha hb rfl
    have hxy : x = y := hinj x y a ha hb
    subst hxy
    -- a step from a vertex to itself
    obtain ⟨i, hi⟩ := List.getElem?_of_mem hx
    rw [steps_get, Option.bind_eq_some_iff] at hi
    obtain ⟨p, hp, hi⟩ := hi
    rw [Option.map_eq_some_iff] at hi
    obtain ⟨q, hq, hi⟩ := hi
    rw [Prod.mk.injEq] at hi
    rw [hi.1] at hp
    rw [hi.2] at hq
    obtain ⟨⟨_, hc⟩, hn⟩ := hl
    have hil : i + 1 < l.length := (List.getElem?_eq_some_iff.1 hq).1
    have inj : ∀ i j : ℕ, 1 ≤ i → 1 ≤ j → l[i]? = some x → l[j]? = some x → i = j := by
      intro i j hi hj h1 h2
      have e1 : l.tail[i - 1]? = some x := by rw [List.getElem?_tail, Nat.sub_add_cancel hi, h1]
      have e2 : l.tail[j - 1]? = some x := by rw [List.getElem?_tail, Nat.sub_add_cancel hj, h2]
      have := (List.getElem?_inj (List.getElem?_eq_some_iff.1 e1).1 hn).1 (e1.trans e2.symm)
      omega
    by_cases h0 : i = 0
    · subst h0
      rw [← List.head?_eq_getElem?, hc, List.getLast?_eq_getElem?] at hp
      have := inj (l.length - 1) 1 (by omega) (by omega) hp hq
      omega
    · have := inj i (i + 1) (by omega) (by omega) hp hq
      omega
  obtain ⟨S, h1, h2, h3, h4'⟩ := convert_sublist num eid cedges l hdiff hedge
  refine ⟨?_, h4'⟩
  have hS := hss.sublist h1
  have hS' : (S.map (Prod.map (fun v => (num v).getD 0) (fun v => (num v).getD 0))).Pairwise fun x y => x ≠ y ∧ x ≠ y.swap := by
    rw [List.pairwise_map]
    refine hS.imp_of_mem ?_
    rintro ⟨a, c⟩ ⟨a', c'⟩ hx hy ⟨n1, n2⟩
    obtain ⟨g1, g2⟩ := h2 _ hx
    obtain ⟨g3, g4⟩ := h2 _ hy
    obtain ⟨u, hu⟩ := Option.isSome_iff_exists.1 g1
    obtain ⟨u', hu'⟩ := Option.isSome_iff_exists.1 g2
    obtain ⟨w, hw⟩ := Option.isSome_iff_exists.1 g3
    obtain ⟨w', hw'⟩ := Option.isSome_iff_exists.1 g4
    simp only at hu hu' hw hw'
    simp only [Prod.map, hu, hu', hw, hw', Option.getD_some, Prod.swap, ne_eq, Prod.mk.injEq]
    refine ⟨?_, ?_⟩
    · rintro ⟨rfl, rfl⟩
      exact n1 (by rw [hinj a a' _ hu hw, hinj c c' _ hu' hw'])
    · rintro ⟨rfl, rfl⟩
      exact n2 (by rw [hinj a c' _ hu hw', hinj c a' _ hu' hw]; rfl)
  rw [← h3, List.pairwise_map] at hS'
  refine List.pairwise_map.2 (hS'.imp ?_)
  rintro x y ⟨n1, n2⟩ he
  have e1 : ∀ k : ℤ, entryVerts cedges k = if 0 < k then cedges (enr k) else (cedges (enr k)).swap := fun _ => rfl
  rw [e1, e1, he] at n1 n2
  by_cases hx : 0 < x <;> by_cases hy : 0 < y
  · rw [if_pos hx, if_pos hy] at n1; exact n1 rfl
  · rw [if_pos hx, if_neg hy] at n2; exact n2 (Prod.swap_swap _).symm
  · rw [if_neg hx, if_pos hy] at n2; exact n2 rfl
  · rw [if_neg hx, if_neg hy] at n1; exact n1 rfl

/-- the process does not have vertex `3` -/
example : ((convertLoop (fun v : ℕ => if v = 3 then none else some v) (fun a b => if a < 100 ∧ b < 100 then some (min a b * 100 + max a b) else none) [1, 5, 7, 3, 1]).map enr).Nodup ∧
    ∀ k ∈ convertLoop (fun v : ℕ => if v = 3 then none else some v) (fun a b => if a < 100 ∧ b < 100 then some (min a b * 100 + max a b) else none) [1, 5, 7, 3, 1], k ≠ 0 :=
  convert_once _ _ (fun e => (e / 100, e % 100)) [1, 5, 7, 3, 1] ⟨⟨by decide, by decide⟩, by decide⟩ (by decide)
    (by intro v v' a h h'; split at h <;> split at h' <;> simp_all)
    (by
      intro a b e h
      split at h
      · rename_i hc
        have : e = min a b * 100 + max a b := (Option.some.inj h).symm
        rw [this, Prod.mk.injEq]
        omega
      · cases h)

/-! ### one process: the product of the two matrices -/

variable {K : Type} [Field K] {b : ℕ}

/-- the whole mesh on one process: every edge has a degree of freedom -/
def seqPart (nv : ℕ) (es : List (ℕ × ℕ)) (flow : ℕ → Fin b → K) (junk : Mt 1 b K) (active : ℕ → Bool) (loops : List (List ℤ)) : Part b K ℕ where
  nv := nv
  edges e := es.getD e (0, 0)
  glob := id
  e2d := e2dof none es
  d2e := List.range es.length
  master _ := true
  flow := flow
  junk := junk
  active := active
  loops := loops

/-- **C100** (one process). If every loop is a closed walk over edges with nonzero flow that goes over none twice, then the product of the stored divergence and the stored curl
(the transpose of the stored transposed curl) is the zero matrix, whatever the volumes are, and whatever stood in the memory of the matrix before. -/
theorem div_curl_product (nv : ℕ) (es : List (ℕ × ℕ)) (hes : ∀ x ∈ es, x.1 ≠ x.2 ∧ x.1 < nv ∧ x.2 < nv) (fac : ℕ → K) (flow : ℕ → Fin b → K) (junk : Mt 1 b K)
    (active : ℕ → Bool) (loops : List (List ℤ)) (hent : ∀ l ∈ loops, ∀ k ∈ l, k ≠ 0 ∧ enr k < es.length) (honce : ∀ l ∈ loops, (l.map enr).Nodup)
    (hflow : ∀ l ∈ loops, ∀ k ∈ l, ∑ m, flow (enr k) m * flow (enr k) m ≠ 0)
    (hclosed : ∀ l ∈ loops, ∃ w, Closed w ∧ (l.map (entryVerts fun e => es.getD e (0, 0))).Perm (steps w))
    (nhash : ℕ → ℕ) (hjunk mjunk : ℕ → ℕ → ℕ × ℕ) (hw : loops.length ≤ 2 ^ 30) :
    ∃ d2e T C, dof2e (e2dof none es) = some d2e ∧ transpose (ncCurlT junk (e2dof none es) d2e.length flow active loops) = some T ∧
      matMultAB nhash hjunk mjunk (ncDiv nv (fun e => es.getD e (0, 0)) d2e (fun _ => true) fac flow) T = some C ∧
      C.height = nv ∧ C.width = loops.length ∧ ∀ v k, C.entry v k = 0 := by
  obtain ⟨d2e, h1, h2, h3, h4, h5⟩ := dofed_correct none es
  have hd2e : d2e = List.range es.length := by
    refine List.Perm.eq_of_pairwise (le := (· < ·)) (fun a b _ _ h h' => absurd h (by omega)) h2 List.pairwise_lt_range
      ((List.perm_ext_iff_of_nodup (h2.imp fun h => Nat.ne_of_lt h) List.nodup_range).2 fun e => ?_)
    rw [h5, List.mem_range]
    constructor
    · rintro ⟨x, hx, -⟩
      exact (List.getElem?_eq_some_iff.1 hx).1
    · intro he
      exact ⟨es[e], List.getElem?_eq_getElem he, by simp⟩
  subst hd2e
  have hgetD : ∀ e < es.length, es.getD e (0, 0) ∈ es := by
    intro e he
    rw [List.getD_eq_getElem?_getD, List.getElem?_eq_getElem he, Option.getD_some]
    exact List.getElem_mem _
  have hok : (seqPart nv es flow junk active loops).OK :=
    ⟨h3, fun e he => (hes _ (hgetD e (by rw [← h4]; exact he))).1, fun e he => (hes _ (hgetD e (by rw [← h4]; exact he))).2,
      fun l hl k hk => ⟨(hent l hl k hk).1, by rw [show (seqPart nv es flow junk active loops).e2d = e2dof none es from rfl, h4]; exact (hent l hl k hk).2⟩, honce, hflow⟩
  obtain ⟨hcol, hlt, hinj⟩ := e2d_facts h3
  have hDwf := (ncDiv_correct nv (fun e => es.getD e (0, 0)) (List.range es.length) (fun _ => true) fac flow
    (fun e he => (hes _ (hgetD e (List.mem_range.1 he))).1)).1
  have hCwf : (ncCurlT junk (e2dof none es) (List.range es.length).length flow active loops).WF :=
    curlT_wf junk _ _ _ active loops (fun e d h => hlt e d h) fun l hl => loopDofs_nodup _ hinj l (honce l hl)
  obtain ⟨T, hT, hTwf, hTh, hTw, hTe⟩ := transpose_correct _ hCwf
  obtain ⟨C, hC, -, hCh, hCw, hCe, -⟩ := matMultAB_correct nhash hjunk mjunk (ncDiv nv (fun e => es.getD e (0, 0)) (List.range es.length) (fun _ => true) fac flow) T hDwf hTwf
    (by rw [hTh]; rfl) (by rw [hTw]; exact hw)
  refine ⟨_, T, C, h1, hT, hC, hCh, hCw.trans hTw, fun v k => ?_⟩
  rw [hCe]
  have zero_row : ∀ d, ¬ (v < nv) → (ncDiv nv (fun e => es.getD e (0, 0)) (List.range es.length) (fun _ => true) fac flow).entry v d = 0 := by
    intro d hv
    rw [CSR.entry, show (ncDiv nv (fun e => es.getD e (0, 0)) (List.range es.length) (fun _ => true) fac flow).row v = [] from if_neg hv]
    rfl
  have zero_col : ∀ d, ¬ (active k = true ∧ k < loops.length) → (ncCurlT junk (e2dof none es) (List.range es.length).length flow active loops).entry k d = 0 := by
    intro d hk
    rw [CSR.entry]
    have : (ncCurlT junk (e2dof none es) (List.range es.length).length flow active loops).row k = [] := by
      simp only [ncCurlT, curlT]
      by_cases ha : active k = true
      · rw [if_pos ha, List.getElem?_eq_none (by by_contra hh; exact hk ⟨ha, by omega⟩)]
        rfl
      · rw [if_neg ha]
    rw [this]
    rfl
  by_cases hv : v < nv
  swap
  · apply Finset.sum_eq_zero
    intro d _
    rw [zero_row d hv, Matrix.zero_mul]
  by_cases hk : active k = true ∧ k < loops.length
  swap
  · apply Finset.sum_eq_zero
    intro d _
    rw [hTe, zero_col d hk, Matrix.transpose_zero, Matrix.mul_zero]
  obtain ⟨w, hcw, hperm⟩ := hclosed _ (List.getElem_mem hk.2)
  have hfil : (loops[k].filter fun x => mineDof (e2dof none es) (fun _ => true) (enr x)) = loops[k] := by
    rw [List.filter_eq_self]
    intro x hx
    have := (hcol (enr x) (enr x)).2 (by rw [List.getElem?_range (hent _ (List.getElem_mem hk.2) x hx).2])
    rw [mineDof, this]
    rfl
  have key := div_curl_zero [()] (fun _ => seqPart nv es flow junk active loops) (fun _ _ => hok) fac w hcw (fun _ => k) (fun _ => loops[k])
    (fun _ _ => List.getElem?_eq_getElem hk.2) (fun _ _ => hk.1) (by
      simp only [List.flatMap_cons, List.flatMap_nil, List.append_nil, seqPart]
      rw [hfil, show (Prod.map id id : ℕ × ℕ → ℕ × ℕ) = id from Prod.map_id, List.map_id]
      exact hperm) v
  simp only [List.map_cons, List.map_nil, List.sum_cons, List.sum_nil, add_zero, seqPart, id] at key
  rw [Finset.sum_eq_single v] at key
  rotate_left
  · intro v' _ hne
    exact if_neg hne
  · intro h
    exact absurd (Finset.mem_range.2 hv) h
  have key := (if_pos (rfl : v = v)).symm.trans key
  rw [Part.divCurl] at key
  refine Matrix.ext fun i j => ?_
  have hi : i = 0 := Subsingleton.elim _ _
  have hj : j = 0 := Subsingleton.elim _ _
  subst hi hj
  simp only [hTe]
  exact key

end NgsAMG.Curl
