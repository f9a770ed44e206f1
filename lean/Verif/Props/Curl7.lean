import Verif.Props.Curl5
import Verif.Props.SortedArray

/-!
# C100: degrees of freedom of edges with any number of them, and the divergence for the H(div)-conforming discretization
-/

namespace NgsAMG.Curl
open NgsAMG.SparseMM NgsAMG.Spec NgsAMG.Loop

/-! ### offsets -/

theorem offsetsGo_get (acc : ℕ) (ns : List ℕ) (e : ℕ) (he : e ≤ ns.length) : (offsetsGo acc ns)[e]? = some (acc + (ns.take e).sum) := by
  induction ns generalizing acc e with
  | nil =>
    have : e = 0 := by simpa using he
    subst this
    rfl
  | cons n t ih =>
    cases e with
    | zero => simp [offsetsGo]
    | succ e =>
      rw [offsetsGo, List.getElem?_cons_succ, ih (acc + n) e (by simpa using he)]
      simp [Nat.add_assoc]

theorem offsetsGo_length (acc : ℕ) (ns : List ℕ) : (offsetsGo acc ns).length = ns.length + 1 := by
  induction ns generalizing acc with
  | nil => rfl
  | cons n t ih => simp [offsetsGo, ih]

theorem offsets_getD (ns : List ℕ) (e : ℕ) (he : e ≤ ns.length) : (offsets ns).getD e 0 = (ns.take e).sum := by
  rw [List.getD_eq_getElem?_getD, offsets, offsetsGo_get 0 ns e he]
  simp

theorem take_sum_succ (ns : List ℕ) (e : ℕ) (he : e < ns.length) : (ns.take (e + 1)).sum = (ns.take e).sum + ns.getD e 0 := by
  rw [List.take_add_one, List.sum_append, List.getD_eq_getElem?_getD, List.getElem?_eq_getElem he]
  simp

theorem take_sum_mono (ns : List ℕ) {e e' : ℕ} (h : e ≤ e') : (ns.take e).sum ≤ (ns.take e').sum := by
  have : ns.take e' = ns.take e ++ (ns.take e').drop e := by
    conv_lhs => rw [← List.take_append_drop e (ns.take e')]
    rw [List.take_take, Nat.min_eq_left h]
  rw [this, List.sum_append]
  omega

theorem offsets_sorted (ns : List ℕ) : (offsets ns).Pairwise (· ≤ ·) := by
  rw [List.pairwise_iff_getElem]
  intro i j hi hj hij
  have hl : (offsets ns).length = ns.length + 1 := offsetsGo_length 0 ns
  have gi := offsetsGo_get 0 ns i (by omega)
  have gj := offsetsGo_get 0 ns j (by omega)
  have gi' : (offsets ns)[i] = 0 + (ns.take i).sum := Option.some.inj ((List.getElem?_eq_getElem hi).symm.trans gi)
  have gj' : (offsets ns)[j] = 0 + (ns.take j).sum := Option.some.inj ((List.getElem?_eq_getElem hj).symm.trans gj)
  rw [gi', gj']
  have := take_sum_mono ns (Nat.le_of_lt hij)
  omega

theorem nDof_eq (ns : List ℕ) (e : ℕ) (he : e < ns.length) : nDof (offsets ns) e = ns.getD e 0 := by
  rw [nDof, offsets_getD ns (e + 1) (by omega), offsets_getD ns e (by omega), take_sum_succ ns e he]
  omega

theorem last_eq (ns : List ℕ) : (offsets ns).getLast?.getD 0 = ns.sum := by
  rw [List.getLast?_eq_getElem?, show (offsets ns).length = ns.length + 1 from offsetsGo_length 0 ns, Nat.add_sub_cancel, offsets, offsetsGo_get 0 ns _ le_rfl]
  simp

/-- **C100** (degrees of freedom of edges). Given any numbers of degrees of freedom per edge (also zero): the degrees of freedom `l < n` of an edge have the numbers
`EdgeToDOF(e, l)`, they are in range, and `DOFToEdge` gives the edge back -/
theorem dofToEdge_correct (ns : List ℕ) (e l : ℕ) (hn : l < ns.getD e 0) :
    firstDof (offsets ns) e + l < ns.sum ∧ firstDof (offsets ns) e + l ∈ dofNrs (offsets ns) e ∧ dofToEdge (offsets ns) (firstDof (offsets ns) e + l) = some e := by
  have he : e < ns.length := by
    by_contra h
    rw [List.getD_eq_getElem?_getD, List.getElem?_eq_none (by omega)] at hn
    simp at hn
  have hs := take_sum_succ ns e he
  have hfd : firstDof (offsets ns) e = (ns.take e).sum := offsets_getD ns e (by omega)
  have hle : (ns.take (e + 1)).sum ≤ ns.sum := by
    have := take_sum_mono ns (e := e + 1) (e' := ns.length) (by omega)
    rwa [List.take_length] at this
  refine ⟨by omega, ?_, ?_⟩
  · rw [dofNrs, nDof_eq ns e he, List.mem_map]
    exact ⟨l, List.mem_range.2 hn, rfl⟩
  · obtain ⟨p, hp, hle1, h1, h2⟩ := SortedArray.mergePos_correct (firstDof (offsets ns) e + l) (offsets ns) (offsets_sorted ns)
    have hlen : (offsets ns).length = ns.length + 1 := offsetsGo_length 0 ns
    have g0 := offsetsGo_get 0 ns e (by omega)
    have g1 := offsetsGo_get 0 ns (e + 1) (by omega)
    have hp1 : p = e + 1 := by
      by_contra hne
      rcases Nat.lt_or_ge p (e + 1) with hlt | hge
      · have := h2 e _ g0 (by omega)
        omega
      · have := h1 (e + 1) _ g1 (by omega)
        omega
    rw [dofToEdge, hp, hp1]

/-- and every degree of freedom belongs to exactly one edge -/
theorem dofToEdge_total (ns : List ℕ) (d : ℕ) (hd : d < ns.sum) : ∃ e l, l < ns.getD e 0 ∧ d = firstDof (offsets ns) e + l ∧ dofToEdge (offsets ns) d = some e := by
  have : ∃ e, (ns.take e).sum ≤ d ∧ d < (ns.take (e + 1)).sum := by
    by_contra hno
    push Not at hno
    have : ∀ e, (ns.take e).sum ≤ d := by
      intro e
      induction e with
      | zero => simp
      | succ e ih => exact hno e ih
    have := this ns.length
    rw [List.take_length] at this
    omega
  obtain ⟨e, h1, h2⟩ := this
  have he : e < ns.length := by
    by_contra h
    rw [List.take_of_length_le (by omega)] at h1 h2
    omega
  rw [take_sum_succ ns e he] at h2
  have hfd : firstDof (offsets ns) e = (ns.take e).sum := offsets_getD ns e (by omega)
  refine ⟨e, d - firstDof (offsets ns) e, by omega, by omega, ?_⟩
  have := (dofToEdge_correct ns e (d - firstDof (offsets ns) e) (by omega)).2.2
  rwa [Nat.add_sub_cancel' (by omega)] at this

example : offsets [2, 0, 0, 3, 1] = [0, 2, 2, 2, 5, 6] := by decide
example : dofToEdge (offsets [2, 0, 0, 3, 1]) 2 = some 3 := (dofToEdge_correct [2, 0, 0, 3, 1] 3 0 (by decide)).2.2

/-! ### rows of the divergence -/

theorem hScatter_inner (edges : ℕ → ℕ × ℕ) (e : ℕ) (hne : (edges e).1 ≠ (edges e).2) (ds : List ℕ) (rows : ℕ → List ℕ) (v : ℕ) :
    ds.foldl (fun rows d =>
      let r0 := Function.update rows (edges e).1 (rows (edges e).1 ++ [d])
      Function.update r0 (edges e).2 (r0 (edges e).2 ++ [d])) rows v = rows v ++ if touches edges v e then ds else [] := by
  induction ds generalizing rows with
  | nil => simp
  | cons d t ih =>
    rw [List.foldl_cons, ih]
    by_cases h1 : v = (edges e).1
    · have h2 : v ≠ (edges e).2 := fun h => hne (h1 ▸ h)
      have ht : touches edges v e = true := by simp [touches, h1]
      rw [if_pos ht, if_pos ht, Function.update_of_ne h2, h1, Function.update_self]
      simp
    · by_cases h2 : v = (edges e).2
      · have ht : touches edges v e = true := by simp [touches, h2]
        rw [if_pos ht, if_pos ht, h2, Function.update_self, Function.update_of_ne (fun h => hne h.symm)]
        simp
      · have ht : ¬ touches edges v e = true := by simp [touches, Ne.symm h1, Ne.symm h2]
        rw [if_neg ht, if_neg ht, Function.update_of_ne h2, Function.update_of_ne h1]

theorem hScatter_eq (edges : ℕ → ℕ × ℕ) (off : List ℕ) (ord : List ℕ) (hd : ∀ e ∈ ord, (edges e).1 ≠ (edges e).2) (v : ℕ) :
    hScatter edges off ord v = (ord.filter fun e => touches edges v e).flatMap (dofNrs off) := by
  have key : ∀ (l : List ℕ) (rows : ℕ → List ℕ), (∀ e ∈ l, (edges e).1 ≠ (edges e).2) → l.foldl (fun rows e => (dofNrs off e).foldl (fun rows d =>
      let r0 := Function.update rows (edges e).1 (rows (edges e).1 ++ [d])
      Function.update r0 (edges e).2 (r0 (edges e).2 ++ [d])) rows) rows v = rows v ++ (l.filter fun e => touches edges v e).flatMap (dofNrs off) := by
    intro l
    induction l with
    | nil => intro rows _; simp
    | cons e t ih =>
      intro rows h
      rw [List.foldl_cons, ih _ (fun x hx => h x (List.mem_cons_of_mem _ hx))]
      refine (congrArg (· ++ _) (hScatter_inner edges e (h e (by simp)) (dofNrs off e) rows v)).trans ?_
      rw [List.filter_cons]
      split <;> simp
  rw [hScatter, key ord _ hd]
  rfl

/-- the columns of a row, in order -/
theorem hCols_eq (edges : ℕ → ℕ × ℕ) (ns : List ℕ) (ord : List ℕ) (hord : ord.Perm (List.range ns.length)) (hd : ∀ e < ns.length, (edges e).1 ≠ (edges e).2) (v : ℕ) :
    hCols edges (offsets ns) ord v = ((List.range ns.length).filter fun e => touches edges v e).flatMap (dofNrs (offsets ns)) := by
  have hs : (((List.range ns.length).filter fun e => touches edges v e).flatMap (dofNrs (offsets ns))).Pairwise (· ≤ ·) := by
    rw [List.pairwise_flatMap]
    refine ⟨fun e _ => ?_, ?_⟩
    · rw [dofNrs, List.pairwise_map]
      exact List.pairwise_lt_range.imp fun h => by omega
    · refine (List.pairwise_lt_range.sublist List.filter_sublist).imp_of_mem ?_
      intro e e' he he' hlt x hx y hy
      have he1 := List.mem_range.1 (List.mem_of_mem_filter he)
      have he2 := List.mem_range.1 (List.mem_of_mem_filter he')
      rw [dofNrs, List.mem_map] at hx hy
      obtain ⟨a, ha, rfl⟩ := hx
      obtain ⟨c, hc, rfl⟩ := hy
      rw [List.mem_range, nDof_eq ns e he1] at ha
      rw [firstDof, firstDof, offsets_getD ns e (by omega), offsets_getD ns e' (by omega)]
      have h1 := take_sum_succ ns e he1
      have h2 := take_sum_mono ns (e := e + 1) (e' := e') (by omega)
      omega
  rw [hCols, hScatter_eq edges _ ord fun e he => hd e (List.mem_range.1 (hord.mem_iff.1 he))]
  refine List.Perm.eq_of_pairwise (le := (· ≤ ·)) (fun a b _ _ h h' => le_antisymm h h') (List.pairwise_insertionSort _ _) hs ?_
  refine (List.perm_insertionSort _ _).trans ?_
  exact (hord.filter _).flatMap_right _

variable {K : Type} [Field K]

/-- the value of a degree of freedom in a row: the flow, with its sign, for the first of an edge, zero for the others -/
def hEntry (edges : ℕ → ℕ × ℕ) (flow0 : ℕ → K) (v e l : ℕ) : Mt 1 1 K := fun _ _ => if l = 0 then inc edges v e * flow0 e else 0

theorem hPart_eq (edges : ℕ → ℕ × ℕ) (off : List ℕ) (flow0 : ℕ → K) (v e : ℕ) (hne : (edges e).1 ≠ (edges e).2) (ht : touches edges v e = true) :
    hPart edges flow0 v e (dofNrs off e) = (List.range (nDof off e)).map fun l => (firstDof off e + l, hEntry edges flow0 v e l) := by
  rw [hPart, dofNrs]
  refine List.ext_getElem? fun i => ?_
  rw [List.getElem?_map, List.getElem?_zipIdx, List.getElem?_map, List.getElem?_map]
  by_cases hi : i < nDof off e
  · rw [List.getElem?_range hi]
    simp only [Option.map_some, Option.some.injEq]
    refine Prod.ext rfl (funext fun a => funext fun c => ?_)
    simp only [hEntry, Nat.zero_add]
    rw [touches, Bool.or_eq_true, decide_eq_true_iff, decide_eq_true_iff] at ht
    by_cases h0 : i = 0
    · rw [if_pos h0, if_pos h0, orient, inc]
      by_cases hv1 : (edges e).1 = v
      · have hv2 : (edges e).2 ≠ v := fun h => hne (hv1.trans h.symm)
        simp [hv1, hv2]
      · simp [hv1, ht.resolve_left hv1]
    · rw [if_neg h0, if_neg h0, mul_zero]
  · rw [List.getElem?_eq_none (by simpa using hi)]
    rfl

theorem hFill_eq (edges : ℕ → ℕ × ℕ) (ns : List ℕ) (flow0 : ℕ → K) (v : ℕ) (E : List ℕ) (hE : ∀ e ∈ E, e < ns.length ∧ (edges e).1 ≠ (edges e).2 ∧ touches edges v e = true) :
    ∀ fuel, (E.flatMap (dofNrs (offsets ns))).length ≤ fuel → hFill edges (offsets ns) flow0 v fuel (E.flatMap (dofNrs (offsets ns)))
      = some (E.flatMap fun e => (List.range (nDof (offsets ns) e)).map fun l => (firstDof (offsets ns) e + l, hEntry edges flow0 v e l)) := by
  induction E with
  | nil =>
    intro fuel _
    cases fuel <;> rfl
  | cons e t ih =>
    intro fuel hf
    obtain ⟨he, hne, ht⟩ := hE e (by simp)
    have ih' := ih fun x hx => hE x (List.mem_cons_of_mem _ hx)
    have hlen : (dofNrs (offsets ns) e).length = nDof (offsets ns) e := by simp [dofNrs]
    rw [List.flatMap_cons, List.flatMap_cons] at *
    rw [List.length_append, hlen] at hf
    by_cases h0 : nDof (offsets ns) e = 0
    · have h1 : dofNrs (offsets ns) e = [] := List.length_eq_zero_iff.1 (hlen.trans h0)
      rw [h1, h0]
      simp only [List.nil_append, List.range_zero, List.map_nil]
      exact ih' fuel (by omega)
    · cases fuel with
      | zero => omega
      | succ fuel =>
        obtain ⟨n, hn⟩ : ∃ n, nDof (offsets ns) e = n + 1 := ⟨nDof (offsets ns) e - 1, by omega⟩
        have hcons : dofNrs (offsets ns) e ++ t.flatMap (dofNrs (offsets ns)) = firstDof (offsets ns) e :: ((dofNrs (offsets ns) e).tail ++ t.flatMap (dofNrs (offsets ns))) := by
          rw [dofNrs, hn, List.range_succ_eq_map]
          simp
        have hed := (dofToEdge_correct ns e 0 (by rw [← nDof_eq ns e he]; omega)).2.2
        rw [Nat.add_zero] at hed
        rw [hcons, hFill, hed]
        simp only
        rw [← hcons, if_neg (by rw [List.length_append, hlen]; omega), List.drop_left' hlen, List.take_left' hlen, ih' fuel (by omega), hPart_eq edges _ flow0 v e hne ht]
        rfl

/-- the edge of a degree of freedom, and the place of the degree of freedom in the edge -/
def hF (edges : ℕ → ℕ × ℕ) (ns : List ℕ) (flow0 : ℕ → K) (v d : ℕ) : Mt 1 1 K :=
  match dofToEdge (offsets ns) d with
  | some e => if d < ns.sum then hEntry edges flow0 v e (d - firstDof (offsets ns) e) else 0
  | none => 0

/-- **C100** (divergence, H(div)). Whatever the numbers of degrees of freedom of the edges are, and in whatever order the edges are visited: the divergence is built, it is a proper
matrix, and for degree of freedom `l` of edge `e` it has the flow in the first vertex of the edge, minus that in the second if `l` is zero, and zero everywhere else -/
theorem hDiv_correct (nv : ℕ) (edges : ℕ → ℕ × ℕ) (ns : List ℕ) (ord : List ℕ) (flow0 : ℕ → K) (hord : ord.Perm (List.range ns.length))
    (hd : ∀ e < ns.length, (edges e).1 ≠ (edges e).2) :
    ∃ D, hDiv nv edges (offsets ns) ord flow0 = some D ∧ D.WF ∧ D.height = nv ∧ D.width = ns.sum ∧
      ∀ v < nv, ∀ e l, l < ns.getD e 0 → D.entry v (firstDof (offsets ns) e + l) = hEntry edges flow0 v e l := by
  let rows : ℕ → List (ℕ × Mt 1 1 K) := fun v => if v < nv then
    ((List.range ns.length).filter fun e => touches edges v e).flatMap fun e => (List.range (nDof (offsets ns) e)).map fun l => (firstDof (offsets ns) e + l, hEntry edges flow0 v e l) else []
  have hE : ∀ v, ∀ e ∈ (List.range ns.length).filter (fun e => touches edges v e), e < ns.length ∧ (edges e).1 ≠ (edges e).2 ∧ touches edges v e = true := by
    intro v e he
    rw [List.mem_filter, List.mem_range] at he
    exact ⟨he.1, hd e he.1, he.2⟩
  have hcol : collect nv (fun v => hFill edges (offsets ns) flow0 v (hCols edges (offsets ns) ord v).length (hCols edges (offsets ns) ord v)) = some rows := by
    refine collect_spec nv _ rows (fun v hv => ?_) (fun v hv => if_neg (by omega))
    rw [hCols_eq edges ns ord hord hd, hFill_eq edges ns flow0 v _ (hE v) _ le_rfl]
    exact congrArg some (if_pos hv).symm
  have hrow : ∀ v < nv, rows v = (hCols edges (offsets ns) ord v).map fun d => (d, hF edges ns flow0 v d) := by
    intro v hv
    rw [hCols_eq edges ns ord hord hd, List.map_flatMap]
    refine (if_pos hv).trans ?_
    refine List.flatMap_congr fun e he => ?_
    rw [dofNrs, List.map_map]
    refine List.map_congr_left fun l hl => ?_
    rw [List.mem_range, nDof_eq ns e (hE v e he).1] at hl
    obtain ⟨h1, -, h2⟩ := dofToEdge_correct ns e l hl
    simp only [Function.comp, hF, h2]
    rw [if_pos h1, Nat.add_sub_cancel_left]
  have hsorted : ∀ v, (hCols edges (offsets ns) ord v).Pairwise (· < ·) := by
    intro v
    have h1 : (hCols edges (offsets ns) ord v).Pairwise (· ≤ ·) := List.pairwise_insertionSort _ _
    have h2 : (hCols edges (offsets ns) ord v).Nodup := by
      rw [hCols_eq edges ns ord hord hd, List.nodup_flatMap]
      refine ⟨fun e _ => ?_, ?_⟩
      · rw [dofNrs]
        exact List.nodup_range.map fun a c h => by simpa using h
      · refine (List.pairwise_lt_range.sublist List.filter_sublist).imp_of_mem ?_
        intro e e' he he' hlt x hx hy
        rw [dofNrs, List.mem_map] at hx hy
        obtain ⟨a, ha, rfl⟩ := hx
        obtain ⟨c, hc, hce⟩ := hy
        rw [List.mem_range, nDof_eq ns e (hE v e he).1] at ha
        rw [List.mem_range, nDof_eq ns e' (hE v e' he').1] at hc
        have g1 := (dofToEdge_correct ns e a ha).2.2
        have g2 := (dofToEdge_correct ns e' c hc).2.2
        rw [hce, g1] at g2
        exact absurd (Option.some.inj g2) (by omega)
    exact (h1.and h2).imp fun h => lt_of_le_of_ne h.1 h.2
  have hmem : ∀ v d, d ∈ hCols edges (offsets ns) ord v → ∃ e l, e < ns.length ∧ touches edges v e = true ∧ l < ns.getD e 0 ∧ d = firstDof (offsets ns) e + l := by
    intro v d h
    rw [hCols_eq edges ns ord hord hd, List.mem_flatMap] at h
    obtain ⟨e, he, hd'⟩ := h
    rw [dofNrs, List.mem_map] at hd'
    obtain ⟨l, hl, rfl⟩ := hd'
    rw [List.mem_range, nDof_eq ns e (hE v e he).1] at hl
    exact ⟨e, l, (hE v e he).1, (hE v e he).2.2, hl, rfl⟩
  refine ⟨{ height := nv, width := ns.sum, row := rows }, ?_, ⟨fun v => ?_, fun v x hx => ?_, fun v hv => if_neg (Nat.not_lt.2 hv)⟩, rfl, rfl, fun v hv e l hl => ?_⟩
  · rw [hDiv, hcol, last_eq]
    rfl
  · by_cases hv : v < nv
    · simp only [hrow v hv, List.map_map]
      refine (?_ : List.Pairwise (· < ·) ((hCols edges (offsets ns) ord v).map id))
      rw [List.map_id]
      exact hsorted v
    · have : rows v = [] := if_neg hv
      simp only [this]
      exact List.Pairwise.nil
  · by_cases hv : v < nv
    · simp only [hrow v hv] at hx ⊢
      obtain ⟨d, hd', rfl⟩ := List.mem_map.1 hx
      obtain ⟨e, l, -, -, hl, rfl⟩ := hmem v d hd'
      exact (dofToEdge_correct ns e l hl).1
    · have : rows v = [] := if_neg hv
      simp only [this] at hx
      cases hx
  · have := entry_tabulated ({ height := nv, width := ns.sum, row := rows } : CSR (Mt 1 1 K)) v (hCols edges (offsets ns) ord v) (hF edges ns flow0 v) (hrow v hv) (hsorted v) ?_
      (firstDof (offsets ns) e + l)
    · rw [this]
      obtain ⟨h1, -, h2⟩ := dofToEdge_correct ns e l hl
      simp only [hF, h2]
      rw [if_pos h1, Nat.add_sub_cancel_left]
    · intro j hj
      by_cases hjs : j < ns.sum
      · obtain ⟨e, l, hl, hje, hed⟩ := dofToEdge_total ns j hjs
        have he : e < ns.length := by
          by_contra h
          rw [List.getD_eq_getElem?_getD, List.getElem?_eq_none (by omega)] at hl
          simp at hl
        simp only [hF, hed]
        rw [if_pos hjs]
        have ht : ¬ touches edges v e = true := by
          intro ht
          apply hj
          rw [hCols_eq edges ns ord hord hd, List.mem_flatMap]
          exact ⟨e, List.mem_filter.2 ⟨List.mem_range.2 he, ht⟩, by rw [hje]; exact (dofToEdge_correct ns e l hl).2.1⟩
        rw [touches, Bool.or_eq_true, decide_eq_true_iff, decide_eq_true_iff, not_or] at ht
        funext a c
        rw [hEntry, inc, if_neg ht.1, if_neg ht.2]
        simp
      · simp only [hF]
        split
        · rw [if_neg hjs]
        · rfl

end NgsAMG.Curl
