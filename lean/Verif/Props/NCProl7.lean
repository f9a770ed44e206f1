import Verif.Props.NCProl6
import Mathlib.Tactic.NormNum
import Mathlib.Data.Rat.Defs
import Mathlib.Algebra.Order.Ring.Rat
import Mathlib.Algebra.Order.Ring.Abs

/-!
# Property C101, zero volumes, Dirichlet edges, and concrete meshes
-/

namespace NgsAMG.NCProl
open NgsAMG.SparseMM NgsAMG.Spec
variable {K : Type} [Field K] [LinearOrder K] {b : ℕ}

/-- What the code does if some volumes are zero: without outflow and with several vertices of positive volume, the net flow out of the `r`-th
vertex *of positive volume* is proportional to the volume of the `r`-th vertex *of the agglomerate* -/
theorem div_shift {I : Inp b K} (hI : MeshOK I) {P : List (Row b K)} (hP : prol I = some P) {a : List ℕ} {cv : ℕ} (ha : a ∈ I.aggs)
    (hcv : ∀ v, v ∈ a ↔ I.vmap v = some cv) (hg : ∀ v ∈ a, I.ghost v = false) (hvol : ∀ v ∈ a, 0 ≤ I.vol v) (hreal : 2 ≤ (real I a).length)
    (hint : ∃ e, Interior I a e) (hext : ∃ v w e, v ∈ a ∧ (w, e) ∈ I.con v ∧ w ∉ a) (cvec : ℕ → Fin b → K) :
    ∃ lam : K, ∀ r v : ℕ, (real I a)[r]? = some v → netFlow I.con I.flow (edgeVal P I.e2d cvec) v = lam * I.vol (a.getD r 0) := by
  have hn := hI.nodup a ha
  have hlen : 2 ≤ a.length := hreal.trans (List.length_filter_le _ _)
  obtain ⟨Q, hu, hff, hY1, hY2⟩ := local_solve hI hP ha hcv hg hlen hint hext cvec
  have hfn := facets_nodup hI hn hcv
  have hout : outflow I a = false := by
    unfold outflow
    rw [List.any_eq_false]
    intro x hx
    simpa using hvol x hx
  have hlock : lockP I a = true := by
    unfold lockP
    rw [hout]
    exact (Bool.and_eq_true _ _).mpr ⟨rfl, decide_eq_true (by omega)⟩
  have hB1 : hB I a - 1 < hB I a := by
    unfold hB
    rw [hlock]
    simp
  refine ⟨-∑ c, pext I Q a (facets I a cv) cv (.inr ⟨hB I a - 1, hB1⟩) c * onEdges I cvec ((I.ccon cv)[c.1]).2 c.2, fun r x hr' => ?_⟩
  have hx : x ∈ a := (List.mem_filter.1 (List.mem_of_getElem? hr')).1
  obtain ⟨lam, l1, l2⟩ := core hI hfn hu (edgeVal P I.e2d cvec) (fun c => onEdges I cvec ((I.ccon cv)[c.1]).2 c.2) hY1 hY2 hr' (hff x hx)
  rw [l1 hlock ⟨hB I a - 1, hB1⟩ rfl] at l2
  have hbc : ∑ c : Crs I cv, matBc I a (facets I a cv) cv r ((I.ccon cv)[c.1]) c.2 * onEdges I cvec ((I.ccon cv)[c.1]).2 c.2 = 0 := by
    refine Finset.sum_eq_zero fun c _ => ?_
    unfold matBc cvinv
    rw [hr', hout, hlock]
    simp
  rw [hbc, if_pos hlock] at l2
  unfold lockW at l2
  rw [mul_assoc (scal I a (facets I a cv) * (1 / cvol I a)), ← mul_add] at l2
  have := (mul_eq_zero.1 l2).resolve_left (scal_ne hu hr')
  linear_combination this

/-- **C101, refuted**: with a Dirichlet edge that is mapped to a coarse edge the function writes out of range -/
theorem diri_mapped {I : Inp b K} {d e E : ℕ} (hd : I.d2e[d]? = some e) (hf : I.free e = false) (he : I.emap e = some E) : prol I = none := by
  cases hP : prol I with
  | none => rfl
  | some P =>
    unfold prol at hP
    obtain ⟨P0, h0, h1⟩ := Option.bind_eq_some_iff.1 hP
    obtain ⟨P1, h2, _⟩ := Option.bind_eq_some_iff.1 h1
    obtain ⟨n, n1, n2⟩ := (alloc_rows h0).2 d e hd
    obtain ⟨c, x, t, _, q2, _⟩ := ((facetFold I _ _ _ (zipIdx_snd _) h2).2.2 (e, d) (mem_zipIdx0 hd)).2 E he
    have hn : n = 0 := by
      unfold perow at n1
      rw [hf] at n1
      exact (Option.some.inj n1).symm
    dsimp only at q2
    rw [n2, hn] at q2
    cases q2

/-! ### volumes of coarse vertices -/

theorem mapVol_fold (I : Inp b K) [IsStrictOrderedRing K] (cv : ℕ) : ∀ (vs : List ℕ) (f : ℕ → K), 0 ≤ f cv → (∀ v ∈ vs, I.vmap v = some cv → 0 < I.vol v) →
    (vs.foldl (fun f v => match I.vmap v with
      | none => f
      | some cv => if 0 ≤ f cv then Function.update f cv (if 0 < I.vol v then f cv + I.vol v else I.vol v) else f) f) cv =
    f cv + ((vs.filter fun v => decide (I.vmap v = some cv)).map I.vol).sum := by
  intro vs
  induction vs with
  | nil => intro f _ _; simp
  | cons v t ih =>
    intro f hf hv
    have ht : ∀ v ∈ t, I.vmap v = some cv → 0 < I.vol v := fun w hw => hv w (List.mem_cons_of_mem _ hw)
    rw [List.foldl_cons, List.filter_cons]
    cases hm : I.vmap v with
    | none => simpa using ih f hf ht
    | some c =>
      by_cases hc : c = cv
      · subst hc
        have hp := hv v List.mem_cons_self hm
        dsimp only
        rw [if_pos hf, if_pos hp]
        refine (ih _ (by rw [Function.update_self]; exact add_nonneg hf hp.le) ht).trans ?_
        rw [Function.update_self, if_pos (by simp), List.map_cons, List.sum_cons, add_assoc]
      · rw [if_neg (by simpa using hc)]
        dsimp only
        split
        · refine (ih _ (by rw [Function.update_of_ne (Ne.symm hc)]; exact hf) ht).trans ?_
          rw [Function.update_of_ne (Ne.symm hc)]
        · exact ih f hf ht

/-- **C101**: the volume of a coarse vertex is the sum of the volumes of the vertices mapped to it, if those are positive -/
theorem vol_sum [IsStrictOrderedRing K] (I : Inp b K) (vs : List ℕ) (cv : ℕ) (hv : ∀ v ∈ vs, I.vmap v = some cv → 0 < I.vol v) :
    mapVol I vs cv = ((vs.filter fun v => decide (I.vmap v = some cv)).map I.vol).sum := by
  unfold mapVol
  exact (mapVol_fold I cv vs _ le_rfl hv).trans (by simp)

/-- **C101, refuted**: a vertex of volume zero visited last resets the volume of the coarse vertex, whatever was summed up before -/
theorem vol_reset (I : Inp b K) (vs : List ℕ) {v cv : ℕ} (hm : I.vmap v = some cv) (hv : I.vol v = 0) (h0 : 0 ≤ mapVol I vs cv) :
    mapVol I (vs ++ [v]) cv = 0 := by
  unfold mapVol at *
  rw [List.foldl_append]
  simp only [List.foldl_cons, List.foldl_nil]
  rw [hm]
  dsimp only
  rw [if_pos h0, Function.update_self, hv, if_neg (lt_irrefl _)]

/-! ### concrete meshes -/

/-- a chain of `n` vertices, the first `k` in one agglomerate, the others alone; edge `e` joins `e` and `e + 1` -/
def chain (n k : ℕ) (vol flow : ℕ → ℚ) : Inp 1 ℚ where
  con v := (if 0 < v ∧ v < n then [(v - 1, v - 1)] else []) ++ (if v + 1 < n then [(v + 1, v)] else [])
  edge e := (e, e + 1)
  vol := vol
  flow e _ := flow e
  d2e := List.range (n - 1)
  e2d e := if e < n - 1 then some e else none
  free _ := true
  ghost _ := false
  vmap v := if v < n then (if v < k then some 0 else some (v + 1 - k)) else none
  emap e := if k ≤ e + 1 ∧ e + 1 < n then some (e + 1 - k) else none
  aggs := List.range k :: (List.range (n - k)).map fun i => [k + i]
  ccon C := (if 0 < C ∧ C < n + 1 - k then [(C - 1, C - 1)] else []) ++ (if C + 1 < n + 1 - k then [(C + 1, C)] else [])
  cflow E _ := flow (E + k - 1)
  ce2d E := if E + 1 < n + 1 - k then some E else none
  rm _ _ _ i j _ _ := if i = j then 1 else -1
  norm x := |x 0|
  junk := (0, 0)

theorem chain_con {n k : ℕ} {vol flow : ℕ → ℚ} {v w e : ℕ} : (w, e) ∈ (chain n k vol flow).con v ↔
    (0 < v ∧ v < n ∧ w = v - 1 ∧ e = v - 1) ∨ (v + 1 < n ∧ w = v + 1 ∧ e = v) := by
  unfold chain
  dsimp only
  rw [List.mem_append]
  split_ifs <;> simp <;> omega

theorem chain_ccon {n k : ℕ} {vol flow : ℕ → ℚ} {C D E : ℕ} : (D, E) ∈ (chain n k vol flow).ccon C ↔
    (0 < C ∧ C < n + 1 - k ∧ D = C - 1 ∧ E = C - 1) ∨ (C + 1 < n + 1 - k ∧ D = C + 1 ∧ E = C) := by
  unfold chain
  dsimp only
  rw [List.mem_append]
  split_ifs <;> simp <;> omega

theorem chain_vmap {n k : ℕ} {vol flow : ℕ → ℚ} {v C : ℕ} : (chain n k vol flow).vmap v = some C ↔
    v < n ∧ ((v < k ∧ C = 0) ∨ (k ≤ v ∧ C = v + 1 - k)) := by
  unfold chain
  dsimp only
  split_ifs <;> simp <;> omega

theorem chain_vmapN {n k : ℕ} {vol flow : ℕ → ℚ} {v : ℕ} : (chain n k vol flow).vmap v = none ↔ n ≤ v := by
  unfold chain
  dsimp only
  split_ifs <;> simp <;> omega

theorem chain_emap {n k : ℕ} {vol flow : ℕ → ℚ} {e E : ℕ} : (chain n k vol flow).emap e = some E ↔ k ≤ e + 1 ∧ e + 1 < n ∧ E = e + 1 - k := by
  unfold chain
  dsimp only
  split_ifs <;> simp <;> omega

theorem chain_aggs {n k : ℕ} {vol flow : ℕ → ℚ} {a : List ℕ} : a ∈ (chain n k vol flow).aggs ↔ a = List.range k ∨ ∃ i, i < n - k ∧ a = [k + i] := by
  unfold chain
  simp [eq_comm]

theorem chain_ok {n k : ℕ} (hk : 0 < k) (hkn : k ≤ n) (vol flow : ℕ → ℚ) : MeshOK (chain n k vol flow) where
  dofs := by
    intro d e
    unfold chain
    dsimp only
    rw [List.getElem?_eq_some_iff]
    split_ifs <;> simp <;> omega
  ends := by
    intro v w e h
    rw [chain_con] at h
    show ((e, e + 1) = (v, w) ∧ v < w) ∨ ((e, e + 1) = (w, v) ∧ w < v)
    simp only [Prod.mk.injEq]
    omega
  symm := by
    intro v w e h
    rw [chain_con] at h ⊢
    omega
  once := by
    intro v
    unfold chain
    dsimp only
    split_ifs <;> simp
    omega
  solid := by
    intro v w e _ h
    rw [chain_con] at h
    unfold chain
    dsimp only
    rw [if_pos (by omega)]
    rfl
  agg := by
    intro a ha
    rw [chain_aggs] at ha
    rcases ha with rfl | ⟨i, hi, rfl⟩
    · refine ⟨0, fun v => ?_⟩
      rw [chain_vmap, List.mem_range]
      omega
    · refine ⟨i + 1, fun v => ?_⟩
      rw [chain_vmap, List.mem_singleton]
      omega
  nodup := by
    intro a ha
    rw [chain_aggs] at ha
    rcases ha with rfl | ⟨i, hi, rfl⟩
    · exact List.nodup_range
    · simp
  disj := by
    unfold chain
    dsimp only
    rw [List.pairwise_cons]
    constructor
    · intro a ha
      rw [List.mem_map] at ha
      obtain ⟨i, _, rfl⟩ := ha
      intro x hx hx'
      rw [List.mem_range] at hx
      rw [List.mem_singleton] at hx'
      omega
    · rw [List.pairwise_map]
      refine List.Pairwise.imp ?_ List.nodup_range
      intro i j hij x hx hx'
      rw [List.mem_singleton] at hx hx'
      omega
  emap := by
    intro v w e C D hc hv hw hne
    rw [chain_con] at hc
    rw [chain_vmap] at hv hw
    refine ⟨e + 1 - k, chain_emap.2 ?_, chain_ccon.2 ?_⟩ <;> omega
  emapN := by
    intro v w e hc h
    rw [chain_con] at hc
    have hh : n ≤ v ∨ (v < k ∧ w < k) := by
      rcases h with h | h
      · exact Or.inl (chain_vmapN.1 h)
      · cases hw : (chain n k vol flow).vmap w with
        | none => rw [hw] at h; exact Or.inl (chain_vmapN.1 h)
        | some C =>
          rw [hw] at h
          rw [chain_vmap] at h hw
          omega
    cases he : (chain n k vol flow).emap e with
    | none => rfl
    | some E =>
      rw [chain_emap] at he
      omega
  cedge := by
    intro C D E h
    rw [chain_ccon] at h
    rcases h with h | h
    · exact ⟨C + k - 1, C + k - 2, C + k - 2, chain_con.2 (by omega), chain_vmap.2 (by omega), chain_emap.2 (by omega)⟩
    · exact ⟨C + k - 1, C + k, C + k - 1, chain_con.2 (by omega), chain_vmap.2 (by omega), chain_emap.2 (by omega)⟩
  conce := by
    intro v
    unfold chain
    dsimp only
    split_ifs <;> simp
    omega
  cinj := by
    intro C x y d _ _ hx hy
    unfold chain at hx hy
    dsimp only at hx hy
    split_ifs at hx hy
    rw [Option.some.inj hx, Option.some.inj hy]

theorem chain_edges {n k : ℕ} (hk : 0 < k) (hkn : k ≤ n) (vol flow : ℕ → ℚ) :
    EdgesOK (chain n k vol flow) (List.range (n - 1)) fun E => (E, E + 1) where
  nodup := List.nodup_range
  all := by
    intro v w e h
    rw [chain_con] at h
    rw [List.mem_range]
    omega
  con := by
    intro e he _
    rw [List.mem_range] at he
    exact chain_con.2 (Or.inr ⟨by show e + 1 < n; omega, rfl, rfl⟩)
  ends := by
    intro C D E h
    rw [chain_ccon] at h
    simp only [Prod.mk.injEq]
    omega

/-- the same with the flows of the coarse edges that `map_data` computes -/
def chainF (n k : ℕ) (vol flow : ℕ → ℚ) : Inp 1 ℚ :=
  { chain n k vol flow with cflow := mapFlow (chain n k vol flow) (1 / 10 ^ 12) (List.range (n - 1)) fun E => (E, E + 1) }

theorem chainF_ok {n k : ℕ} (hk : 0 < k) (hkn : k ≤ n) (vol flow : ℕ → ℚ) : MeshOK (chainF n k vol flow) :=
  let h := chain_ok hk hkn vol flow
  ⟨h.dofs, h.ends, h.symm, h.once, h.solid, h.agg, h.nodup, h.disj, h.emap, h.emapN, h.cedge, h.conce, h.cinj⟩

theorem chainF_edges {n k : ℕ} (hk : 0 < k) (hkn : k ≤ n) (vol flow : ℕ → ℚ) :
    EdgesOK (chainF n k vol flow) (List.range (n - 1)) fun E => (E, E + 1) :=
  let h := chain_edges hk hkn vol flow
  ⟨h.nodup, h.all, h.con, h.ends⟩

theorem chainF_run {n k : ℕ} (hk : 0 < k) (hkn : k ≤ n) (vol flow : ℕ → ℚ)
    (hu : IsUnit (matM (chainF n k vol flow) (List.range k) (facets (chainF n k vol flow) (List.range k) 0)).det) : RunOK (chainF n k vol flow) where
  ghosts := fun _ _ _ _ _ _ => rfl
  diri := fun _ _ h => by cases h
  weird := by
    intro e he _
    have he : e ∈ List.range (n - 1) := he
    rw [List.mem_range] at he
    refine Or.inl fun h => ?_
    have h : (chain n k vol flow).vmap e = none := h
    rw [chain_vmapN] at h
    omega
  cdof := by
    intro e he E h
    have h : (chain n k vol flow).emap e = some E := h
    rw [chain_emap] at h
    show (if E + 1 < n + 1 - k then some E else none) ≠ none
    rw [if_pos (by omega)]
    simp
  unit := by
    intro a ha cv hcv _ hlen _ _
    have ha : a ∈ (chain n k vol flow).aggs := ha
    rw [chain_aggs] at ha
    rcases ha with rfl | ⟨i, _, rfl⟩
    · have h0 : (chain n k vol flow).vmap 0 = some cv := (hcv 0).1 (List.mem_range.2 hk)
      rw [chain_vmap] at h0
      obtain rfl : cv = 0 := by omega
      exact hu
    · simp at hlen

/-- an index into a table of numbers -/
def unkIdx {I : Inp 1 ℚ} {a : List ℕ} {fs : List (ℕ × Bool)} : Unk I a fs → ℕ
  | .inl p => p.1.val
  | .inr r => (ffiinds fs).length + r.val

/-- a table as a matrix -/
def tabM (I : Inp 1 ℚ) (a : List ℕ) (fs : List (ℕ × Bool)) (t : List (List ℚ)) : Matrix (Unk I a fs) (Unk I a fs) ℚ :=
  fun p q => (t.getD (unkIdx p) []).getD (unkIdx q) 0

theorem unit_of_tab {I : Inp 1 ℚ} {a : List ℕ} {fs : List (ℕ × Bool)} (t : List (List ℚ)) (h : ∀ p q : Unk I a fs, ∑ r, tabM I a fs t p r * matM I a fs r q = if p = q then (1 : ℚ) else 0) :
    IsUnit (matM I a fs).det := by
  have h : tabM I a fs t * matM I a fs = 1 := by
    ext p q
    rw [Matrix.mul_apply, Matrix.one_apply]
    exact h p q
  exact Matrix.isUnit_det_of_left_inverse h

/-- four vertices of volumes 1, 2, 1, 1 -/
def ex1 : Inp 1 ℚ := chainF 4 3 (fun v => if v = 1 then 2 else 1) fun _ => 1

theorem ex1_ok : MeshOK ex1 := chainF_ok (by decide) (by decide) _ _

theorem ex1_unit : IsUnit (matM ex1 (List.range 3) (facets ex1 (List.range 3) 0)).det :=
  unit_of_tab [[0, 0, 9/4, -3/4, -3/4, 0], [0, 0, 3/4, 3/4, -9/4, 0], [9/4, 3/4, -45/16, 27/16, -9/16, 3/4], [-3/4, 3/4, 27/16, -45/16, 63/16, 3/4],
    [-3/4, -9/4, -9/16, 63/16, -117/16, 3/4], [0, 0, 3/4, 3/4, 3/4, 0]] (by decide +kernel)

theorem agg0 {n k : ℕ} (hk : 0 < k) (hkn : k ≤ n) {vol flow : ℕ → ℚ} (v : ℕ) : v ∈ List.range k ↔ (chainF n k vol flow).vmap v = some 0 := by
  show _ ↔ (chain n k vol flow).vmap v = some 0
  rw [chain_vmap, List.mem_range]
  omega

/-- the hypotheses of `prol_total` hold for a concrete mesh -/
example : ∃ P, prol ex1 = some P := prol_total ex1_ok (chainF_run (by decide) (by decide) _ _ ex1_unit)

/-- those of `flow_ok` -/
theorem ex1_flow : FlowOK ex1 (List.range 3) 0 :=
  flow_ok ex1_ok (chainF_edges (by decide) (by decide) _ _) (1 / 10 ^ 12) (fun _ => rfl) List.mem_cons_self (agg0 (by decide) (by decide)) (by
    intro D E hD
    have hD : (D, E) ∈ [(1, 0)] := hD
    rw [List.mem_singleton, Prod.mk.injEq] at hD
    obtain ⟨rfl, rfl⟩ := hD
    intro h
    exact absurd h (by decide +kernel))

/-- those of `div_const`: the coarse field of value 1 has outflow 1 from the agglomerate, a quarter per unit of volume -/
example : ∃ P, prol ex1 = some P ∧ netFlow ex1.con ex1.flow (edgeVal P ex1.e2d fun _ _ => 1) 0 = 1 / 4 ∧
    netFlow ex1.con ex1.flow (edgeVal P ex1.e2d fun _ _ => 1) 1 = 1 / 2 := by
  obtain ⟨P, hP⟩ := prol_total ex1_ok (chainF_run (by decide) (by decide) _ _ ex1_unit)
  have key := fun v (hv : v ∈ List.range 3) => div_const ex1_ok hP List.mem_cons_self (agg0 (by decide) (by decide)) (fun _ _ => rfl)
    (by decide +kernel) (fun _ => ⟨0, 1, 0, by decide, by decide, by decide +kernel⟩) ex1_flow (fun _ _ => 1) hv
  have hs : ((List.range 3).map ex1.vol).sum = 4 := by decide +kernel
  have hc : netFlow ex1.ccon ex1.cflow (onEdges ex1 fun _ _ => 1) 0 = 1 := by decide +kernel
  have h0 := key 0 (by decide)
  have h1 := key 1 (by decide)
  rw [hs, hc] at h0 h1
  have v0 : ex1.vol 0 = 1 := by decide +kernel
  have v1 : ex1.vol 1 = 2 := by decide +kernel
  rw [v0] at h0
  rw [v1] at h1
  exact ⟨P, hP, by linarith, by linarith⟩

/-- the first vertex has volume zero, its only edge has no flow -/
def ex2 : Inp 1 ℚ := chainF 4 3 (fun v => if v = 0 then 0 else 1) fun e => if e = 0 then 0 else 1

theorem ex2_ok : MeshOK ex2 := chainF_ok (by decide) (by decide) _ _

theorem ex2_unit : IsUnit (matM ex2 (List.range 3) (facets ex2 (List.range 3) 0)).det :=
  unit_of_tab [[1, 0, 1, 0, 0], [0, 0, 1, 0, 0], [1, 1, -1, 0, 1], [0, 0, 0, 0, 1], [0, 0, 1, 1, 0]] (by decide +kernel)

/-- **C101, refuted**: in an agglomerate with a vertex of volume zero (first in the list, with one edge, which has no flow) the divergence of the
prolonged field is not constant on the other vertices: vertices 1 and 2 have the same volume, and net flow 0 and 1 -/
theorem zero_vol_not_const : ∃ P, prol ex2 = some P ∧ FlowOK ex2 (List.range 3) 0 ∧ ex2.vol 1 = 1 ∧ ex2.vol 2 = 1 ∧
    netFlow ex2.ccon ex2.cflow (onEdges ex2 fun _ _ => 1) 0 = 1 ∧
    netFlow ex2.con ex2.flow (edgeVal P ex2.e2d fun _ _ => 1) 1 = 0 ∧ netFlow ex2.con ex2.flow (edgeVal P ex2.e2d fun _ _ => 1) 2 = 1 := by
  obtain ⟨P, hP⟩ := prol_total ex2_ok (chainF_run (by decide) (by decide) _ _ ex2_unit)
  have hfl : FlowOK ex2 (List.range 3) 0 := by
    unfold FlowOK
    decide +kernel
  have hag : ∀ v, v ∈ List.range 3 ↔ ex2.vmap v = some 0 := agg0 (by decide) (by decide)
  obtain ⟨lam, hl⟩ := div_shift ex2_ok hP List.mem_cons_self hag (fun _ _ => rfl) (by decide +kernel)
    (by decide +kernel) ⟨0, 0, 1, by decide, by decide, by decide +kernel⟩ ⟨2, 3, 2, by decide, by decide +kernel, by decide⟩ (fun _ _ => 1)
  have h1 : netFlow ex2.con ex2.flow (edgeVal P ex2.e2d fun _ _ => 1) 1 = 0 := by
    rw [hl 0 1 (by decide +kernel)]
    have : ex2.vol ((List.range 3).getD 0 0) = 0 := by decide +kernel
    rw [this, mul_zero]
  have hc : netFlow ex2.ccon ex2.cflow (onEdges ex2 fun _ _ => 1) 0 = 1 := by decide +kernel
  have hsum := sum_netFlow ex2_ok List.nodup_range hag hfl (edgeVal P ex2.e2d fun _ _ => 1) (onEdges ex2 fun _ _ => 1)
    fun v w e hv hcn hw => exterior_val ex2_ok hP List.mem_cons_self hag (fun _ _ => rfl) (fun _ _ => 1) hv hcn hw
  have h0 : netFlow ex2.con ex2.flow (edgeVal P ex2.e2d fun _ _ => 1) 0 = 0 := by
    have hcon : ex2.con 0 = [(1, 0)] := by decide +kernel
    have hf : ∀ l, ex2.flow 0 l = 0 := by decide +kernel
    unfold netFlow
    rw [hcon]
    simp [hf]
  rw [hc] at hsum
  have hr : List.range 3 = [0, 1, 2] := rfl
  rw [hr] at hsum
  simp only [List.map_cons, List.map_nil, List.sum_cons, List.sum_nil, h0, h1] at hsum
  exact ⟨P, hP, hfl, by decide +kernel, by decide +kernel, hc, h1, by linarith⟩

/-- one vertex of positive volume, and one of volume zero whose only edge has no flow -/
def ex3 : Inp 1 ℚ := chainF 3 2 (fun v => if v = 0 then 0 else 1) fun e => if e = 0 then 0 else 1

/-- **C101, refuted**: an agglomerate of one vertex of positive volume and one of volume zero has a singular local problem, the matrix that is inverted
has a zero row -/
theorem zero_vol_singular : MeshOK ex3 ∧ (∀ q, matM ex3 [0, 1] (facets ex3 [0, 1] 0) (.inr ⟨0, by decide +kernel⟩) q = 0) ∧ prol ex3 = none := by
  have hO : MeshOK ex3 := chainF_ok (by decide) (by decide) _ _
  have hrow : ∀ q, matM ex3 [0, 1] (facets ex3 [0, 1] 0) (.inr ⟨0, by decide +kernel⟩) q = 0 := by decide +kernel
  refine ⟨hO, hrow, ?_⟩
  cases hP : prol ex3 with
  | none => rfl
  | some P =>
    have hag : ∀ v, v ∈ List.range 2 ↔ ex3.vmap v = some 0 := agg0 (by decide) (by decide)
    obtain ⟨_, hu, _⟩ := local_solve hO hP (a := List.range 2) List.mem_cons_self hag (fun _ _ => rfl) (by decide)
      ⟨0, 0, 1, by decide, by decide, by decide +kernel⟩ ⟨1, 2, 1, by decide, by decide +kernel, by decide⟩ (fun _ _ => 1)
    exact absurd (Matrix.det_eq_zero_of_row_eq_zero _ hrow) hu.ne_zero

/-- the first vertex is an outflow -/
def ex4 : Inp 1 ℚ := chainF 4 3 (fun v => if v = 0 then -1 else 1) fun _ => 1

/-- the hypotheses of `div_outflow` hold for a concrete mesh -/
example : ∃ P, prol ex4 = some P ∧ netFlow ex4.con ex4.flow (edgeVal P ex4.e2d fun _ _ => 1) 2 = 0 := by
  have hO : MeshOK ex4 := chainF_ok (by decide) (by decide) _ _
  obtain ⟨P, hP⟩ := prol_total hO (chainF_run (by decide) (by decide) _ _ (unit_of_tab [[0, 0, -3/2, -3/2], [0, 0, 0, -3/2], [-3/2, 0, -9/4, 0], [-3/2, -3/2, 0, -9/4]] (by decide +kernel)))
  exact ⟨P, hP, div_outflow hO hP List.mem_cons_self (agg0 (by decide) (by decide)) (fun _ _ => rfl) ⟨0, 1, 0, by decide, by decide, by decide +kernel⟩
    (o := 0) (by decide) (by decide +kernel) _ (by decide) (by decide +kernel)⟩

/-- a Dirichlet edge between two agglomerates -/
example : prol { ex1 with free := fun e => decide (e ≠ 2) } = none := diri_mapped (d := 2) (e := 2) (E := 0) (by decide +kernel) (by decide) (by decide +kernel)

/-- volumes, in order and with a zero -/
example : mapVol ex1 (List.range 4) 0 = 4 ∧ mapVol ex2 [0, 1, 2] 0 = 2 ∧ mapVol ex2 [1, 2, 0] 0 = 0 := by decide +kernel

end NgsAMG.NCProl
