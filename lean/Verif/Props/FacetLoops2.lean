import Verif.Props.FacetLoops1
import Verif.Props.RedTab3

/-!
# Facet loops 2: **C106**, loops of all processes
-/

namespace NgsAMG.LSort

open NgsAMG.Exch NgsAMG.EQC NgsAMG.RedTab

variable {K : Type}

/-- specification: the distant processes of the shared loops of a process, in the order of the process -/
def PLoops.sharedDps (P : PLoops) : List (List ℕ) := (exs P.dps P.nRows).map P.dps

/-- specification: the part of a loop (row `r`) a process has, as pairs of coded vertices -/
def PLoops.part (P : PLoops) (r : ℕ) : List (GV × GV) := (encodeLoop P.f2e P.edge P.code (P.data r)).getD []

/-- specification: the parts of the shared loops -/
def PLoops.shared (P : PLoops) : List (List (GV × GV)) := (exs P.dps P.nRows).map P.part

/-- specification of the input: `key p k` says which loop the `k`-th shared loop of process `p` is; all processes of a loop have a row for it and have
their common loops in the same order (`rows`). The facets have edges; the loops, shared ones with the parts of all their processes, are simple and closed. -/
structure Setting (np : ℕ) (P : ℕ → PLoops) (key : ℕ → ℕ → K) : Prop where
  rows : Rows np (fun p => (P p).sharedDps) key
  loc : ∀ p < np, ∀ r < (P p).nRows, (P p).dps r = [] → ∃ es, ((P p).data r).mapM (P p).f2e = some es ∧ es ≠ [] ∧
    Cycle (fun e => ((P p).edge e).1) (fun e => ((P p).edge e).2) es
  enc : ∀ p < np, ∀ r < (P p).nRows, (P p).dps r ≠ [] → ∀ f ∈ (P p).data r, ((P p).f2e f).isSome
  cyc : ∀ p < np, ∀ (k : ℕ) (d : List ℕ), (P p).sharedDps[k]? = some d → ∀ parts,
    RowsWithKey key (fun q => (P q).shared) (key p k) ((p :: d).insertionSort (· ≤ ·)) parts →
      parts.flatten ≠ [] ∧ Cycle Prod.fst Prod.snd parts.flatten

theorem encodeLoop_some (f2e : ℕ → Option ℕ) (edge : ℕ → ℕ × ℕ) (code : ℕ → GV) (facets : List ℕ) (h : ∀ f ∈ facets, (f2e f).isSome) :
    encodeLoop f2e edge code facets = some ((encodeLoop f2e edge code facets).getD []) ∧
      ((encodeLoop f2e edge code facets).getD []).length = facets.length := by
  unfold encodeLoop
  induction facets with
  | nil => exact ⟨rfl, rfl⟩
  | cons f l ih =>
    obtain ⟨h1, h2⟩ := ih fun g hg => h g (by simp [hg])
    obtain ⟨e, he⟩ := Option.isSome_iff_exists.1 (h f (by simp))
    rw [List.mapM_cons, he]
    rw [h1]
    simp [h2]

theorem exDps_eq (P : PLoops) : P.exDps = P.sharedDps := encodeDps_eq _ _ _

variable {np : ℕ} {P : ℕ → PLoops} {key : ℕ → ℕ → K}

theorem table_eq (hS : Setting np P key) {p : ℕ} (hp : p < np) : (P p).table = some (P p).shared := by
  refine encodeTable_eq _ _ _ _ _ fun r hr => ?_
  obtain ⟨h1, h2⟩ := mem_exs.1 hr
  exact encodeLoop_some _ _ _ _ (hS.enc p hp r h1 h2)

theorem rowsWithKey_congr {T : Type} {tab tab' : ℕ → List (List T)} {κ : K} {procs : List ℕ} {ins : List (List T)}
    (h : RowsWithKey key tab κ procs ins) (ht : ∀ q ∈ procs, tab q = tab' q) : RowsWithKey key tab' κ procs ins := by
  unfold RowsWithKey at *
  induction h with
  | nil => exact List.Forall₂.nil
  | @cons r row procs ins hr _ ih =>
    refine List.Forall₂.cons ?_ (ih fun q hq => ht q (by simp [hq]))
    rw [← ht r (by simp)]; exact hr

theorem rowsWithKey_unique {T : Type} {tab : ℕ → List (List T)} {κ : K} {procs : List ℕ} {ins ins' : List (List T)}
    (hinj : ∀ q ∈ procs, ∀ k l, k < (tab q).length → l < (tab q).length → key q k = key q l → k = l)
    (h : RowsWithKey key tab κ procs ins) (h' : RowsWithKey key tab κ procs ins') : ins = ins' := by
  unfold RowsWithKey at *
  induction h generalizing ins' with
  | nil => cases h'; rfl
  | @cons r row procs ins hr _ ih =>
    cases h' with
    | @cons _ row' _ ins' hr' h' =>
      obtain ⟨j, k1, k2⟩ := hr
      obtain ⟨j', k1', k2'⟩ := hr'
      have := hinj r (by simp) j j' (List.getElem?_eq_some_iff.1 k2).1 (List.getElem?_eq_some_iff.1 k2').1 (k1.trans k1'.symm)
      subst this
      rw [k2] at k2'
      cases k2'
      rw [ih (fun q hq => hinj q (by simp [hq])) h']

/-- the whole loop of the processes `procs` with this key -/
noncomputable def wholeLoop (P : ℕ → PLoops) (key : ℕ → ℕ → K) (κ : K) (procs : List ℕ) : List (GV × GV) :=
  open Classical in
  if h : ∃ ins, RowsWithKey key (fun q => (P q).shared) κ procs ins then (reduceLoops h.choose).getD [] else []

theorem shared_length (P : PLoops) : P.shared.length = P.sharedDps.length := by simp [PLoops.shared, PLoops.sharedDps]

/-- **C106.** In every execution, when all processes are finished: no message is left over; every process has a table of loops and one of distant processes
with aligned rows, first the loops it has alone, then the shared ones. Loops of one process are closed walks over every edge of the loop once. For every
shared loop there is one closed walk over the edges of the parts of all its processes, the same for all of them, and every process has its part of that. -/
theorem facetLoops_correct (hS : Setting np P key) {n : ℕ} {s : Exch.St (Loc (GV × GV) (GV × GV)) (Msg (GV × GV) (GV × GV))}
    (h : DReach np (loopProg np P) (fun _ => {}) n s) (hf : DFinal np (loopProg np P) s) :
    (∀ i, ∀ p < np, ∀ q < np, s.chan i p q = none) ∧
    ∃ G : ℕ → ℕ → List (GV × GV),
      (∀ p < np, (s.vec p).ok = true ∧ ∃ red out, (s.vec p).out = red.map some ∧
        (P p).finish red = some (out, (locs (P p).dps (P p).nRows).map (fun _ => []) ++ (P p).sharedDps) ∧ out.length = (P p).nRows ∧
        (∀ (i r : ℕ), (locs (P p).dps (P p).nRows)[i]? = some r → ∃ codes es a, out[i]? = some codes ∧ ((P p).data r).mapM (P p).f2e = some es ∧
          (codes.map fun c => c.natAbs - 1).Perm es ∧ Walk (codeSrc (P p).edge) (codeTgt (P p).edge) a codes a) ∧
        ∀ (k : ℕ) (d : List ℕ), (P p).sharedDps[k]? = some d →
          out[(locs (P p).dps (P p).nRows).length + k]? = some (decodeLoop (P p).vert (P p).ghost (P p).econ (G p k)) ∧
          (∃ parts, RowsWithKey key (fun q => (P q).shared) (key p k) ((p :: d).insertionSort (· ≤ ·)) parts ∧ Turned Prod.swap parts.flatten (G p k)) ∧
          ∃ a, Walk Prod.fst Prod.snd a (G p k) a) ∧
      ∀ p < np, ∀ (k : ℕ) (d : List ℕ), (P p).sharedDps[k]? = some d → ∀ q ∈ d, ∀ l < (P q).sharedDps.length, key q l = key p k → G q l = G p k := by
  have hdps : (fun p => (P p).exDps) = fun p => (P p).sharedDps := funext fun p => exDps_eq (P p)
  unfold loopProg at h hf
  rw [hdps] at h hf
  have htab : ∀ p < np, ((P p).table.getD []).length = (P p).sharedDps.length := by
    intro p hp
    rw [table_eq hS hp, Option.getD_some, shared_length]
  obtain ⟨h1, h2⟩ := reduceTable_correct hS.rows (fun p => (P p).table.getD []) (fun _ _ ins => (reduceLoops ins).getD []) htab h hf
  have procs_lt : ∀ p < np, ∀ (k : ℕ) (d : List ℕ), (P p).sharedDps[k]? = some d → ∀ q ∈ (p :: d).insertionSort (· ≤ ·), q < np := by
    intro p hp k d hk q hq
    rw [List.mem_insertionSort, List.mem_cons] at hq
    rcases hq with rfl | hq
    · exact hp
    · exact (hS.rows.valid p hp d (List.mem_of_getElem? hk)).range q hq
  refine ⟨h2, fun p k => wholeLoop P key (key p k) ((p :: (P p).sharedDps.getD k []).insertionSort (· ≤ ·)), ?_, ?_⟩
  · intro p hp
    obtain ⟨hok, hlen, hred⟩ := h1 p hp
    refine ⟨hok, ?_⟩
    -- every shared loop
    have key1 : ∀ (k : ℕ) (d : List ℕ), (P p).sharedDps[k]? = some d → ∃ parts g a,
        RowsWithKey key (fun q => (P q).shared) (key p k) ((p :: d).insertionSort (· ≤ ·)) parts ∧
        wholeLoop P key (key p k) ((p :: (P p).sharedDps.getD k []).insertionSort (· ≤ ·)) = g ∧
        (s.vec p).out[k]? = some (some g) ∧ Turned Prod.swap parts.flatten g ∧ Walk Prod.fst Prod.snd a g a := by
      intro k d hk
      obtain ⟨m, l, ins, -, -, -, -, hr, ho⟩ := hred k d hk
      have hr' : RowsWithKey key (fun q => (P q).shared) (key p k) ((p :: d).insertionSort (· ≤ ·)) ins :=
        rowsWithKey_congr hr fun q hq => by rw [table_eq hS (procs_lt p hp k d hk q hq)]; rfl
      obtain ⟨c1, c2⟩ := hS.cyc p hp k d hk ins hr'
      obtain ⟨g, a, g1, g2, g3⟩ := reduceLoops_closed ins c1 c2
      refine ⟨ins, g, a, hr', ?_, ?_, g2, g3⟩
      · have hd : (P p).sharedDps.getD k [] = d := by rw [List.getD_eq_getElem?_getD, hk]; rfl
        have hex : ∃ ins, RowsWithKey key (fun q => (P q).shared) (key p k) ((p :: d).insertionSort (· ≤ ·)) ins := ⟨ins, hr'⟩
        rw [hd, wholeLoop, dif_pos hex, rowsWithKey_unique (fun q hq k' l' hk' hl' hh => ?_) hex.choose_spec hr', g1]
        · rfl
        · rw [shared_length] at hk' hl'
          exact hS.rows.inj q (procs_lt p hp k d hk q hq) k' l' hk' hl' hh
      · rw [ho]; simp only; rw [g1]; rfl
    have hredd : ∃ red : List (List (GV × GV)), (s.vec p).out = red.map some := by
      refine ⟨(s.vec p).out.map fun o => o.getD [], ?_⟩
      apply List.ext_getElem
      · simp
      · intro k hk hk'
        have hk2 : k < (P p).sharedDps.length := by rw [← hlen]; exact hk
        obtain ⟨parts, g, a, -, -, ho, -⟩ := key1 k _ (List.getElem?_eq_getElem hk2)
        have := (List.getElem?_eq_some_iff.1 ho).2
        simp [this]
    obtain ⟨red, hredd⟩ := hredd
    have hrl : red.length = (exs (P p).dps (P p).nRows).length := by
      have := hlen
      rw [hredd] at this
      simpa [PLoops.sharedDps] using this
    have hloc : ∀ r ∈ locs (P p).dps (P p).nRows, ∃ codes es a, localLoop (P p).f2e (P p).edge ((P p).data r) = some codes ∧
        ((P p).data r).mapM (P p).f2e = some es ∧ (codes.map fun c => c.natAbs - 1).Perm es ∧ Walk (codeSrc (P p).edge) (codeTgt (P p).edge) a codes a := by
      intro r hr
      obtain ⟨r1, r2⟩ := mem_locs.1 hr
      obtain ⟨es, e1, e2, e3⟩ := hS.loc p hp r r1 r2
      obtain ⟨codes, a, k1, k2, -, k4⟩ := localLoop_closed _ _ _ es e1 e2 e3
      exact ⟨codes, es, a, k1, e1, k2, k4⟩
    have hmapM : ∀ (f : ℕ → Option ℕ) (l es : List ℕ), l.mapM f = some es → es.length = l.length := by
      intro f l
      induction l with
      | nil => intro es h; simp at h; subst h; rfl
      | cons x l ih =>
        intro es h
        simp only [List.mapM_cons, Option.bind_eq_bind, Option.bind_eq_some_iff, Option.pure_def, Option.some.injEq] at h
        obtain ⟨e, -, es', h2, rfl⟩ := h
        simp [ih es' h2]
    have hout := outTable_eq (P p).data (P p).dps (localLoop (P p).f2e (P p).edge) (decodeLoop (P p).vert (P p).ghost (P p).econ) (P p).nRows red hrl
      (fun r => (localLoop (P p).f2e (P p).edge ((P p).data r)).getD []) (by
        intro r hr
        obtain ⟨codes, es, a, k1, k2, k3, -⟩ := hloc r hr
        rw [k1]
        refine ⟨rfl, ?_⟩
        have := k3.length_eq
        rw [List.length_map, hmapM _ _ _ k2] at this
        exact this)
    refine ⟨red, (locs (P p).dps (P p).nRows).map (fun r => (localLoop (P p).f2e (P p).edge ((P p).data r)).getD []) ++
      red.map (decodeLoop (P p).vert (P p).ghost (P p).econ), hredd, ?_, ?_, ?_, ?_⟩
    · rw [PLoops.finish, hout, Option.bind_some, dpsTable_eq]
      rfl
    · have := length_add (P p).dps (P p).nRows
      simp; omega
    · intro i r hi
      obtain ⟨codes, es, a, k1, k2, k3, k4⟩ := hloc r (List.mem_of_getElem? hi)
      refine ⟨codes, es, a, ?_, k2, k3, k4⟩
      have hlt := (List.getElem?_eq_some_iff.1 hi).1
      rw [List.getElem?_append_left (by simpa using hlt), List.getElem?_map, hi, Option.map_some, k1]
      rfl
    · intro k d hk
      obtain ⟨parts, g, a, k1, k2, k3, k4, k5⟩ := key1 k d hk
      simp only [k2]
      refine ⟨?_, ⟨parts, k1, k4⟩, a, k5⟩
      rw [hredd, List.getElem?_map, Option.map_eq_some_iff] at k3
      obtain ⟨g', k3, hg⟩ := k3
      cases hg
      rw [List.getElem?_append_right (by simp), List.length_map, Nat.add_sub_cancel_left, List.getElem?_map, k3]
      rfl
  · intro p hp k d hk q hq l hl hkey
    obtain ⟨l', e, g1, g2, g3⟩ := hS.rows.partner p hp k d hk q hq
    have hqn : q < np := (hS.rows.valid p hp d (List.mem_of_getElem? hk)).range q hq
    have hll : l = l' := hS.rows.inj q hqn l l' hl (List.getElem?_eq_some_iff.1 g1).1 (hkey.trans g2.symm)
    subst hll
    have hd : (P p).sharedDps.getD k [] = d := by rw [List.getD_eq_getElem?_getD, hk]; rfl
    have he : (P q).sharedDps.getD l [] = e := by rw [List.getD_eq_getElem?_getD, g1]; rfl
    simp only
    rw [hd, he, hkey]
    congr 1
    have hv := hS.rows.valid p hp d (List.mem_of_getElem? hk)
    have hve := hS.rows.valid q hqn e (List.mem_of_getElem? g1)
    refine sl_ext (sl_insertionSort ?_) (sl_insertionSort ?_) ?_
    · exact List.nodup_cons.mpr ⟨hve.notSelf, hve.sorted.imp fun h => Nat.ne_of_lt h⟩
    · exact List.nodup_cons.mpr ⟨hv.notSelf, hv.sorted.imp fun h => Nat.ne_of_lt h⟩
    · intro x
      rw [List.mem_insertionSort, List.mem_insertionSort, List.mem_cons, List.mem_cons, ← mem_members, ← mem_members, g3]

/-- **C106.** The communication does not block. -/
theorem facetLoops_no_deadlock (hS : Setting np P key) {n : ℕ} {s : Exch.St (Loc (GV × GV) (GV × GV)) (Msg (GV × GV) (GV × GV))}
    (h : DReach np (loopProg np P) (fun _ => {}) n s) (hf : ¬ DFinal np (loopProg np P) s) : ∃ t, DStep np (loopProg np P) s t := by
  have hdps : (fun p => (P p).exDps) = fun p => (P p).sharedDps := funext fun p => exDps_eq (P p)
  unfold loopProg at h hf ⊢
  rw [hdps] at h hf ⊢
  exact reduceTable_no_deadlock hS.rows _ _ (fun p hp => by rw [table_eq hS hp, Option.getD_some, shared_length]) h hf

/-- **C106.** The communication ends. -/
theorem facetLoops_terminates (hS : Setting np P key) {n : ℕ} {s : Exch.St (Loc (GV × GV) (GV × GV)) (Msg (GV × GV) (GV × GV))}
    (h : DReach np (loopProg np P) (fun _ => {}) n s) : n ≤ 16 * np := by
  have hdps : (fun p => (P p).exDps) = fun p => (P p).sharedDps := funext fun p => exDps_eq (P p)
  unfold loopProg at h
  rw [hdps] at h
  exact reduceTable_terminates hS.rows _ _ (fun p hp => by rw [table_eq hS hp, Option.getD_some, shared_length]) h

/-- **C106 (divergence).** The part of a closed walk decoded on a process enters every vertex that is not a ghost, and whose neighbors in the loop are known,
as often as it leaves it. -/
theorem decoded_divergence_free {loop : List (GV × GV)} {a : GV} (hw : Walk Prod.fst Prod.snd a loop a) (vert : GV → Option ℕ) (ghost : ℕ → Bool)
    (econ : ℕ → ℕ → ℕ) (edge : ℕ → ℕ × ℕ) (hK : Knows vert ghost econ edge loop) (g : GV) (v : ℕ) (hg : vert g = some v) (hng : ghost v = false)
    (hn : ∀ t ∈ loop, (t.1 = g → (vert t.2).isSome) ∧ (t.2 = g → (vert t.1).isSome)) :
    boundary (codeSrc edge) (codeTgt edge) (decodeLoop vert ghost econ loop) v = 0 := by
  rw [decode_boundary vert ghost econ edge loop hK g v hg hng hn, hw.boundary_eq]
  simp

end NgsAMG.LSort
