import Verif.Props.MISAgg4
import Verif.Props.CoarseMap6

/-!
# C91: the agglomerates of all processes are what the coarse map asks for; counterexamples; examples
-/

namespace NgsAMG.MIS
open NgsAMG.CMap NgsAMG.Spec NgsAMG.EQC NgsAMG.BTM

/-- the input of `FormAgglomerates` on process `p` belongs to the mesh: vertex classes, `IsLEQ`, `IsMasterOfEQC`; the whole of the vertices -/
structure OfMesh (p : ℕ) (C : Ctx) (E : Env) : Prop where
  nv : E.nv = C.nv
  eq : ∀ v < C.nv, C.eqcV v = some (E.eq v)
  leq : E.leq = isLEQ C.T
  master : ∀ k d, C.T[k]? = some d → E.master k = isMaster p d
  solid : E.solid = none
  fixed : E.fixed = []
  free : ∀ v, C.nv ≤ v → E.free v = false

/-- **the link to C75**: agglomerates of the MIS algorithm on every process of a distributed mesh, formed by each process alone without communication, satisfy everything that the construction of the coarse
vertex map asks for -/
theorem aggs_ok {np : ℕ} {C : ℕ → Ctx} (hM : Mesh np C) {E : ℕ → Env} {aggs : ℕ → List Agg} {v2a : ℕ → ℕ → Option ℕ} (hO : ∀ p < np, OfMesh p (C p) (E p))
    (hF : ∀ p < np, Formed (E p) (aggs p) (v2a p)) : AggsOK np C aggs fun p => (List.range (C p).nv).map (v2a p) := by
  have hlt : ∀ p < np, ∀ g ∈ aggs p, ∀ v ∈ g.mems, v < (C p).nv := by
    intro p hp g hg v hv
    by_contra hge
    have h1 := (hF p hp).none v ((hO p hp).free v (by omega)) (by rw [(hO p hp).fixed]; simp)
    obtain ⟨a, ha⟩ := List.mem_iff_getElem?.1 hg
    rw [((hF p hp).disj.mem v a).2 ⟨g, ha, hv⟩] at h1
    cases h1
  refine ⟨fun p hp => by simp, ?_, fun p hp => (hF p hp).disj.cen, ?_⟩
  · intro p hp v a
    rw [← (hF p hp).disj.mem]
    rw [List.getElem?_map]
    rcases lt_or_ge v (C p).nv with hv | hv
    · rw [List.getElem?_range hv]
      simp
    · rw [List.getElem?_eq_none (by simpa using hv)]
      have h1 := (hF p hp).none v ((hO p hp).free v hv) (by rw [(hO p hp).fixed]; simp)
      simp [h1]
  · intro p hp g hg v hv S r S' r' hS hS'
    have o := hO p hp
    obtain ⟨cs, fs, e, hfs, hcs⟩ := (hF p hp).parts
    rw [o.fixed] at hfs
    cases hfs
    rw [List.append_nil] at e
    rw [e] at hg
    have hgp : g ∈ aggs p := by rw [e]; exact hg
    have hc := (hF p hp).disj.cen g hgp
    have h1 := hcs g hg v hv
    have h2 := hcs g hg g.center hc
    obtain ⟨k, a, b, d, c1, c2, c3⟩ := hS
    obtain ⟨k', a', b', d', c1', c2', c3'⟩ := hS'
    have hk : (C p).eqcV v = some k := (eqcV_iff hM hp (hlt p hp g hgp v hv)).2 ⟨d, r, c1, k, a, b, d, c1, rfl, c3⟩
    have hk' : (C p).eqcV g.center = some k' := (eqcV_iff hM hp (hlt p hp g hgp _ hc)).2 ⟨d', r', c1', k', a', b', d', c1', rfl, c3'⟩
    rw [o.eq v (hlt p hp g hgp v hv), Option.some.injEq] at hk
    rw [o.eq _ (hlt p hp g hgp _ hc), Option.some.injEq] at hk'
    subst c2 c2'
    have hfam := hM.tabs.ok p hp
    constructor
    · have := h1.2.1
      rw [o.leq, hk, hk'] at this
      exact (isLEQ_iff hfam c1 c1').1 this
    · have := h2.2.2.2.2.1 o.solid
      rw [hk', o.master k' d' c1'] at this
      exact (isMaster_members (hfam.2 d' (List.mem_of_getElem? c1'))).1 this

/-! ### counterexamples -/

/-- all tests succeed; everything on one process -/
def env1 (nv : ℕ) (nb : ℕ → List ℕ) (free : ℕ → Bool) (fixed : List (List ℕ)) (dist2 : Bool) (soc : ℕ → Bool) : Env where
  nv := nv
  nb := nb
  eq _ := 0
  leq _ _ := true
  master _ := true
  solid := none
  free := free
  fixed := fixed
  dist2 := dist2
  verts := List.range nv
  soc := soc
  ord _ l := l
  srt f l := l.insertionSort fun a b => f a ≤ f b
  pick _ _ := 0

theorem env1_ok {nv : ℕ} {nb : ℕ → List ℕ} {free : ℕ → Bool} {fixed : List (List ℕ)} {dist2 : Bool} {soc : ℕ → Bool} (h1 : ∀ v, (nb v).Nodup) (h2 : ∀ v, v ∉ nb v) (h3 : ∀ v w, w ∈ nb v → v ∈ nb w) :
    EnvOK (env1 nv nb free fixed dist2 soc) where
  nodup := h1
  irrefl := h2
  symm := h3
  refl _ := rfl
  trans _ _ _ _ _ := rfl
  ord _ _ := List.Perm.refl _
  srt _ _ := List.perm_insertionSort _ _
  pick _ _ h := h

/-- a graph with finitely many vertices, given by the list of its rows -/
def rowsNb (rows : List (List ℕ)) (v : ℕ) : List ℕ := rows.getD v []

theorem rowsNb_ok {rows : List (List ℕ)} (h : ∀ v < rows.length, (rowsNb rows v).Nodup ∧ v ∉ rowsNb rows v ∧ ∀ w ∈ rowsNb rows v, v ∈ rowsNb rows w) :
    (∀ v, (rowsNb rows v).Nodup) ∧ (∀ v, v ∉ rowsNb rows v) ∧ ∀ v w, w ∈ rowsNb rows v → v ∈ rowsNb rows w := by
  have hout : ∀ v, rows.length ≤ v → rowsNb rows v = [] := by
    intro v hv
    rw [rowsNb, List.getD_eq_getElem?_getD, List.getElem?_eq_none hv]
    rfl
  refine ⟨fun v => ?_, fun v => ?_, fun v w hw => ?_⟩ <;> rcases lt_or_ge v rows.length with hv | hv
  · exact (h v hv).1
  · rw [hout v hv]; simp
  · exact (h v hv).2.1
  · rw [hout v hv]; simp
  · exact (h v hv).2.2 w hw
  · rw [hout v hv] at hw; simp at hw

/-- one edge: vertex 0 is Dirichlet, vertex 1 hangs on it -/
def exD : Env := env1 2 (rowsNb [[1], [0]]) (fun v => v == 1) [] false fun _ => true

/-- **defect**: the Dirichlet vertex becomes the centre of an agglomerate and is mapped to the coarse mesh -/
theorem dirichlet_taken : EnvOK exD ∧ FixedOK exD ∧ exD.free 0 = false ∧ (form exD).map (fun s => (s.aggs, s.v2a 0)) = some ([⟨0, [0, 1]⟩], some 0) := by
  obtain ⟨h1, h2, h3⟩ := rowsNb_ok (rows := [[1], [0]]) (by decide)
  refine ⟨env1_ok h1 h2 h3, ⟨by simp [exD, env1], by simp [exD, env1]⟩, rfl, by decide +kernel⟩

/-- a path of three vertices: vertices 0 and 1 are a fixed agglomerate, vertex 2 hangs on vertex 1 -/
def exFx : Env := env1 3 (rowsNb [[1], [0, 2], [1]]) (fun _ => true) [[0, 1]] false fun _ => true

/-- **defect**: vertex 1 is in two agglomerates -/
theorem fixed_twice : EnvOK exFx ∧ FixedOK exFx ∧ (form exFx).map (fun s => s.aggs) = some [⟨1, [1, 2]⟩, ⟨0, [0, 1]⟩] := by
  obtain ⟨h1, h2, h3⟩ := rowsNb_ok (rows := [[1], [0, 2], [1]]) (by decide)
  refine ⟨env1_ok h1 h2 h3, ⟨by simp [exFx, env1], by simp [exFx, env1]⟩, by decide +kernel⟩

/-- so the statement without `HangOK` is false -/
theorem form_not_always : ¬ ∀ E : Env, EnvOK E → FixedOK E → ∃ s, form E = some s ∧ Formed E s.aggs s.v2a := by
  intro h
  obtain ⟨h1, h2, h3, h4⟩ := dirichlet_taken
  obtain ⟨s, hs, hF⟩ := h exD h1 h2
  rw [hs] at h4
  have := hF.none 0 h3 (by simp [exD, env1])
  simp only [Option.map_some, Option.some.injEq, Prod.mk.injEq] at h4
  rw [this] at h4
  cases h4.2

/-! ### examples -/

/-- a strip of seven vertices with triangles, vertex 0 Dirichlet, a hanging vertex 7, a fixed agglomerate {8, 9} -/
def exM : Env := env1 10 (rowsNb [[1, 2], [0, 2, 3], [0, 1, 3, 4], [1, 2, 4, 5], [2, 3, 5, 6], [3, 4, 6, 8], [4, 5, 7], [6], [5, 9], [8]]) (fun v => v != 0 && decide (v < 10)) [[8, 9]] false fun k => k % 3 != 1

theorem exM_ok : EnvOK exM ∧ FixedOK exM ∧ HangOK exM := by
  obtain ⟨h1, h2, h3⟩ := rowsNb_ok (rows := [[1, 2], [0, 2, 3], [0, 1, 3, 4], [1, 2, 4, 5], [2, 3, 5, 6], [3, 4, 6, 8], [4, 5, 7], [6], [5, 9], [8]]) (by decide)
  refine ⟨env1_ok h1 h2 h3, ⟨by simp [exM, env1], by simp [exM, env1]⟩, ?_⟩
  intro v N hv hN _ _
  have h : ∀ v < 10, marked0 exM v = false → ∀ N < 10, exM.nb v = [N] → marked0 exM N = false := by decide
  have hv10 : v < 10 := by
    by_contra hge
    have : exM.free v = true := (marked0_false.1 hv).2.1
    simp only [exM, env1, Bool.and_eq_true, decide_eq_true_eq] at this
    exact hge this.2
  have hN10 : N < 10 := by
    have hb : ∀ v < 10, ∀ n ∈ exM.nb v, n < 10 := by decide
    exact hb v hv10 N (by rw [hN]; simp)
  exact h v hv10 hv N hN10 hN

example : ∃ s, form exM = some s ∧ Formed exM s.aggs s.v2a := form_correct_partial exM_ok.1 exM_ok.2.1 exM_ok.2.2

example : (form exM).map (fun s => s.aggs) = some [⟨7, [4, 6, 7]⟩, ⟨1, [1, 2, 3, 5]⟩, ⟨8, [8, 9]⟩] := by decide +kernel

/-- the three processes of `exC`; all vertices of a process are connected -/
def envC (p : ℕ) : Env :=
  { env1 (exC p).nv (fun v => if v < (exC p).nv then (List.range (exC p).nv).filter (· ≠ v) else []) (fun v => decide (v < (exC p).nv)) [] true fun _ => true with
    eq := fun v => if v < (exC p).nv then ((exC p).eqcV v).getD 0 else 0
    leq := isLEQ (exC p).T
    master := fun k => isMaster p ((exC p).T.getD k []) }

theorem envC_ofMesh : ∀ p < 3, OfMesh p (exC p) (envC p) := by
  intro p hp
  refine ⟨rfl, ?_, rfl, ?_, rfl, rfl, ?_⟩
  · have h : ∀ p < 3, ∀ v < (exC p).nv, (exC p).eqcV v = some ((envC p).eq v) := by decide +kernel
    exact h p hp
  · intro k d hk
    show isMaster p ((exC p).T.getD k []) = _
    rw [List.getD_eq_getElem?_getD, hk]
    rfl
  · intro v hv
    show decide (v < (exC p).nv) = false
    simpa using hv

theorem envC_ok : ∀ p < 3, EnvOK (envC p) ∧ FixedOK (envC p) ∧ HangOK (envC p) := by
  intro p hp
  have ho := envC_ofMesh p hp
  have hcls : ∀ v, ∃ d, (exC p).T[(envC p).eq v]? = some d := by
    have h1 : ∀ p < 3, ∀ v < (exC p).nv, (envC p).eq v < (exC p).T.length := by decide +kernel
    have h2 : ∀ p < 3, 0 < (exC p).T.length := by decide
    intro v
    refine ⟨_, List.getElem?_eq_getElem ?_⟩
    rcases lt_or_ge v (exC p).nv with hv | hv
    · exact h1 p hp v hv
    · have : (envC p).eq v = 0 := if_neg (by omega)
      rw [this]
      exact h2 p hp
  have hfam := exC_mesh.tabs.ok p hp
  refine ⟨⟨?_, ?_, ?_, ?_, ?_, fun _ _ => List.Perm.refl _, fun _ _ => List.perm_insertionSort _ _, fun _ _ h => h⟩, ⟨by simp [envC, env1], by simp [envC, env1]⟩, ?_⟩
  · intro v
    show (if v < (exC p).nv then _ else _ : List ℕ).Nodup
    split
    · exact List.nodup_range.filter _
    · simp
  · intro v
    show v ∉ (if v < (exC p).nv then _ else _ : List ℕ)
    split <;> simp
  · intro v w hw
    have hw : w ∈ (if v < (exC p).nv then (List.range (exC p).nv).filter (· ≠ v) else [] : List ℕ) := hw
    show v ∈ (if w < (exC p).nv then (List.range (exC p).nv).filter (· ≠ w) else [] : List ℕ)
    split at hw
    · rename_i hv
      simp at hw
      rw [if_pos hw.1]
      simp [hv, Ne.symm hw.2]
    · simp at hw
  · intro v
    obtain ⟨d, hd⟩ := hcls v
    exact (isLEQ_iff hfam hd hd).2 (Finset.Subset.refl _)
  · intro u v w h1 h2
    obtain ⟨d, hd⟩ := hcls u
    obtain ⟨d', hd'⟩ := hcls v
    obtain ⟨d'', hd''⟩ := hcls w
    exact (isLEQ_iff hfam hd hd'').2 (((isLEQ_iff hfam hd hd').1 h1).trans ((isLEQ_iff hfam hd' hd'').1 h2))
  · intro v N hv hN _ _
    have h : ∀ p < 3, ∀ v < (exC p).nv, (envC p).nb v ≠ [(envC p).nb v |>.headD 0] := by decide
    exfalso
    have hN' : (if v < (exC p).nv then (List.range (exC p).nv).filter (· ≠ v) else [] : List ℕ) = [N] := hN
    split at hN'
    · rename_i hvn
      refine h p hp v hvn ?_
      rw [hN]
      rfl
    · cases hN'

/-- the hypotheses of the link are met by a mesh on three processes: the coarse vertex map of C75 exists for the agglomerates of this algorithm -/
example : ∃ (aggs : ℕ → List Agg) (v2agg : ℕ → List (Option ℕ)), AggsOK 3 exC aggs v2agg ∧ ∀ p < 3, ∃ s, form (envC p) = some s ∧ s.aggs = aggs p := by
  have h : ∀ p, ∃ s : St, p < 3 → form (envC p) = some s ∧ Formed (envC p) s.aggs s.v2a := by
    intro p
    by_cases hp : p < 3
    · obtain ⟨h1, h2, h3⟩ := envC_ok p hp
      obtain ⟨s, hs⟩ := form_correct_partial h1 h2 h3
      exact ⟨s, fun _ => hs⟩
    · exact ⟨st0 (envC p), fun h => absurd h hp⟩
  choose s hs using h
  exact ⟨fun p => (s p).aggs, _, aggs_ok exC_mesh (v2a := fun p => (s p).v2a) envC_ofMesh fun p hp => (hs p hp).2, fun p hp => ⟨s p, (hs p hp).1, rfl⟩⟩

end NgsAMG.MIS
