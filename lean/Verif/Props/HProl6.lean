import Verif.Props.HProl5
import Verif.Props.PresVec6

/-!
# Property C103: preserved vectors
-/

namespace NgsAMG.HProl
open NgsAMG.Spec

section
variable {K : Type} [Field K] [LinearOrder K]

/-- **C103.** A field with constant divergence in an agglomerate that agrees with the prolongated one outside and is in equilibrium with a pressure `p` inside is the
prolongated field. -/
theorem reproduces_const [IsStrictOrderedRing K] {I : Inp K} (hI : MeshOK I) (hF : FlowOK I) {P : Mat K} (hP : prol I = some P) {C : ℕ} (hC : C ∈ I.cvs) (hS : Solid I C)
    (hg : ∀ v ∈ I.agg C, I.ghost v = false) (h2 : 2 ≤ (I.agg C).length) (hx : ∃ e, Exterior I C e) (hL : LocalMat I C)
    (hvol : I.cvol C = ((I.agg C).map I.vol).sum) (c : Dof → K)
    (w : Dof → K) (hw : ∀ x, Exterior I C x.1 → x.2 < I.nd x.1 → w x = field P c x)
    (p : ℕ → K) (hp : ∀ x, Inside I C x → rowVal (I.mat x) w = if x.2 = 0 then (p (I.edge x.1).1 - p (I.edge x.1).2) * I.flow x.1 else 0)
    (δ : K) (hdiv : ∀ v ∈ I.agg C, outOf I.con I.edge (edgeFlow I.flow I.nd w) v = I.vol v * δ) :
    ∀ x, Inside I C x → field P c x = w x := by
  classical
  -- entries of degrees of freedom that do not exist are irrelevant
  let w' : Dof → K := fun x => if x.2 < I.nd x.1 then w x else field P c x
  have hfl : edgeFlow I.flow I.nd w' = edgeFlow I.flow I.nd w := by
    funext e
    unfold edgeFlow
    refine congrArg List.sum (List.map_congr_left fun l hl => ?_)
    simp only [w', if_pos (List.mem_range.1 hl)]
  have hrow : ∀ x, Inside I C x → rowVal (I.mat x) w' = rowVal (I.mat x) w := by
    intro x hx
    unfold rowVal
    refine congrArg List.sum (List.map_congr_left fun y hy => ?_)
    simp only [w', if_pos ((hL x hx).2 y hy).2]
  have hw' : ∀ x, Exterior I C x.1 → w' x = field P c x := by
    intro x hx
    simp only [w']
    split_ifs with h
    · exact hw x hx h
    · rfl
  have hflow : ∀ e, Exterior I C e → edgeFlow I.flow I.nd w' e = edgeFlow I.flow I.nd (field P c) e := by
    intro e he
    unfold edgeFlow
    exact congrArg List.sum (List.map_congr_left fun l _ => by rw [hw' (e, l) he])
  have hsum : ∑ v ∈ (I.agg C).toFinset, outOf I.con I.edge (edgeFlow I.flow I.nd w') v = outOf I.ccon I.cedge (edgeFlow (cflow I) I.cnd c) C := by
    refine sum_outOf hI C _ _ (fun D E hD => ?_) fun e hx hE => ?_
    · rw [← edge_flow hI hF hP (hI.cfrom _ _ _ hD).1 (hS D E hD) c]
      refine Finset.sum_congr rfl fun e he => ?_
      obtain ⟨he, hE⟩ := mem_c2f.1 (List.mem_toFinset.1 he)
      have hc := hI.all e he
      rcases (tau_coarse hI hD he hE).2 with ⟨q1, q2⟩ | ⟨q1, q2⟩
      · rw [hflow e ⟨_, _, q1, q2, hc⟩]
      · rw [hflow e ⟨_, _, q2, q1, hI.symm _ _ _ hc⟩]
    · rw [hflow e hx]
      obtain ⟨P0, P1, h0, h1, hfr⟩ := prol_cross hP hI
      unfold edgeFlow
      refine List.sum_eq_zero fun y hy => ?_
      obtain ⟨l, _, rfl⟩ := List.mem_map.1 hy
      unfold field
      rw [hfr (e, l) fun C' => exterior_not_interior hI hx, unmapped_row hI h0 h1 (x := (e, l)) hx hE]
      simp [rowVal]
  have hFv : outOf I.ccon I.cedge (edgeFlow (cflow I) I.cnd c) C = I.cvol C * δ := by
    rw [← hsum, hfl, List.sum_toFinset _ (show (I.agg C).Nodup from c2f_nodup _ _ _), hvol, ← List.sum_map_mul_right]
    exact congrArg List.sum (List.map_congr_left fun v hv => hdiv v hv)
  intro x hxi
  rw [reproduces hI hP hC hS hg h2 hx hL c w' hw' p (fun x hx => by rw [hrow x hx, hp x hx]) (fun v hv => by rw [hfl, hdiv v hv, hFv]; ring) x hxi]
  simp only [w', if_pos hxi.2]
end

/-- the blocks are those computed by `vecMap` (property C102) -/
structure Linked (I : Inp ℝ) (J : Pres.Inp) (buf : List ℝ) (offs : ℕ → ℕ) (f : ℕ → ℕ) : Prop where
  ord : J.ord = I.ces
  dofed : J.dofed = I.cdofed
  c2f : J.c2f = HProl.c2f I.emap I.nE
  cv0 : J.cv0 = fun E => (I.cedge E).1
  fv0 : J.fv0 = fun e => (I.edge e).1
  vmap : J.vmap = I.vmap
  flow : J.flow = I.flow
  off : J.off = Pres.dofOff I.nd
  pblk : I.pblk = Pres.readBlock buf offs I.cnd
  done : Pres.Done J buf offs I.cnd f
  /-- edges with degrees of freedom have flow -/
  edges : ∀ E ∈ J.ord, J.dofed E = true → Pres.EdgeOK J E

theorem zip_sum (L : List Dof) (a : ℕ → ℝ) (b : Dof → ℝ) : ∀ k, ((L.zipIdx k).map fun x => a x.2 * b x.1).sum = ∑ i ∈ Finset.range L.length, a (k + i) * (L.map b).getD i 0 := by
  induction L with
  | nil => intro k; rfl
  | cons x L ih =>
    intro k
    rw [List.zipIdx_cons, List.map_cons, List.sum_cons, ih, List.length_cons, Finset.sum_range_succ']
    simp only [List.map_cons, List.getD_cons_succ, List.getD_cons_zero, Nat.add_zero]
    rw [add_comm]
    exact congrArg (· + _) (Finset.sum_congr rfl fun i _ => by rw [show k + 1 + i = k + (i + 1) by omega])

theorem nDof_eq {I : Inp ℝ} {J : Pres.Inp} {buf : List ℝ} {offs f : ℕ → ℕ} (h : Linked I J buf offs f) (e : ℕ) : J.nDof e = I.nd e := by
  unfold Pres.Inp.nDof
  rw [h.off]
  unfold Pres.dofOff
  rw [List.range_succ, List.map_append, List.sum_append]
  simp

theorem fDofs_eq {I : Inp ℝ} {J : Pres.Inp} {buf : List ℝ} {offs f : ℕ → ℕ} (h : Linked I J buf offs f) (E : ℕ) :
    J.fDofs E = (dofs I.nd (c2f I.emap I.nE E)).map fun x => Pres.dofOff I.nd x.1 + x.2 := by
  unfold Pres.Inp.fDofs dofs
  rw [h.c2f, List.map_flatMap]
  refine flatMap_congr_left fun e _ => ?_
  rw [nDof_eq h, h.off, List.map_map]
  rfl

theorem fFlow_eq {I : Inp ℝ} {J : Pres.Inp} {buf : List ℝ} {offs f : ℕ → ℕ} (h : Linked I J buf offs f) (E : ℕ) :
    J.fFlow E = (dofs I.nd (c2f I.emap I.nE E)).map (fFlow I E) := by
  unfold Pres.Inp.fFlow dofs
  rw [h.c2f, List.map_flatMap]
  refine flatMap_congr_left fun e _ => ?_
  rw [nDof_eq h, List.map_map, h.vmap, h.fv0, h.cv0, h.flow]
  rfl

/-- the blocks of `vecMap` are as the divergence needs them -/
theorem flowOK_of_linked {I : Inp ℝ} (hI : MeshOK I) {J : Pres.Inp} {buf : List ℝ} {offs f : ℕ → ℕ} (h : Linked I J buf offs f) : FlowOK I := by
  intro E hE hd q hq1 hq2
  have := (Pres.flows (h.ord ▸ hI.ces) h.edges h.done (h.ord ▸ hE) (h.dofed ▸ hd)).2.1 q hq1 hq2
  rw [zip_sum _ (fun r => I.pblk E r q) (fFlow I E) 0]
  refine Eq.trans ?_ this
  rw [Fin.sum_univ_eq_sum_range (fun r => (J.fFlow E).getD r 0 * Pres.readBlock buf offs I.cnd E r q), fDofs_eq h, List.length_map, fFlow_eq h, h.pblk]
  exact Finset.sum_congr rfl fun i _ => by rw [Nat.zero_add, mul_comm]

/-- coefficients of coarse preserved vector `j` -/
noncomputable def coarseField (I : Inp ℝ) (J : Pres.Inp) (buf : List ℝ) (offs : ℕ → ℕ) (j : ℕ) (x0 : ℕ → ℝ) : Dof → ℝ := fun y =>
  J.coarseVec buf offs I.cnd j x0 (Pres.dofOff I.cnd y.1 + y.2)

/-- **C103.** The prolongation of a coarse preserved vector is the fine one on the edges between agglomerates, up to a relative error of `10⁻⁸` per coarse edge; exactly if all
vectors are clearly dependent or independent. -/
theorem preserved_cross {I : Inp ℝ} (hI : MeshOK I) {P : Mat ℝ} (hP : prol I = some P) {J : Pres.Inp} {buf : List ℝ} {offs f : ℕ → ℕ} (h : Linked I J buf offs f)
    {E : ℕ} (hE : E ∈ I.ces) (hd : I.cdofed E = true) {j : ℕ} (hj : j < J.vecs.length) (x0 : ℕ → ℝ) :
    Real.sqrt ((dofs I.nd (c2f I.emap I.nE E)).map fun x =>
        (J.vecs[j] (Pres.dofOff I.nd x.1 + x.2) - field P (coarseField I J buf offs j x0) x) ^ 2).sum ≤
      1 / 10 ^ 8 * Real.sqrt ((dofs I.nd (c2f I.emap I.nE E)).map fun x => J.vecs[j] (Pres.dofOff I.nd x.1 + x.2) ^ 2).sum ∧
    (Pres.Clear (J.V E) 1 (1 + J.vecs.length) → ∀ e ∈ c2f I.emap I.nE E, ∀ l < I.nd e,
      field P (coarseField I J buf offs j x0) (e, l) = J.vecs[j] (Pres.dofOff I.nd e + l)) := by
  obtain ⟨rest, h1, h2, h3⟩ := Pres.preserved (h.ord ▸ hI.ces) h.edges h.done (h.ord ▸ hE) (h.dofed ▸ hd) hj x0
  obtain ⟨P0, P1, h0, hc1, hfr⟩ := prol_cross hP hI
  have hlen : (J.fDofs E).length = (dofs I.nd (c2f I.emap I.nE E)).length := by rw [fDofs_eq h, List.length_map]
  have hget : ∀ r (hr : r < (J.fDofs E).length), (J.fDofs E)[r] =
      Pres.dofOff I.nd ((dofs I.nd (c2f I.emap I.nE E))[r]'(hlen ▸ hr)).1 + ((dofs I.nd (c2f I.emap I.nE E))[r]'(hlen ▸ hr)).2 := by
    intro r hr
    simp only [fDofs_eq h, List.getElem_map]
  have hval : ∀ r (hr : r < (J.fDofs E).length), field P (coarseField I J buf offs j x0) ((dofs I.nd (c2f I.emap I.nE E))[r]'(hlen ▸ hr)) =
      ∑ q ∈ Finset.range (I.cnd E), Pres.readBlock buf offs I.cnd E r q * J.coarseVec buf offs I.cnd j x0 (Pres.dofOff I.cnd E + q) := by
    intro r hr
    have hin : (dofs I.nd (c2f I.emap I.nE E))[r]'(hlen ▸ hr) ∈ dofs I.nd (c2f I.emap I.nE E) := List.getElem_mem _
    have hz : ((dofs I.nd (c2f I.emap I.nE E))[r]'(hlen ▸ hr), r) ∈ (dofs I.nd (c2f I.emap I.nE E)).zipIdx := by
      rw [List.mem_zipIdx_iff_getElem?]
      simp [hlen ▸ hr]
    unfold field
    rw [hfr _ (mapped_not_interior hI (mem_c2f.1 (mem_dofs.1 hin).1).2), mapped_row hI hc1 hE hd hz]
    unfold rowVal
    rw [List.map_map, Finset.sum_eq_multiset_sum, h.pblk]
    rfl
  have hrest : ∀ r (hr : r < (J.fDofs E).length), J.vecs[j] (Pres.dofOff I.nd ((dofs I.nd (c2f I.emap I.nE E))[r]'(hlen ▸ hr)).1 +
      ((dofs I.nd (c2f I.emap I.nE E))[r]'(hlen ▸ hr)).2) - field P (coarseField I J buf offs j x0) ((dofs I.nd (c2f I.emap I.nE E))[r]'(hlen ▸ hr)) = rest ⟨r, hr⟩ := by
    intro r hr
    have := h1 ⟨r, hr⟩
    rw [hval r hr, ← hget r hr]
    exact sub_eq_of_eq_add' this
  have hsums : ∀ (g : Dof → ℝ) (k : Fin (J.fDofs E).length → ℝ), (∀ r (hr : r < (J.fDofs E).length), g ((dofs I.nd (c2f I.emap I.nE E))[r]'(hlen ▸ hr)) = k ⟨r, hr⟩) →
      ((dofs I.nd (c2f I.emap I.nE E)).map g).sum = ∑ r, k r := by
    intro g k hgk
    rw [← sum_fin (dofs I.nd (c2f I.emap I.nE E)) g]
    refine Fintype.sum_equiv (finCongr hlen.symm) _ _ fun r => ?_
    exact hgk r (lt_of_lt_of_eq r.isLt hlen.symm)
  refine ⟨?_, ?_⟩
  · rw [hsums _ (fun r => rest r ^ 2) fun r hr => by rw [hrest r hr], hsums _ (fun r => J.vecs[j] ((J.fDofs E)[r]) ^ 2) fun r hr => by rw [← hget r hr]; rfl]
    exact h2
  · intro hcl e he l hl
    obtain ⟨r, hr, hre⟩ := List.getElem_of_mem (mem_dofs.2 ⟨he, hl⟩ : (e, l) ∈ dofs I.nd (c2f I.emap I.nE E))
    have := hrest r (hlen ▸ hr)
    rw [h3 hcl, hre] at this
    exact (sub_eq_zero.1 this).symm

/-- **C103.** A preserved vector that has constant divergence in an agglomerate, is in equilibrium with a pressure inside, vanishes on Dirichlet edges, and is represented exactly
on the coarse edges at the agglomerate is reproduced by the prolongation. -/
theorem preserved_exact {I : Inp ℝ} (hI : MeshOK I) {P : Mat ℝ} (hP : prol I = some P) {J : Pres.Inp} {buf : List ℝ} {offs f : ℕ → ℕ} (h : Linked I J buf offs f)
    {C : ℕ} (hC : C ∈ I.cvs) (hS : Solid I C) (hg : ∀ v ∈ I.agg C, I.ghost v = false) (h2 : 2 ≤ (I.agg C).length) (hx : ∃ e, Exterior I C e) (hL : LocalMat I C)
    (hvol : I.cvol C = ((I.agg C).map I.vol).sum) {j : ℕ} (hj : j < J.vecs.length) (x0 : ℕ → ℝ)
    (hcl : ∀ D E, (D, E) ∈ I.ccon C → Pres.Clear (J.V E) 1 (1 + J.vecs.length))
    {w : Dof → ℝ} (hw : ∀ x, w x = J.vecs[j] (Pres.dofOff I.nd x.1 + x.2)) (hD : ∀ x, Exterior I C x.1 → I.emap x.1 = none → x.2 < I.nd x.1 → w x = 0)
    (p : ℕ → ℝ) (hp : ∀ x, Inside I C x → rowVal (I.mat x) w = if x.2 = 0 then (p (I.edge x.1).1 - p (I.edge x.1).2) * I.flow x.1 else 0)
    (δ : ℝ) (hdiv : ∀ v ∈ I.agg C, outOf I.con I.edge (edgeFlow I.flow I.nd w) v = I.vol v * δ) :
    ∀ x, (Interior I C x.1 ∨ Exterior I C x.1) → x.2 < I.nd x.1 → field P (coarseField I J buf offs j x0) x = w x := by
  have hext : ∀ x, Exterior I C x.1 → x.2 < I.nd x.1 → w x = field P (coarseField I J buf offs j x0) x := by
    intro x hx hl
    rcases hE : I.emap x.1 with _ | E
    · rw [hD x hx hE hl]
      obtain ⟨P0, P1, h0, h1, hfr⟩ := prol_cross hP hI
      unfold field
      rw [hfr x fun C' => exterior_not_interior hI hx, unmapped_row hI h0 h1 hx hE]
      rfl
    · obtain ⟨D, hDE⟩ := exterior_coarse hI hx hE
      obtain ⟨v, v', _, _, hc⟩ := hx
      rw [hw x]
      exact ((preserved_cross hI hP h (hI.cfrom _ _ _ hDE).1 (hS D E hDE) hj x0).2 (hcl D E hDE) x.1 (mem_c2f.2 ⟨(hI.range _ _ _ hc).2, hE⟩) x.2 hl).symm
  intro x hx' hl
  rcases hx' with hi | he
  · exact reproduces_const hI (flowOK_of_linked hI h) hP hC hS hg h2 hx hL hvol _ w hext p hp δ hdiv x ⟨hi, hl⟩
  · exact (hext x he hl).symm

end NgsAMG.HProl
