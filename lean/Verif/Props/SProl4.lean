import Verif.Props.SProl3

/-! C68: constants and rigid body motions are reproduced by the smoothed prolongation. -/

namespace NgsAMG.SProl

open MapData SparseMM Matrix Finset Elast RigidMotion

/-- the H1 energy with `k` components (h1/h1_energy.hpp, h1_energy_impl.hpp:10-48): transports are identities; the regularisation
and the inverse are arbitrary -/
def h1En (k : ℕ) (reg : Bool → Mt k k ℝ → Mt k k ℝ) (inv : Mt k k ℝ → Mt k k ℝ) : Energy (ℝ × ℝ) ℝ k where
  approx w := w
  qs _ _ := (1, 1)
  emat w := w • 1
  reg := reg
  inv := inv

/-- **C68**, H1: the smoothed prolongation maps constants to constants (at all vertices that are not at the ground), for all
options, weights and (regularised, inverted) matrices -/
theorem sprol_constants {k : ℕ} (nhash : ℕ → ℕ) (junk mjunk : ℕ → ℕ → ℕ × ℕ) (reg : Bool → Mt k k ℝ → Mt k k ℝ)
    (inv : Mt k k ℝ → Mt k k ℝ) (O : Opts) (I : Input (ℝ × ℝ) ℝ) (hI : InputOK I) (hO : 1 ≤ O.maxPerRow) (hn : I.ncv ≤ 2 ^ 30)
    (cvd : ℕ → ℝ × ℝ) (C : CMap) (h1 : C.vmap = I.vmap) (h2 : C.ncv = I.ncv) (const : Fin k → ℝ) :
    ∃ P, sprol nhash junk mjunk (h1En k reg inv) O I (pwProl (h1QHh k) I.mesh C cvd) = some P ∧
      ∀ V < I.mesh.nv, (I.vmap V).isSome → act P (fun _ => const) V = const :=
  sprol_preserves nhash junk mjunk (h1En k reg inv) O I hI hO hn (h1QHh k) cvd C h1 h2 (fun _ => const) (fun _ => const)
    (fun _ _ _ _ _ _ => rfl) (fun _ _ _ _ => by simp [h1QHh])

/-- `Mat<DPV,DPV>` as plain matrix -/
def flat {D R : ℕ} (M : TM D R) : Mt (D + R) (D + R) ℝ := M.submatrix finSumFinEquiv.symm finSumFinEquiv.symm

/-- degrees of freedom of a vertex, displacements first -/
def dofs {D R : ℕ} (x : Fin (D + R) → ℝ) : Fin D ⊕ Fin R → ℝ := x ∘ finSumFinEquiv

theorem flat_mulVec {D R : ℕ} (M : TM D R) (x : Fin (D + R) → ℝ) : flat M *ᵥ x = (M *ᵥ dofs x) ∘ finSumFinEquiv.symm := by
  unfold flat dofs
  rw [Matrix.submatrix_mulVec_equiv]
  rfl

/-- the elasticity energies: transports of `Elast`; weights, regularisation, inverse are arbitrary -/
noncomputable def elEn {D R : ℕ} (T : TOps D R) (approx : TM D R → ℝ) (reg : Bool → Mt (D + R) (D + R) ℝ → Mt (D + R) (D + R) ℝ)
    (inv : Mt (D + R) (D + R) ℝ → Mt (D + R) (D + R) ℝ) : Energy (VData D R) (TM D R) (D + R) where
  approx := approx
  qs vi vj := (flat (calcQs T vi vj).1, flat (calcQs T vi vj).2)
  emat E := flat E
  reg := reg
  inv := inv

theorem sprol_motion {D R : ℕ} {T : TOps D R} (L : Laws T) (F : Faithful T) (nhash : ℕ → ℕ) (junk mjunk : ℕ → ℕ → ℕ × ℕ)
    (approx : TM D R → ℝ) (reg : Bool → Mt (D + R) (D + R) ℝ → Mt (D + R) (D + R) ℝ)
    (inv : Mt (D + R) (D + R) ℝ → Mt (D + R) (D + R) ℝ) (O : Opts) (I : Input (VData D R) (TM D R)) (hI : InputOK I)
    (hO : 1 ≤ O.maxPerRow) (hn : I.ncv ≤ 2 ^ 30) (cvd : ℕ → VData D R) (C : CMap) (h1 : C.vmap = I.vmap) (h2 : C.ncv = I.ncv)
    (hp : ∀ v < I.mesh.nv, 0 < (I.mesh.vdata v).rotScaling) (m : (Fin D → ℝ) → Fin D → ℝ)
    (u U : ℕ → Fin (D + R) → ℝ)
    (hU : ∀ c < I.ncv, ∀ x, motion T (cvd c).pos (cvd c).rotScaling (dofs (U c)) x = m x)
    (hu : ∀ v < I.mesh.nv, ∀ x, motion T (I.mesh.vdata v).pos (I.mesh.vdata v).rotScaling (dofs (u v)) x = m x) :
    ∃ P, sprol nhash junk mjunk (elEn T approx reg inv) O I (pwProl (fun a b => flat (calcQHh T a b)) I.mesh C cvd) = some P ∧
      ∀ V < I.mesh.nv, (I.vmap V).isSome → act P U V = u V := by
  refine sprol_preserves nhash junk mjunk (elEn T approx reg inv) O I hI hO hn (fun a b => flat (calcQHh T a b)) cvd C h1 h2 u U
    ?_ ?_
  · intro e v w hj _ _
    have hvw : v < I.mesh.nv ∧ w < I.mesh.nv := by
      rcases hj with hj | hj
      · exact hI.ends _ (List.mem_of_getElem? hj)
      · exact (hI.ends _ (List.mem_of_getElem? hj)).symm
    simp only [elEn]
    rw [flat_mulVec, flat_mulVec]
    congr 1
    refine (sameMotion_iff L F (I.mesh.vdata v) (I.mesh.vdata w) (hp v hvw.1) (hp w hvw.2) ![dofs (u v), dofs (u w)]).1 ?_
    intro x
    exact (hu v hvw.1 x).trans (hu w hvw.2 x).symm
  · intro v hv c hc
    rw [flat_mulVec]
    have : calcQHh T (cvd c) (I.mesh.vdata v) *ᵥ dofs (U c) = dofs (u v) := by
      refine motion_inj L F (I.mesh.vdata v).pos _ (hp v hv).ne' _ _ fun x => ?_
      rw [transport_motion L _ _ (hp v hv).ne', hU c (hI.vlt v c hc), hu v hv]
    rw [this]
    funext i
    simp [dofs]

/-- **C68**, 3D elasticity: if the coarse degrees of freedom describe a rigid body motion, then the smoothed prolongation gives the
degrees of freedom that describe it at the fine vertices -/
theorem sprol_rigid3 (nhash : ℕ → ℕ) (junk mjunk : ℕ → ℕ → ℕ × ℕ)
    (approx : TM 3 3 → ℝ) (reg : Bool → Mt 6 6 ℝ → Mt 6 6 ℝ) (inv : Mt 6 6 ℝ → Mt 6 6 ℝ) (O : Opts) (I : Input (VData 3 3) (TM 3 3))
    (hI : InputOK I) (hO : 1 ≤ O.maxPerRow) (hn : I.ncv ≤ 2 ^ 30) (cvd : ℕ → VData 3 3) (C : CMap) (h1 : C.vmap = I.vmap)
    (h2 : C.ncv = I.ncv) (hp : ∀ v < I.mesh.nv, 0 < (I.mesh.vdata v).rotScaling) (m : (Fin 3 → ℝ) → Fin 3 → ℝ) (u U : ℕ → Fin 6 → ℝ)
    (hU : ∀ c < I.ncv, ∀ x, motion3 (cvd c).pos (cvd c).rotScaling (dofs (U c)) x = m x)
    (hu : ∀ v < I.mesh.nv, ∀ x, motion3 (I.mesh.vdata v).pos (I.mesh.vdata v).rotScaling (dofs (u v)) x = m x) :
    ∃ P, sprol nhash junk mjunk (elEn ops3 approx reg inv) O I
        (pwProl (fun a b => flat (calcQHh ops3 a b)) I.mesh C cvd) = some P ∧
      ∀ V < I.mesh.nv, (I.vmap V).isSome → act P U V = u V :=
  sprol_motion laws3 faithful3 nhash junk mjunk approx reg inv O I hI hO hn cvd C h1 h2 hp m u U
    (fun c hc x => (motion_eq3 _ _ _ _).trans (hU c hc x)) (fun v hv x => (motion_eq3 _ _ _ _).trans (hu v hv x))

/-- **C68**, 2D elasticity -/
theorem sprol_rigid2 (nhash : ℕ → ℕ) (junk mjunk : ℕ → ℕ → ℕ × ℕ)
    (approx : TM 2 1 → ℝ) (reg : Bool → Mt 3 3 ℝ → Mt 3 3 ℝ) (inv : Mt 3 3 ℝ → Mt 3 3 ℝ) (O : Opts) (I : Input (VData 2 1) (TM 2 1))
    (hI : InputOK I) (hO : 1 ≤ O.maxPerRow) (hn : I.ncv ≤ 2 ^ 30) (cvd : ℕ → VData 2 1) (C : CMap) (h1 : C.vmap = I.vmap)
    (h2 : C.ncv = I.ncv) (hp : ∀ v < I.mesh.nv, 0 < (I.mesh.vdata v).rotScaling) (m : (Fin 2 → ℝ) → Fin 2 → ℝ) (u U : ℕ → Fin 3 → ℝ)
    (hU : ∀ c < I.ncv, ∀ x, motion2 (cvd c).pos (cvd c).rotScaling (dofs (U c)) x = m x)
    (hu : ∀ v < I.mesh.nv, ∀ x, motion2 (I.mesh.vdata v).pos (I.mesh.vdata v).rotScaling (dofs (u v)) x = m x) :
    ∃ P, sprol nhash junk mjunk (elEn ops2 approx reg inv) O I
        (pwProl (fun a b => flat (calcQHh ops2 a b)) I.mesh C cvd) = some P ∧
      ∀ V < I.mesh.nv, (I.vmap V).isSome → act P U V = u V :=
  sprol_motion laws2 faithful2 nhash junk mjunk approx reg inv O I hI hO hn cvd C h1 h2 hp m u U
    (fun c hc x => (motion_eq2 _ _ _ _).trans (hU c hc x)) (fun v hv x => (motion_eq2 _ _ _ _).trans (hu v hv x))

/-! ### cases that meet the hypotheses -/

/-- a sorting function -/
noncomputable def sortD (l : List (ℕ × ℝ)) : List (ℕ × ℝ) := l.insertionSort fun x y => y.2 ≤ x.2

theorem sortD_ok (l : List (ℕ × ℝ)) : (sortD l).Perm l ∧ (sortD l).Pairwise fun x y => y.2 ≤ x.2 := by
  refine ⟨List.perm_insertionSort _ _, ?_⟩
  have : Std.Total (fun x y : ℕ × ℝ => y.2 ≤ x.2) := ⟨fun a b => le_total _ _⟩
  have : IsTrans (ℕ × ℝ) (fun x y => y.2 ≤ x.2) := ⟨fun a b c h1 h2 => le_trans h2 h1⟩
  exact List.pairwise_insertionSort (r := fun x y : ℕ × ℝ => y.2 ≤ x.2) l

/-- a path of four vertices with aggregates `{0,1}`, `{2,3}` -/
noncomputable def exI {VD ED : Type} (vd : ℕ → VD) (ed : ℕ → ED) : Input VD ED where
  mesh := ⟨4, vd, [(0, 1), (1, 2), (2, 3)], ed⟩
  econ := fun v => [[(1, 0)], [(0, 0), (2, 1)], [(1, 1), (3, 2)], [(2, 2)]].getD v []
  vmap := fun v => if v < 4 then some (v / 2) else none
  ncv := 2
  allowed := fun _ _ => true
  sortDesc := sortD

theorem exI_ok {VD ED : Type} (vd : ℕ → VD) (ed : ℕ → ED) : InputOK (exI vd ed) where
  simple := by
    have h : Simple [(0, 1), (1, 2), (2, 3)] := ⟨by decide, by decide⟩
    exact h
  ends := by
    have h : ∀ e ∈ [(0, 1), (1, 2), (2, 3)], e.1 < 4 ∧ e.2 < 4 := by decide
    exact h
  econ := by
    rw [edgeCM_eq]
    congr 1
    funext v
    by_cases h : v < 4
    · have : v = 0 ∨ v = 1 ∨ v = 2 ∨ v = 3 := by omega
      rcases this with rfl | rfl | rfl | rfl <;> simp [exI, halves, List.zipIdx]
    · have h0 : v ≠ 0 := by omega
      have h1 : v ≠ 1 := by omega
      have h2 : v ≠ 2 := by omega
      have h3 : v ≠ 3 := by omega
      have hn : [[(1, 0)], [(0, 0), (2, 1)], [(1, 1), (3, 2)], [(2, 2)]][v]? = (none : Option (List (ℕ × ℕ))) :=
        List.getElem?_eq_none (by simp; omega)
      simp [exI, halves, List.zipIdx, List.getD_eq_getElem?_getD, hn, h0.symm, h1.symm, h2.symm, h3.symm]
  vlt := by
    intro v c h
    simp only [exI] at h ⊢
    split at h
    · have := Option.some.inj h
      omega
    · simp at h
  sorts := sortD_ok

/-- a rotation about the origin, on vertices along the first axis -/
example : ∃ (m : (Fin 2 → ℝ) → Fin 2 → ℝ) (u U : ℕ → Fin 3 → ℝ), (∃ x, m x ≠ 0) ∧ u 1 ≠ u 2 ∧
    (∀ (c : ℕ) x, motion2 ![(2 * c : ℝ), 0] 1 (dofs (D := 2) (R := 1) (U c)) x = m x) ∧
    (∀ (v : ℕ) x, motion2 ![(v : ℝ), 0] 1 (dofs (D := 2) (R := 1) (u v)) x = m x) := by
  refine ⟨fun x => ![-x 1, x 0], fun v => ![0, (v : ℝ), 1], fun c => ![0, (2 * c : ℝ), 1], ⟨![1, 0], ?_⟩, ?_, ?_, ?_⟩
  · intro h
    have := congrFun h 1
    simp at this
  · intro h
    have := congrFun h 1
    simp at this
  · intro c x
    ext k
    fin_cases k <;> simp [motion2, dofs, finSumFinEquiv, Fin.castAdd, Fin.natAdd]
  · intro c x
    ext k
    fin_cases k <;> simp [motion2, dofs, finSumFinEquiv, Fin.castAdd, Fin.natAdd]

end NgsAMG.SProl
