import Verif.Props.HybridDyn2
import Verif.Props.HybridBS3

/-! C84, third part: the parallel smoother. -/

namespace NgsAMG.HybDyn
open NgsAMG.DCC NgsAMG.Hybrid NgsAMG.HybSm NgsAMG.DynBlock NgsAMG.GS NgsAMG.Spec NgsAMG.BlkGS Matrix

/-! ### specification -/

/-- a class of unknowns of process `p` with `omega` times the inverse of its diagonal block of the *global* operator, whose diagonal is replaced by `md` if there is one -/
noncomputable def classBlock (P : PD) (A : ℕ → CSR (Blk 1)) (md : ℕ → Option (ℕ → ℝ)) (omega : ℝ) (p : ℕ) (F : List ℕ) : SBlock 1 :=
  ⟨F, omega • (diagBlock (fun i j => match md p with
    | some d => if i = j then sc (d i) else gop P A (P.glob p i) (P.glob p j)
    | none => gop P A (P.glob p i) (P.glob p j)) F)⁻¹⟩

/-- no unknown of the class is shared with another process -/
def Inner (P : PD) (p : ℕ) (F : List ℕ) : Bool := decide (∀ d ∈ F, ∀ q < P.np, P.shares q (P.glob p d) = true → q = p)

/-- groups of classes of the processes: the inner classes are split in two parts (visited before and after the exchange), the others are visited in between -/
structure ClassGroups (P : PD) (A : ℕ → CSR (Blk 1)) (M : ℕ → CSR ℝ) (md : ℕ → Option (ℕ → ℝ)) (omega : ℝ) (free : ℕ → Option (ℕ → Bool)) (Fs : ℕ → List (List ℕ))
    (ord : ℕ → ℕ → List (SBlock 1)) : Prop where
  classes : ∀ p < P.np, RowClasses (M p) (fun i => decide (P.owner (P.glob p i) = p) && inSubset (free p) i) (Fs p)
  inner : ∀ p < P.np, ord p 0 ++ ord p 2 = ((Fs p).filter (Inner P p)).map (classBlock P A md omega p)
  outer : ∀ p < P.np, ord p 1 = ((Fs p).filter fun F => !Inner P p F).map (classBlock P A md omega p)

/-- in every complete run of the hybrid smoother with the stages `K`, for all truthful inputs: the new vector is that of textbook block Gauss-Seidel with the blocks `ord`, and
the residual, if it is to be updated, is the residual of the new vector -/
def Smooths (P : PD) (A M : ℕ → CSR (Blk 1)) (G : ℕ → Option (CSR (Blk 1))) (K : ℕ → Kernels 1) (ord : ℕ → ℕ → List (SBlock 1)) : Prop :=
  ∀ (bw : Bool) (nls : ℤ) (ru ur xz bDist resDist : Bool) (v : ℕ → LS 1) (xh bh : ℕ → Fin 1 → ℝ) (_ : Truthful P A v xh bh ru xz bDist resDist)
    (n : ℕ) (s : Exch.St (LS 1) (List (Fin 1 → ℝ)))
    (_ : Exch.Reach P.np (HybSm.smoothImpl P M G K bw nls ru ur xz bDist resDist) v n s)
    (_ : Exch.Final P.np (HybSm.smoothImpl P M G K bw nls ru ur xz bDist resDist) s),
  let X := bsX P A ord false bw nls xh bh
  HybSm.Consistent P (fun p => (s.vec p).x) X ∧
    (ur = true → (ru = true → resDist = true) → (ru = false → xz = true → bDist = true) →
      ∀ g ∈ allDofs P, gsum P (fun p => (s.vec p).res) g = bh g - gmul P A X g)

/-! ### proofs -/

theorem shared_inner {P : PD} {p : ℕ} (F : List ℕ) : shared P p F = !Inner P p F := by
  rw [Bool.eq_iff_iff, shared, List.any_eq_true, Bool.not_eq_true', Inner, decide_eq_false_iff_not]
  push Not
  refine exists_congr fun d => and_congr_right fun _ => ?_
  rw [Bool.not_eq_true', ← Bool.not_eq_true, List.isEmpty_iff]
  constructor
  · intro h
    obtain ⟨q, hq⟩ := List.exists_mem_of_ne_nil _ h
    obtain ⟨h1, h2, h3⟩ := mem_dps.1 hq
    exact ⟨q, h1, h3, h2⟩
  · rintro ⟨q, h1, h3, h2⟩
    exact List.ne_nil_of_mem (mem_dps.2 ⟨h1, h2, h3⟩)

theorem classBlock_eq {P : PD} {A : ℕ → CSR (Blk 1)} {p : ℕ} {M : CSR (Blk 1)} {G : Option (CSR (Blk 1))} (hMG : LocalSpec P A p M G) (md : ℕ → Option (ℕ → ℝ)) (omega : ℝ)
    {F : List ℕ} (hm : ∀ d ∈ F, mast P p d) : dynBlock (toScal M) (md p) omega F = classBlock P A md omega p F := by
  have he : ∀ i ∈ F, ∀ j ∈ F, sc ((toScal M).entry i j) = gop P A (P.glob p i) (P.glob p j) := by
    intro i hi j hj
    have h1 := hMG.entryM i (hm i hi).1 j (hm j hj).1
    rw [if_pos ⟨(hm i hi).2, (hm j hj).2⟩] at h1
    rw [← h1]
    ext a b
    rw [Subsingleton.elim a 0, Subsingleton.elim b 0, toScal_entry]
    rfl
  rw [dynBlock, classBlock]
  congr 3
  cases h : md p with
  | none =>
    funext s t
    simp only [diagBlock, denseMd]
    rw [he F[s.1] (List.getElem_mem _) F[t.1] (List.getElem_mem _)]
  | some d =>
    funext s t
    simp only [diagBlock, denseMd]
    rw [he F[s.1] (List.getElem_mem _) F[t.1] (List.getElem_mem _)]

theorem rowClasses_congr {A : CSR ℝ} {f g : ℕ → Bool} (h : ∀ i < A.height, f i = g i) {Fs : List (List ℕ)} (hF : RowClasses A f Fs) : RowClasses A g Fs where
  cls F hFs := by
    refine ⟨(hF.cls F hFs).1, fun i hi => ((hF.cls F hFs).2 i hi).trans ?_⟩
    rw [classOf, classOf]
    refine List.filter_congr fun j hj => ?_
    rw [h j (List.mem_range.1 hj)]
  cover i := by
    rw [hF.cover i]
    constructor
    · rintro ⟨h1, h2, h3⟩; exact ⟨h1, (h i h1) ▸ h2, h3⟩
    · rintro ⟨h1, h2, h3⟩; exact ⟨h1, (h i h1).symm ▸ h2, h3⟩
  order := hF.order

/-- in all groups there are only unknowns of the process; those of the first and last group are not shared -/
theorem ClassGroups.dofs {P : PD} {A : ℕ → CSR (Blk 1)} {M : ℕ → CSR ℝ} {md : ℕ → Option (ℕ → ℝ)} {omega : ℝ} {free : ℕ → Option (ℕ → Bool)} {Fs : ℕ → List (List ℕ)}
    {ord : ℕ → ℕ → List (SBlock 1)} (h : ClassGroups P A M md omega free Fs ord) (hH : ∀ p < P.np, (M p).height = P.ndof p) {p : ℕ} (hp : p < P.np) {i : ℕ} (hi : i < 3) {B : SBlock 1}
    (hB : B ∈ ord p i) : ∃ F ∈ Fs p, B = classBlock P A md omega p F ∧ ∀ d ∈ F, mast P p d ∧ (i ≠ 1 → unshared P p d) := by
  have hmast : ∀ F ∈ Fs p, ∀ d ∈ F, mast P p d := by
    intro F hF d hd
    obtain ⟨h1, h2, -⟩ := ((h.classes p hp).cover d).1 ⟨F, hF, hd⟩
    simp only [Bool.and_eq_true, decide_eq_true_eq] at h2
    exact ⟨by rw [← hH p hp]; exact h1, h2.1⟩
  by_cases h1 : i = 1
  · subst h1
    rw [h.outer p hp] at hB
    obtain ⟨F, hF, rfl⟩ := List.mem_map.1 hB
    have := (List.mem_filter.1 hF).1
    exact ⟨F, this, rfl, fun d hd => ⟨hmast F this d hd, fun h => absurd rfl h⟩⟩
  · have : B ∈ ord p 0 ++ ord p 2 := by
      rw [List.mem_append]
      rcases (by omega : i = 0 ∨ i = 2) with rfl | rfl
      · exact .inl hB
      · exact .inr hB
    rw [h.inner p hp] at this
    obtain ⟨F, hF, rfl⟩ := List.mem_map.1 this
    obtain ⟨g1, g2⟩ := List.mem_filter.1 hF
    rw [Inner, decide_eq_true_eq] at g2
    exact ⟨F, g1, rfl, fun d hd => ⟨hmast F g1 d hd, fun _ => ⟨(hmast F g1 d hd).1, g2 d hd⟩⟩⟩

/-- **C84**: conversion of both parts, construction and smoothing succeed, and the result is textbook block Gauss-Seidel with the classes of rows as blocks. -/
theorem hybridDyn_correct_partial {P : PD} (hP : P.WF) (A : ℕ → CSR (Blk 1)) (hA : GSymm P A) (hsym : ∀ q < P.np, SymPattern (A q)) (hdiag : ∀ q < P.np, HasDiag (A q))
    {M : ℕ → CSR (Blk 1)} {G : ℕ → Option (CSR (Blk 1))} (hMG : ∀ p < P.np, LocalSpec P A p (M p) (G p)) (hpat : ∀ p < P.np, PatternSpec P A p (M p) (G p))
    {inv : SInv} (hinv : Inverts inv) (order : ℕ → List ℕ) (ho : ∀ p < P.np, SortedBy (toScal (M p)) (rowBlocking (toScal (M p))) (order p))
    (orderG : ℕ → List ℕ) (hoG : ∀ p < P.np, ∀ g, G p = some g → SortedBy (toScal g) (rowBlocking (toScal g)) (orderG p))
    (md : ℕ → Option (ℕ → ℝ)) (free : ℕ → Option (ℕ → Bool)) (hdet : ∀ p < P.np, DetOK (toScal (M p)) (md p) (maf P p (free p))) (omega : ℝ) :
    ∃ (D : ℕ → Dyn ℝ) (DG : ℕ → Option (Dyn ℝ)) (Fs : ℕ → List (List ℕ)),
      (∀ p < P.np, finalize (toScal (M p)) (rowBlocking (toScal (M p))) (rowBlocking (toScal (M p))) (order p) = some (D p)) ∧
      (∀ p < P.np, (G p).map (fun g => finalize (toScal g) (rowBlocking (toScal g)) (rowBlocking (toScal g)) (orderG p)) = (DG p).map some) ∧
      (∀ p < P.np, ∀ g E, G p = some g → DG p = some E → ∀ (s : ℝ) (x y : ℕ → ℝ), ∃ y', multAdd E s x y = some y' ∧ ∀ i < P.ndof p, y' i = y i + s * multRow g (up1 x) i 0) ∧
      ∀ dp0 : ℕ → ℕ → ℕ, ∃ (S : ℕ → HDyn) (ord : ℕ → ℕ → List (SBlock 1)),
        (∀ p < P.np, mkHDyn inv P p (D p) (md p) (free p) omega (dp0 p) = some (S p)) ∧
        ClassGroups P A (fun p => toScal (M p)) md omega free Fs ord ∧ Smooths P A M G (dynKernels S) ord := by
  have hsymT : ∀ {X : CSR (Blk 1)}, SymPattern X → SymPattern (toScal X) := by
    intro X hX i j
    rw [toScal_cols, toScal_cols]
    exact hX i j
  have hsM : ∀ p < P.np, SymPattern (M p) ∧ SymPattern ((G p).getD emptyM) := fun p hp => (hpat p hp).symm hp (hMG p hp) hsym
  have hH : ∀ p < P.np, (toScal (M p)).height = P.ndof p := fun p hp => (hMG p hp).dimM.1
  have key : ∀ p, ∃ (D : Dyn ℝ) (Fs : List (List ℕ)), p < P.np → finalize (toScal (M p)) (rowBlocking (toScal (M p))) (rowBlocking (toScal (M p))) (order p) = some D ∧
      RowClasses (toScal (M p)) (fun i => P.isMaster p i && inSubset (free p) i) Fs ∧ ∀ dp0, ∃ S, mkHDyn inv P p D (md p) (free p) omega dp0 = some S ∧
      DynBlock.ObjOK (toScal (M p)) (md p) (maf P p (free p)) omega S.sm ∧ (∀ st, ∀ k ∈ S.stage st, k < S.sm.A.blocks.length) ∧
      groups S (maf P p (free p)) 0 ++ groups S (maf P p (free p)) 2 = Fs.filter (fun F => !shared P p F) ∧ groups S (maf P p (free p)) 1 = Fs.filter (shared P p) := by
    intro p
    by_cases hp : p < P.np
    · have hc : DynBlock.Consistent (toScal (M p)) (rowBlocking (toScal (M p))) (rowBlocking (toScal (M p))) :=
        rowBlocking_consistent _ ((hMG p hp).dimM.1.trans (hMG p hp).dimM.2.symm) (hsymT (hsM p hp).1)
      have hd : HasDiag (toScal (M p)) := by
        intro i hi
        rw [toScal_cols] at hi ⊢
        exact (hpat p hp).diag (hMG p hp) hdiag i hi
      obtain ⟨D, Fs, h1, h2, -, h3⟩ := hdyn_ok hinv P p (toScal_wf (hMG p hp).wfM) hd _ _ hc (order p) (ho p hp) (md p) (free p) (hdet p hp) omega
      exact ⟨D, Fs, fun _ => ⟨h1, h2, h3⟩⟩
    · exact ⟨⟨⟨0, 0, fun _ => 0⟩, ⟨0, 0, fun _ => 0⟩, [], 0, 0⟩, [], fun h => absurd h hp⟩
  choose D Fs hDF using key
  have keyG : ∀ p, ∃ DG : Option (Dyn ℝ), p < P.np → (G p).map (fun g => finalize (toScal g) (rowBlocking (toScal g)) (rowBlocking (toScal g)) (orderG p)) = DG.map some ∧
      ∀ g E, G p = some g → DG = some E → ∀ (s : ℝ) (x y : ℕ → ℝ), ∃ y', multAdd E s x y = some y' ∧ ∀ i < P.ndof p, y' i = y i + s * multRow g (up1 x) i 0 := by
    intro p
    by_cases hp : p < P.np
    · cases hg : G p with
      | none => exact ⟨none, fun _ => ⟨rfl, fun g E h => by cases h⟩⟩
      | some g =>
        have hgd := (hpat p hp).sqG g hg
        have hgw : g.WF := by
          have := (hMG p hp).wfG
          rwa [hg] at this
        have hsg : SymPattern g := by
          have := (hsM p hp).2
          rwa [hg] at this
        have hc : DynBlock.Consistent (toScal g) (rowBlocking (toScal g)) (rowBlocking (toScal g)) := rowBlocking_consistent _ (hgd.1.trans hgd.2.symm) (hsymT hsg)
        obtain ⟨E, hE, hm⟩ := multAdd_correct (toScal g) (toScal_wf hgw) _ _ hc (orderG p) (hoG p hp g hg)
        refine ⟨some E, fun _ => ⟨?_, ?_⟩⟩
        · rw [Option.map_some, Option.map_some, hE]
        · intro g' E' h1 h2 s x y
          cases h1; cases h2
          obtain ⟨y', hy, h⟩ := hm s x y
          refine ⟨y', hy, fun i hi => ?_⟩
          rw [h i (by rw [show (toScal g).height = g.height from rfl, hgd.1]; exact hi)]
          have e := multRow_up1 (toScal_wf hgw) x
          rw [lift_toScal] at e
          rw [e]
          rfl
    · exact ⟨none, fun h => absurd h hp⟩
  choose DG hDG using keyG
  refine ⟨D, DG, Fs, fun p hp => (hDF p hp).1, fun p hp => (hDG p hp).1, fun p hp => (hDG p hp).2, fun dp0 => ?_⟩
  have keyS : ∀ p, ∃ S : HDyn, p < P.np → mkHDyn inv P p (D p) (md p) (free p) omega (dp0 p) = some S ∧
      DynBlock.ObjOK (toScal (M p)) (md p) (maf P p (free p)) omega S.sm ∧ (∀ st, ∀ k ∈ S.stage st, k < S.sm.A.blocks.length) ∧
      groups S (maf P p (free p)) 0 ++ groups S (maf P p (free p)) 2 = (Fs p).filter (fun F => !shared P p F) ∧ groups S (maf P p (free p)) 1 = (Fs p).filter (shared P p) := by
    intro p
    by_cases hp : p < P.np
    · obtain ⟨S, h⟩ := (hDF p hp).2.2 (dp0 p)
      exact ⟨S, fun _ => h⟩
    · exact ⟨⟨⟨⟨⟨0, 0, fun _ => 0⟩, ⟨0, 0, fun _ => 0⟩, [], 0, 0⟩, 0, none, []⟩, 0, [], []⟩, fun h => absurd h hp⟩
  choose S hS using keyS
  let ordB : ℕ → ℕ → List (BBlock 1) := fun p i => (groups (S p) (maf P p (free p)) i).map (dynB (toScal (M p)) (md p) omega)
  have hmast : ∀ p < P.np, ∀ F ∈ Fs p, ∀ d ∈ F, mast P p d := by
    intro p hp F hF d hd
    obtain ⟨h1, h2, -⟩ := ((hDF p hp).2.1.cover d).1 ⟨F, hF, hd⟩
    rw [hH p hp] at h1
    simp only [Bool.and_eq_true] at h2
    exact ⟨h1, (isMaster_iff hp h1).1 h2.1⟩
  have hmap : ∀ p < P.np, ∀ L : List (List ℕ), (∀ F ∈ L, F ∈ Fs p) → (L.map (dynB (toScal (M p)) (md p) omega)).map BBlock.toSpec = L.map (classBlock P A md omega p) := by
    intro p hp L hL
    rw [List.map_map]
    refine List.map_congr_left fun F hF => ?_
    exact classBlock_eq (hMG p hp) md omega (hmast p hp F (hL F hF))
  have hCG : ClassGroups P A (fun p => toScal (M p)) md omega free Fs (fun p i => (ordB p i).map BBlock.toSpec) := by
    constructor
    · intro p hp
      refine rowClasses_congr (fun i hi => ?_) (hDF p hp).2.1
      congr 1
      rw [Bool.eq_iff_iff, decide_eq_true_eq]
      exact isMaster_iff hp (by rw [← hH p hp]; exact hi)
    · intro p hp
      show List.map _ (List.map _ _) ++ List.map _ (List.map _ _) = _
      rw [← List.map_append, ← List.map_append, (hS p hp).2.2.2.1, hmap p hp _ fun F hF => (List.mem_filter.1 hF).1]
      congr 1
      refine List.filter_congr fun F _ => ?_
      rw [shared_inner, Bool.not_not]
    · intro p hp
      show List.map _ (List.map _ _) = _
      rw [(hS p hp).2.2.2.2, hmap p hp _ fun F hF => (List.mem_filter.1 hF).1]
      congr 1
      refine List.filter_congr fun F _ => ?_
      rw [shared_inner]
  refine ⟨S, fun p i => (ordB p i).map BBlock.toSpec, fun p hp => (hS p hp).1, hCG, ?_⟩
  intro bw nls ru ur xz bDist resDist v xh bh ht n s hr hf
  refine stages_smooth hP hMG (ord := ordB) (fun p hp => stages_of (hMG p hp).wfM (symm_M hA (hMG p hp)) (hS p hp).2.1 (hS p hp).2.2.1) ?_ bw nls ru ur xz bDist resDist v xh bh ht hr hf
  intro p hp i hi B hB d hd
  obtain ⟨F, -, h2, h3⟩ := hCG.dofs (fun p hp => hH p hp) hp hi (List.mem_map.2 ⟨B, hB, rfl⟩)
  have : B.dofs = F := congrArg Sigma.fst h2
  exact h3 d (this ▸ hd)

end NgsAMG.HybDyn
