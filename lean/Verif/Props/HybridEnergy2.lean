import Verif.Props.HybridEnergy

/-! C52: what a hybrid Gauss-Seidel call does to the energy of the error. -/

namespace NgsAMG.HybSm

open NgsAMG.DCC NgsAMG.Hybrid NgsAMG.Exch NgsAMG.GS NgsAMG.Spec Matrix

variable {k : ℕ} {P : PD}

/-! ### the rows of one call -/

theorem freeRows_nodup (n a b : ℕ) (f : ℕ → Prop) [DecidablePred f] : (freeRows n a b f).Nodup := List.nodup_range.filter _

theorem allRows_nodup (P : PD) (p H : ℕ) (subset : Option (ℕ → Bool)) (bw : Bool) {nls : ℤ} (hn : nls ≤ 1) :
    (allRows P p H subset false bw nls).Nodup := by
  have h0 : rounds nls = 0 := by rw [rounds]; omega
  have d1 : ∀ a b i, i ∈ locRows P p H a b subset → i ∉ exRows P p H subset := by
    intro a b i h1 h2
    simp only [locRows, exRows, freeRows, List.mem_filter, decide_eq_true_eq, locDofs, exDofs, Bool.and_eq_true,
      Bool.not_eq_true'] at h1 h2
    rw [h2.2.2.2.1.2] at h1
    simp at h1
  have d2 : ∀ c i, i ∈ locRows P p H 0 c subset → i ∉ locRows P p H c H subset := by
    intro c i h1 h2
    simp only [locRows, freeRows, List.mem_filter, decide_eq_true_eq] at h1 h2
    omega
  have key : (locRows P p H 0 (splitInd P p H subset) subset ++ exRows P p H subset ++
      locRows P p H (splitInd P p H subset) H subset).Nodup := by
    rw [List.nodup_append', List.nodup_append']
    refine ⟨⟨freeRows_nodup _ _ _ _, freeRows_nodup _ _ _ _, fun i h1 h2 => d1 _ _ i h1 h2⟩, freeRows_nodup _ _ _ _, fun i h1 h2 => ?_⟩
    rcases List.mem_append.1 h1 with h | h
    · exact d2 _ i h h2
    · exact d1 _ _ i h2 h
  cases bw with
  | false => simpa [allRows, h0, loopRows, stageRows, p1, p2] using key
  | true =>
    rw [allRows_reverse P p H subset hn, List.nodup_reverse]
    simpa [allRows, h0, loopRows, stageRows, p1, p2] using key

/-- the rows of one call are all master rows of the subset -/
theorem mem_allRows_iff {p : ℕ} (hp : p < P.np) (subset : Option (ℕ → Bool)) (bw : Bool) {nls : ℤ} (hn : nls ≤ 1) (i : ℕ) :
    i ∈ allRows P p (P.ndof p) subset false bw nls ↔ mast P p i ∧ inSubset subset i = true := by
  have h0 : rounds nls = 0 := by rw [rounds]; omega
  have key : i ∈ locRows P p (P.ndof p) 0 (splitInd P p (P.ndof p) subset) subset ++ exRows P p (P.ndof p) subset ++
      locRows P p (P.ndof p) (splitInd P p (P.ndof p) subset) (P.ndof p) subset ↔ mast P p i ∧ inSubset subset i = true := by
    simp only [locRows, exRows, freeRows, List.mem_append, List.mem_filter, List.mem_range, decide_eq_true_eq, locDofs, exDofs,
      Bool.and_eq_true, Bool.not_eq_true', mast]
    by_cases hi : i < P.ndof p
    · rw [isMaster_iff hp hi]
      by_cases he : (P.dps p i).isEmpty = true
      · simp only [hi, he]
        constructor
        · rintro ((h | h) | h)
          · exact ⟨⟨trivial, h.2.2.2.1.1⟩, h.2.2.2.2⟩
          · exact absurd h.2.2.2.1.2 (by simp)
          · exact ⟨⟨trivial, h.2.2.2.1.1⟩, h.2.2.2.2⟩
        · rintro ⟨⟨_, h1⟩, h2⟩
          by_cases hs : i < splitInd P p (P.ndof p) subset
          · exact Or.inl (Or.inl ⟨trivial, Nat.zero_le _, hs, ⟨h1, trivial⟩, h2⟩)
          · exact Or.inr ⟨trivial, by omega, trivial, ⟨h1, trivial⟩, h2⟩
      · simp only [hi, he]
        constructor
        · rintro ((h | h) | h)
          · exact absurd h.2.2.2.1.2 (by simp)
          · exact ⟨⟨trivial, h.2.2.2.1.1⟩, h.2.2.2.2⟩
          · exact absurd h.2.2.2.1.2 (by simp)
        · rintro ⟨⟨_, h1⟩, h2⟩
          exact Or.inl (Or.inr ⟨trivial, Nat.zero_le _, trivial, ⟨h1, trivial⟩, h2⟩)
    · simp [hi]
  rw [← key]
  cases bw with
  | false => simp [allRows, h0, loopRows, stageRows, p1, p2]
  | true =>
    rw [allRows_reverse P p _ subset hn, List.mem_reverse]
    simp [allRows, h0, loopRows, stageRows, p1, p2]

/-! ### global inner products -/

theorem gip_symm (P : PD) (u v : ℕ → Fin k → ℝ) : gip P u v = gip P v u := by
  simp only [gip, dotProduct_comm]

theorem gip_add_left (P : PD) (u v w : ℕ → Fin k → ℝ) : gip P (u + v) w = gip P u w + gip P v w := by
  simp [gip, add_dotProduct, Finset.sum_add_distrib]

theorem gip_sub_left (P : PD) (u v w : ℕ → Fin k → ℝ) : gip P (u - v) w = gip P u w - gip P v w := by
  simp [gip, sub_dotProduct, Finset.sum_sub_distrib]

theorem gip_sub_right (P : PD) (u v w : ℕ → Fin k → ℝ) : gip P u (v - w) = gip P u v - gip P u w := by
  simp [gip, dotProduct_sub, Finset.sum_sub_distrib]

theorem gip_congr {u v w z : ℕ → Fin k → ℝ} (h1 : ∀ g ∈ allDofs P, u g = w g) (h2 : ∀ g ∈ allDofs P, v g = z g) :
    gip P u v = gip P w z := Finset.sum_congr rfl fun g hg => by rw [h1 g hg, h2 g hg]

theorem gmul_sub (P : PD) (A : ℕ → CSR (Blk k)) (u v : ℕ → Fin k → ℝ) : gmul P A (u - v) = gmul P A u - gmul P A v := by
  funext g
  simp [gmul, Matrix.mulVec_sub, Finset.sum_sub_distrib]

theorem gmul_selfadj {A : ℕ → CSR (Blk k)} (hA : GSymm P A) (u v : ℕ → Fin k → ℝ) : gip P (gmul P A u) v = gip P (gmul P A v) u := by
  have h : ∀ w z : ℕ → Fin k → ℝ, gip P (gmul P A w) z = ∑ g ∈ allDofs P, ∑ h ∈ allDofs P, z g ⬝ᵥ gop P A g h *ᵥ w h := by
    intro w z
    apply Finset.sum_congr rfl; intro g _
    rw [gmul, dotProduct_comm, dotProduct_sum]
  rw [h, h, Finset.sum_comm]
  apply Finset.sum_congr rfl; intro g _
  apply Finset.sum_congr rfl; intro h _
  rw [hA h g, Matrix.mulVec_transpose, dotProduct_comm, Matrix.dotProduct_mulVec]

theorem genergy_sub {A : ℕ → CSR (Blk k)} (hA : GSymm P A) (e δ : ℕ → Fin k → ℝ) :
    genergy P A (e - δ) = genergy P A e - 2 * gip P (gmul P A e) δ + genergy P A δ := by
  rw [genergy, gmul_sub, gip_sub_left, gip_sub_right, gip_sub_right, gmul_selfadj hA δ e, genergy, genergy]
  ring

/-- sum over the DOFs of one master -/
theorem sum_owner {M : Type*} [AddCommMonoid M] (hP : P.WF) (f : ℕ → M) {p : ℕ} (hp : p < P.np) :
    (∑ h ∈ allDofs P, if P.owner h = p then f h else 0) =
      ∑ e ∈ Finset.range (P.ndof p), if P.owner (P.glob p e) = p then f (P.glob p e) else 0 := by
  rw [sum_masters hP, Finset.sum_eq_single p]
  · apply Finset.sum_congr rfl; intro e _
    by_cases h : P.owner (P.glob p e) = p <;> simp [h]
  · intro q _ hq
    apply Finset.sum_eq_zero; intro e _
    by_cases h : P.owner (P.glob q e) = q
    · rw [if_pos h, if_neg (by rw [h]; exact hq)]
    · rw [if_neg h]
  · intro h; exact absurd (Finset.mem_range.2 hp) h

/-- coupling of DOFs with different masters -/
def cross (P : PD) (A : ℕ → CSR (Blk k)) (δ : ℕ → Fin k → ℝ) : ℝ :=
  ∑ g ∈ allDofs P, ∑ h ∈ allDofs P, if P.owner g = P.owner h then 0 else δ g ⬝ᵥ gop P A g h *ᵥ δ h

/-- value of a local table at the master of a global DOF -/
def atM {T : Type*} (P : PD) (md : ℕ → ℕ → T) (g : ℕ) : T := md (P.owner g) (P.loc (P.owner g) g)

/-- the energy after one call -/
theorem energy_change (hP : P.WF) (A : ℕ → CSR (Blk k)) (hA : GSymm P A) (inv : Blk k → Blk k) (md : ℕ → ℕ → Blk k)
    (subset : ℕ → Option (ℕ → Bool)) (bw : Bool) {nls : ℤ} (hn : nls ≤ 1)
    (hd : ∀ p < P.np, ∀ i, mast P p i → inSubset (subset p) i = true →
      (inv (md p i))ᵀ = inv (md p i) ∧ inv (md p i) * md p i * inv (md p i) = inv (md p i))
    (xs xh bh : ℕ → Fin k → ℝ) (hb : ∀ g ∈ allDofs P, bh g = gmul P A xs g) :
    let y := gsX P A inv md subset false bw nls xh bh
    genergy P A (xs - y) = genergy P A (xs - xh) -
      (∑ g ∈ allDofs P, (y - xh) g ⬝ᵥ ((2 : ℝ) • atM P md g - gop P A g g) *ᵥ (y - xh) g) + cross P A (y - xh) := by
  intro y
  set δ := y - xh with hδ
  -- local sweeps
  let x0 : ℕ → BVec k := fun p d => xh (P.glob p d)
  let β : ℕ → BVec k := fun p d => bh (P.glob p d) -
    ∑ h ∈ allDofs P, if P.owner (P.glob p d) = P.owner h then 0 else gop P A (P.glob p d) h *ᵥ xh h
  let L : ℕ → List ℕ := fun p => allRows P p (P.ndof p) (subset p) false bw nls
  let y0 : ℕ → BVec k := fun p => gsSweep (P.ndof p) (blockOp P A p) (fun i => inv (md p i)) (L p) (x0 p) (β p)
  have hL : ∀ p < P.np, ∀ i ∈ L p, mast P p i := fun p hp i hi => mem_allRows hp rfl hi
  have hy : ∀ p < P.np, ∀ d < P.ndof p, P.owner (P.glob p d) = p → y (P.glob p d) = y0 p d := by
    intro p hp d hd' ho
    show gsX P A inv md subset false bw nls xh bh (P.glob p d) = _
    rw [gsX]
    simp only [ho, loc_glob hP hp hd']
    rfl
  have hδm : ∀ p < P.np, ∀ d < P.ndof p, P.owner (P.glob p d) = p → δ (P.glob p d) = (y0 p - x0 p) d := by
    intro p hp d hd' ho
    rw [hδ, Pi.sub_apply, hy p hp d hd' ho]; rfl
  have hδ0 : ∀ p < P.np, ∀ d, d ∉ L p → (y0 p - x0 p) d = 0 := by
    intro p hp d hd'
    show gsSweep _ _ _ _ _ _ d - x0 p d = 0
    rw [gsSweep_outside _ _ _ _ _ _ hd', sub_self]
  have hδn : ∀ p < P.np, ∀ d, ¬ P.owner (P.glob p d) = p → (y0 p - x0 p) d = 0 :=
    fun p hp d ho => hδ0 p hp d fun h => ho (hL p hp d h).2
  -- block products
  have hBmul : ∀ p < P.np, ∀ (v : BVec k) (w : ℕ → Fin k → ℝ), (∀ e < P.ndof p, P.owner (P.glob p e) = p → v e = w (P.glob p e)) →
      ∀ d < P.ndof p, P.owner (P.glob p d) = p →
      mulBlock (P.ndof p) (blockOp P A p) v d = ∑ h ∈ allDofs P, if P.owner h = p then gop P A (P.glob p d) h *ᵥ w h else 0 := by
    intro p hp v w hvw d hd' ho
    rw [sum_owner hP _ hp, mulBlock]
    apply Finset.sum_congr rfl; intro e he
    rw [Finset.mem_range] at he
    by_cases hoe : P.owner (P.glob p e) = p
    · rw [blockOp, if_pos ⟨⟨hd', ho⟩, he, hoe⟩, if_pos hoe, hvw e he hoe]
    · rw [blockOp, if_neg (fun h => hoe h.2.2), if_neg hoe, Matrix.zero_mulVec]
  have hdec : ∀ p < P.np, _ := fun p hp => sweep_decrease (P.ndof p) (blockOp P A p) (blockOp_symm hA p) (fun i => inv (md p i)) (md p) (L p)
    (allRows_nodup P p _ _ bw hn) (fun i hi => (hL p hp i hi).1)
    (fun i hi => hd p hp i (hL p hp i hi) ((mem_allRows_iff hp _ _ hn _).1 hi).2) (x0 p) (β p)
  -- residual
  have hres : gip P (gmul P A (xs - xh)) δ = ∑ p ∈ Finset.range P.np, ip (P.ndof p)
      (β p - mulBlock (P.ndof p) (blockOp P A p) (x0 p)) (y0 p - x0 p) := by
    rw [gip, sum_masters hP]
    apply Finset.sum_congr rfl; intro p hp
    rw [Finset.mem_range] at hp
    rw [ip]
    apply Finset.sum_congr rfl; intro d hd'
    rw [Finset.mem_range] at hd'
    by_cases ho : P.owner (P.glob p d) = p
    · rw [if_pos ho, hδm p hp d hd' ho, gmul_sub, Pi.sub_apply, ← hb _ (glob_mem hp hd')]
      congr 1
      show _ = bh (P.glob p d) - _ - mulBlock (P.ndof p) (blockOp P A p) (x0 p) d
      rw [hBmul p hp (x0 p) xh (fun _ _ _ => rfl) d hd' ho, sub_sub, ← Finset.sum_add_distrib, gmul]
      congr 1
      apply Finset.sum_congr rfl; intro h _
      rw [ho]
      by_cases e : p = P.owner h
      · rw [if_pos e, if_pos e.symm, zero_add]
      · rw [if_neg e, if_neg (Ne.symm e), add_zero]
    · rw [if_neg ho, hδn p hp d ho, dotProduct_zero]
  have henergy : genergy P A δ = (∑ p ∈ Finset.range P.np, ip (P.ndof p)
      (mulBlock (P.ndof p) (blockOp P A p) (y0 p - x0 p)) (y0 p - x0 p)) + cross P A δ := by
    have h1 : genergy P A δ = (∑ g ∈ allDofs P, ∑ h ∈ allDofs P, if P.owner g = P.owner h then δ g ⬝ᵥ gop P A g h *ᵥ δ h else 0) +
        cross P A δ := by
      rw [cross, ← Finset.sum_add_distrib, genergy, gip]
      apply Finset.sum_congr rfl; intro g _
      rw [← Finset.sum_add_distrib, gmul, dotProduct_comm, dotProduct_sum]
      apply Finset.sum_congr rfl; intro h _
      by_cases e : P.owner g = P.owner h <;> simp [e]
    rw [h1]
    congr 1
    rw [sum_masters hP]
    apply Finset.sum_congr rfl; intro p hp
    rw [Finset.mem_range] at hp
    rw [ip]
    apply Finset.sum_congr rfl; intro d hd'
    rw [Finset.mem_range] at hd'
    by_cases ho : P.owner (P.glob p d) = p
    · rw [if_pos ho, hBmul p hp (y0 p - x0 p) δ (fun e he hoe => (hδm p hp e he hoe).symm) d hd' ho, ← hδm p hp d hd' ho,
        dotProduct_comm, dotProduct_sum]
      apply Finset.sum_congr rfl; intro h _
      by_cases e : P.owner h = p
      · rw [if_pos e, if_pos (by rw [ho, e])]
      · rw [if_neg e, if_neg (by rw [ho]; exact Ne.symm e), dotProduct_zero]
    · rw [if_neg ho, hδn p hp d ho, dotProduct_zero]
  have hgain : (∑ g ∈ allDofs P, δ g ⬝ᵥ ((2 : ℝ) • atM P md g - gop P A g g) *ᵥ δ g) =
      ∑ p ∈ Finset.range P.np, ((L p).map fun i => (y0 p - x0 p) i ⬝ᵥ ((2 : ℝ) • md p i - blockOp P A p i i) *ᵥ (y0 p - x0 p) i).sum := by
    rw [sum_masters hP]
    apply Finset.sum_congr rfl; intro p hp
    rw [Finset.mem_range] at hp
    rw [← List.sum_toFinset _ (allRows_nodup P p _ _ bw hn)]
    symm
    rw [← Finset.sum_subset (s₁ := (L p).toFinset) (s₂ := Finset.range (P.ndof p))]
    · apply Finset.sum_congr rfl; intro d hd'
      have hm := hL p hp d (List.mem_toFinset.1 hd')
      rw [if_pos hm.2, hδm p hp d hm.1 hm.2, atM, hm.2, loc_glob hP hp hm.1, blockOp, if_pos ⟨hm, hm⟩]
    · intro d hd'
      exact Finset.mem_range.2 (hL p hp d (List.mem_toFinset.1 hd')).1
    · intro d hd' hn'
      rw [Finset.mem_range] at hd'
      by_cases ho : P.owner (P.glob p d) = p
      · rw [if_pos ho, hδm p hp d hd' ho, hδ0 p hp d (fun h => hn' (List.mem_toFinset.2 h)), zero_dotProduct]
      · rw [if_neg ho]
  have hsub : xs - y = (xs - xh) - δ := by rw [hδ]; abel
  rw [hsub, genergy_sub hA, hres, henergy, hgain]
  have hsum : (∑ p ∈ Finset.range P.np, ip (P.ndof p) (mulBlock (P.ndof p) (blockOp P A p) (y0 p - x0 p)) (y0 p - x0 p)) -
      2 * (∑ p ∈ Finset.range P.np, ip (P.ndof p) (β p - mulBlock (P.ndof p) (blockOp P A p) (x0 p)) (y0 p - x0 p)) =
      -∑ p ∈ Finset.range P.np, ((L p).map fun i => (y0 p - x0 p) i ⬝ᵥ ((2 : ℝ) • md p i - blockOp P A p i i) *ᵥ (y0 p - x0 p) i).sum := by
    rw [Finset.mul_sum, ← Finset.sum_sub_distrib, ← Finset.sum_neg_distrib]
    exact Finset.sum_congr rfl fun p hp => hdec p (Finset.mem_range.1 hp)
  linarith

end NgsAMG.HybSm
