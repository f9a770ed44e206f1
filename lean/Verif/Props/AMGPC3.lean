import Verif.Props.AMGPC2

/-! Towards C92: products with sparse matrices, level matrices. -/

namespace NgsAMG.PC
open Matrix Sm NgsAMG.GS NgsAMG.Spec Sweep SparseMM

section
variable {a b c : ℕ}

theorem linRect_dense (A : CSR (Mt a b ℝ)) (hA : A.WF) (x : ℕ → Fin b → ℝ) (i : ℕ) : linRect A x i = ∑ j ∈ Finset.range A.width, A.entry i j *ᵥ x j := by
  show multRect A x i = _
  rw [multRect_eq]
  have := entry_sum (fun j => (⟨⟨fun M : Mt a b ℝ => M *ᵥ x j, by simp⟩, fun M N => by simp [Matrix.add_mulVec]⟩ : Mt a b ℝ →+ (Fin a → ℝ))) A i (hA.inRange i)
  exact this.symm

theorem linRect_mul (A : CSR (Mt a b ℝ)) (B : CSR (Mt b c ℝ)) (C : CSR (Mt a c ℝ)) (hA : A.WF) (hB : B.WF) (hC : C.WF) (hw : C.width = B.width)
    (h : ∀ i j, C.entry i j = ∑ k ∈ Finset.range A.width, A.entry i k * B.entry k j) (x : ℕ → Fin c → ℝ) : linRect C x = linRect A (linRect B x) := by
  funext i
  rw [linRect_dense C hC, linRect_dense A hA, hw]
  simp only [linRect_dense B hB, h, sum_mulVec', mulVec_sum', mulVec_mulVec]
  rw [Finset.sum_comm]

theorem linRect_outside (A : CSR (Mt a b ℝ)) (hA : A.WF) (x : ℕ → Fin b → ℝ) {i : ℕ} (hi : A.height ≤ i) : linRect A x i = 0 := by
  show multRect A x i = 0
  rw [multRect_eq, hA.outside i hi]; rfl

theorem linRect_adjoint (P : CSR (Mt a b ℝ)) (PT : CSR (Mt b a ℝ)) (hP : P.WF) (hT : PT.WF) (hw : PT.width = P.height)
    (he : ∀ i j, PT.entry j i = (P.entry i j)ᵀ) (u : ℕ → Fin a → ℝ) (v : ℕ → Fin b → ℝ) : ip P.width (linRect PT u) v = ip P.height u (linRect P v) := by
  unfold ip
  simp only [linRect_dense P hP, linRect_dense PT hT, hw, he, sum_dotProduct, dotProduct_sum]
  rw [Finset.sum_comm]
  refine Finset.sum_congr rfl fun i _ => Finset.sum_congr rfl fun j _ => ?_
  rw [dotProduct_mulVec, mulVec_transpose]

end

theorem energy_lin {k : ℕ} (A : CSR (Blk k)) (hA : A.WF) (u : BVec k) : energy A.width A.entry u = ip A.width (A.lin u) u := by
  unfold energy; rw [← multRow_eq _ hA]; rfl

/-- what is known of a level matrix -/
structure LevelOK {k : ℕ} (N : ℕ) (A : CSR (Blk k)) : Prop where
  wf : A.WF
  height : A.height = N
  width : A.width = N
  symm : ∀ i j, A.entry i j = (A.entry j i)ᵀ
  psd : PSD N A.entry

theorem LevelOK.sym {k N : ℕ} {A : CSR (Blk k)} (h : LevelOK N A) : Symm A := ⟨by rw [h.height, h.width], h.symm⟩

theorem LevelOK.selfadj {k N : ℕ} {A : CSR (Blk k)} (h : LevelOK N A) (u v : BVec k) : ipForm N (A.lin u) v = ipForm N u (A.lin v) := by
  have := lin_selfadj A h.wf h.sym u v
  rw [h.width] at this
  exact this

theorem LevelOK.pos {k N : ℕ} {A : CSR (Blk k)} (h : LevelOK N A) (u : BVec k) : 0 ≤ ipForm N (A.lin u) u := by
  have := energy_lin A h.wf u
  rw [h.width] at this
  have h2 := h.psd u
  rw [this] at h2
  exact h2

theorem restrict_level {a b : ℕ} (nhash : ℕ → ℕ) (junk mjunk : ℕ → ℕ → ℕ × ℕ) {N M : ℕ} (A : CSR (Blk a)) (P : CSR (Mt a b ℝ)) (hA : LevelOK N A) (hP : P.WF)
    (h1 : P.height = N) (h2 : P.width = M) (hN : N ≤ 2 ^ 30) (hM : M ≤ 2 ^ 30) :
    ∃ PT C, transpose P = some PT ∧ ((transpose P).bind fun PT => restrictMatrix nhash junk mjunk PT A P) = some C ∧ LevelOK M C ∧
      (∀ u v, ipForm M (linRect PT u) v = ipForm N u (linRect P v)) ∧ ∀ u, C.lin u = linRect PT (A.lin (linRect P u)) := by
  obtain ⟨PT, hT, wT, tH, tW, tE⟩ := transpose_correct P hP
  obtain ⟨D, hD, wD, dH, dW, dE, -⟩ := matMultAB_correct nhash junk mjunk PT A wT hA.wf (by rw [tW, h1, hA.height]) (by rw [hA.width]; exact hN)
  obtain ⟨C, hC, wC, cH, cW, cE, -⟩ := matMultAB_correct nhash junk mjunk D P wD hP (by rw [dW, h1, hA.width]) (by rw [h2]; exact hM)
  have hb : ((transpose P).bind fun PT => restrictMatrix nhash junk mjunk PT A P) = some C := by
    rw [hT, Option.bind_some, restrictMatrix, hD, Option.bind_some, hC]
  have hlin : ∀ u, C.lin u = linRect PT (A.lin (linRect P u)) := by
    intro u
    have e1 := linRect_mul D P C wD hP wC cW cE u
    have e2 := linRect_mul PT A D wT hA.wf wD dW dE (linRect P u)
    rw [e2] at e1
    exact e1
  have hadj : ∀ u v, ipForm M (linRect PT u) v = ipForm N u (linRect P v) := by
    intro u v
    have := linRect_adjoint P PT hP wT tW (fun i j => tE i j) u v
    rw [h1, h2] at this
    exact this
  refine ⟨PT, C, hT, hb, ⟨wC, by rw [cH, dH, tH, h2], by rw [cW, h2], ?_, ?_⟩, hadj, hlin⟩
  · exact restrictMatrix_symm nhash junk mjunk A P hA.wf hP (by rw [hA.height, h1]) (by rw [hA.width, h1]) (by rw [hA.width]; exact hN) (by rw [h2]; exact hM) C hb hA.symm
  · intro u
    have := energy_lin C wC u
    rw [cW, h2] at this
    rw [this, hlin]
    have h3 := hadj (A.lin (linRect P u)) u
    have h4 := hA.pos (linRect P u)
    rw [← h3] at h4
    exact h4

variable {k : ℕ → ℕ}

/-- sizes and symmetry of the input: the finest matrix is symmetric positive semidefinite of size `N 0`, prolongations have matching sizes (at most `2^30`) -/
structure InOK (X : Input k) (N : ℕ → ℕ) : Prop where
  fine : LevelOK (N 0) X.A0
  small : ∀ l < X.n, N l ≤ 2 ^ 30
  pwf : ∀ l, l + 1 < X.n → (X.P l).WF
  height : ∀ l, l + 1 < X.n → (X.P l).height = N l
  width : ∀ l, l + 1 < X.n → (X.P l).width = N (l + 1)

theorem mats_ok (nhash : ℕ → ℕ) (junk mjunk : ℕ → ℕ → ℕ × ℕ) {X : Input k} {N : ℕ → ℕ} (h : InOK X N) :
    ∀ l < X.n, ∃ A, mats nhash junk mjunk X l = some A ∧ LevelOK (N l) A := by
  intro l
  induction l with
  | zero => intro _; exact ⟨_, rfl, h.fine⟩
  | succ l ih =>
    intro hl
    obtain ⟨A, h1, h2⟩ := ih (by omega)
    obtain ⟨PT, C, _, hC, hok, -⟩ := restrict_level nhash junk mjunk A (X.P l) h2 (h.pwf l hl) (h.height l hl) (h.width l hl) (h.small l (by omega)) (h.small (l + 1) hl)
    refine ⟨C, ?_, hok⟩
    rw [mats, h1, Option.bind_some, hC]

/-- the level matrix as linear map, zero beyond the last level -/
noncomputable def levelA (nhash : ℕ → ℕ) (junk mjunk : ℕ → ℕ → ℕ × ℕ) (X : Input k) (l : ℕ) : BVec (k l) →ₗ[ℝ] BVec (k l) :=
  if l < X.n then (mats nhash junk mjunk X l).elim 0 CSR.lin else 0

theorem levelA_eq {nhash : ℕ → ℕ} {junk mjunk : ℕ → ℕ → ℕ × ℕ} {X : Input k} {l : ℕ} {A : CSR (Blk (k l))} (hl : l < X.n) (h : mats nhash junk mjunk X l = some A) :
    levelA nhash junk mjunk X l = A.lin := by
  rw [levelA, if_pos hl, h]; rfl

/-- restriction and prolongation of the built object -/
noncomputable def levelR (X : Input k) (l : ℕ) : BVec (k l) →ₗ[ℝ] BVec (k (l + 1)) := if l + 1 < X.n then (transpose (X.P l)).elim 0 linRect else 0
noncomputable def levelP (X : Input k) (l : ℕ) : BVec (k (l + 1)) →ₗ[ℝ] BVec (k l) := if l + 1 < X.n then linRect (X.P l) else 0

theorem level_transfer (nhash : ℕ → ℕ) (junk mjunk : ℕ → ℕ → ℕ × ℕ) {X : Input k} {N : ℕ → ℕ} (h : InOK X N) (l : ℕ) :
    (∀ u v, ipForm (N (l + 1)) (levelR X l u) v = ipForm (N l) u (levelP X l v)) ∧
    ∀ u, levelA nhash junk mjunk X (l + 1) u = levelR X l (levelA nhash junk mjunk X l (levelP X l u)) := by
  by_cases hl : l + 1 < X.n
  · obtain ⟨A, h1, h2⟩ := mats_ok nhash junk mjunk h l (by omega)
    obtain ⟨PT, C, hT, hC, hok, hadj, hlin⟩ := restrict_level nhash junk mjunk A (X.P l) h2 (h.pwf l hl) (h.height l hl) (h.width l hl) (h.small l (by omega)) (h.small (l + 1) hl)
    have hm : mats nhash junk mjunk X (l + 1) = some C := by rw [mats, h1, Option.bind_some, hC]
    rw [levelA_eq hl hm, levelA_eq (by omega) h1, levelR, levelP, if_pos hl, if_pos hl, hT]
    exact ⟨hadj, hlin⟩
  · rw [levelR, levelP, if_neg hl, if_neg hl, levelA, if_neg hl]
    refine ⟨fun u v => ?_, fun u => rfl⟩
    rw [LinearMap.zero_apply, LinearMap.zero_apply, LinearMap.map_zero₂, map_zero]

theorem level_selfadj (nhash : ℕ → ℕ) (junk mjunk : ℕ → ℕ → ℕ × ℕ) {X : Input k} {N : ℕ → ℕ} (h : InOK X N) (l : ℕ) (u v : BVec (k l)) :
    ipForm (N l) (levelA nhash junk mjunk X l u) v = ipForm (N l) u (levelA nhash junk mjunk X l v) := by
  by_cases hl : l < X.n
  · obtain ⟨A, h1, h2⟩ := mats_ok nhash junk mjunk h l hl
    rw [levelA_eq hl h1]; exact h2.selfadj u v
  · rw [levelA, if_neg hl, LinearMap.zero_apply, LinearMap.zero_apply, LinearMap.map_zero₂, map_zero]

end NgsAMG.PC
