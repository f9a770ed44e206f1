import Verif.Model.AMGPC
import Verif.Props.AMGTheory
import Verif.Props.GaussSeidel
import Verif.Props.LocBlock4
import Verif.Props.SparseMM

/-! Towards C92: all smoothers of a level, with any number of steps, symmetrized or not, are sweeps over a list of local corrections forward and over the reversed list backward. -/

namespace NgsAMG.Sweep
variable {V ι : Type*} [AddCommGroup V] [Module ℝ V] {A : V →ₗ[ℝ] V} {P : ι → V →ₗ[ℝ] V}

/-- the reversed sweep is the adjoint of the sweep, corrections of the list self-adjoint -/
theorem sweep_adjoint_mem (B : LinearMap.BilinForm ℝ V) (hA : ∀ u v, B (A u) v = B u (A v)) (L : List ι)
    (hP : ∀ i ∈ L, ∀ u v, B (P i u) v = B u (P i v)) (b c : V) : B (sweep A P L 0 b) c = B b (sweep A P L.reverse 0 c) := by
  classical
  have key := sweep_adjoint (A := A) (P := fun i : {i // i ∈ L} => P i.1) B hA (fun i u v => hP i.1 i.2 u v) L.attach b c
  have h1 : ∀ (M : List {i // i ∈ L}) (x b : V), sweep A (fun i : {i // i ∈ L} => P i.1) M x b = sweep A P (M.map Subtype.val) x b := by
    intro M
    induction M with
    | nil => intro x b; rfl
    | cons i M ih => intro x b; simp only [List.map_cons, sweep_cons]; rw [ih]
  rw [h1, h1, List.map_reverse, List.attach_map_subtype_val] at key
  exact key

/-- either no correction sees the right hand side, or the energy gets smaller -/
theorem J_sweep_strict (B : LinearMap.BilinForm ℝ V) (hA : ∀ u v, B (A u) v = B u (A v)) (hsym : ∀ u v, B u v = B v u)
    (L : List ι) (hP : ∀ i ∈ L, Good B A (P i)) (b : V)
    (hd : ∀ i ∈ L, P i b = 0 ∨ B (A (P i b)) (P i b) < 2 * B b (P i b)) (hne : ∃ i ∈ L, P i b ≠ 0) : J B A b (sweep A P L 0 b) < 0 := by
  induction L with
  | nil => obtain ⟨i, hi, _⟩ := hne; cases hi
  | cons i L ih =>
    rw [sweep_cons]
    by_cases h0 : P i b = 0
    · have : corr A (P i) 0 b = 0 := by simp [corr, h0]
      rw [this]
      refine ih (fun j hj => hP j (List.mem_cons_of_mem _ hj)) (fun j hj => hd j (List.mem_cons_of_mem _ hj)) ?_
      obtain ⟨j, hj, hn⟩ := hne
      rcases List.mem_cons.1 hj with rfl | hj
      · exact absurd h0 hn
      · exact ⟨j, hj, hn⟩
    · refine lt_of_le_of_lt (J_sweep B hA hsym L (fun j hj => hP j (List.mem_cons_of_mem _ hj)) b _) ?_
      rw [J_corr B hA hsym]
      rcases hd i List.mem_cons_self with h | h
      · exact absurd h h0
      · simp only [J, map_zero, sub_zero]
        simp
        linarith

theorem sweep_iterate (L : List ι) (b : V) : ∀ (n : ℕ) (x : V), (fun y => sweep A P L y b)^[n] x = sweep A P (List.replicate n L).flatten x b := by
  intro n
  induction n with
  | zero => intro x; rfl
  | succ n ih => intro x; rw [Function.iterate_succ_apply, ih, List.replicate_succ, List.flatten_cons, sweep_append]

end NgsAMG.Sweep

namespace NgsAMG.PC
open Matrix Sm Spec Sweep

variable {V : Type*} [AddCommGroup V] [Module ℝ V]

/-- contract of a smoothing routine (Spec/SmootherContract); `full = false` leaves out the case that a new residual is asked for although none was given -/
def Contract' (full : Bool) (A : V → V) (S : Step V) (f : V → V → V) : Prop :=
  ∀ x b res ru ur xz, FlagsTruthful A x b res ru xz → (full = true ∨ ru = true ∨ ur = false) →
    (S x b res ru ur xz).1 = f x b ∧ (ur = true → (S x b res ru ur xz).2 = b - A (f x b))

theorem contract'_true (A : V → V) (S : Step V) (f : V → V → V) : Contract' true A S f ↔ Contract A S f :=
  ⟨fun h x b res ru ur xz ht => h x b res ru ur xz ht (Or.inl rfl), fun h x b res ru ur xz ht _ => h x b res ru ur xz ht⟩

/-- the routine corrected in the excepted case -/
def patch (A : V → V) (f : V → V → V) (S : Step V) : Step V := fun x b res ru ur xz =>
  if !ru && ur then (f x b, b - A (f x b)) else S x b res ru ur xz

theorem patch_eq (A : V → V) (f : V → V → V) (S : Step V) (x b res : V) (ru ur xz : Bool) (h : ru = true ∨ ur = false) :
    patch A f S x b res ru ur xz = S x b res ru ur xz := by
  unfold patch
  rcases h with rfl | rfl <;> simp

theorem patch_contract (A : V → V) (f : V → V → V) (S : Step V) (h : Contract' false A S f) : Contract A (patch A f S) f := by
  intro x b res ru ur xz ht
  unfold patch
  split
  · exact ⟨rfl, fun _ => rfl⟩
  · rename_i hc
    refine h x b res ru ur xz ht (Or.inr ?_)
    cases ru <;> cases ur <;> simp_all

theorem repeat_patch (A : V → V) (f : V → V → V) (S : Step V) (b : V) (ur : Bool) : ∀ (n : ℕ) (s : V × V),
    repeatStep (patch A f S) b ur n s = repeatStep S b ur n s := by
  intro n
  induction n with
  | zero => intro s; rfl
  | succ n ih =>
    intro s
    rw [repeatStep, repeatStep, ih, patch_eq]
    cases ur <;> simp

theorem smoothK_patch (A : V → V) (f : V → V → V) (S : Step V) (n : ℤ) (x b res : V) (ru ur xz : Bool) (h : ru = true ∨ ur = false) :
    smoothK (patch A f S) n x b res ru ur xz = smoothK S n x b res ru ur xz := by
  unfold smoothK
  rw [repeat_patch, patch_eq _ _ _ _ _ _ _ _ _ h]

theorem smoothSymm_patch (A : V → V) (f g : V → V → V) (F B : Step V) (x b res : V) (ru ur xz : Bool) (h : ru = true ∨ ur = false) :
    smoothSymm (patch A f F) (patch A g B) x b res ru ur xz = smoothSymm F B x b res ru ur xz := by
  unfold smoothSymm
  dsimp only
  rw [patch_eq _ _ _ _ _ _ _ _ _ h, patch_eq]
  cases ur <;> simp

theorem symmK_patch (A : V → V) (f g : V → V → V) (F B : Step V) (n : ℤ) (x b res : V) (ru ur xz : Bool) (h : ru = true ∨ ur = false) :
    smoothK (smoothSymm (patch A f F) (patch A g B)) n x b res ru ur xz = smoothK (smoothSymm F B) n x b res ru ur xz := by
  unfold smoothK
  rw [smoothSymm_patch _ _ _ _ _ _ _ _ _ _ _ h]
  generalize smoothSymm F B x b res ru ur xz = s
  have : ∀ (n : ℕ) (s : V × V), repeatStep (smoothSymm (patch A f F) (patch A g B)) b ur n s = repeatStep (smoothSymm F B) b ur n s := by
    intro n
    induction n with
    | zero => intro s; rfl
    | succ n ih =>
      intro s
      rw [repeatStep, repeatStep, ih, smoothSymm_patch]
      cases ur <;> simp
  exact this _ _

/-- two iterations are sweeps over a list and its reverse -/
theorem proxy_lists (A : V →ₗ[ℝ] V) {ι : Type*} (P : ι → V →ₗ[ℝ] V) (L : List ι) (n : ℤ) (symm : Bool) :
    ∃ L' : List ι, (∀ i, i ∈ L' ↔ i ∈ L) ∧
      (if symm then iterK (fun x b => sweep A P L.reverse (sweep A P L x b) b) n else iterK (sweep A P L) n) = sweep A P L' ∧
      (if symm then iterK (fun x b => sweep A P L.reverse (sweep A P L x b) b) n else iterK (sweep A P L.reverse) n) = sweep A P L'.reverse := by
  have hpos : max 1 n.toNat ≠ 0 := by omega
  have hmem : ∀ (M : List ι) (i : ι), i ∈ (List.replicate (max 1 n.toNat) M).flatten ↔ i ∈ M := by
    intro M i
    simp only [List.mem_flatten, List.mem_replicate]
    constructor
    · rintro ⟨l, ⟨_, rfl⟩, h⟩; exact h
    · intro h; exact ⟨M, ⟨hpos, rfl⟩, h⟩
  have hrev : ∀ (M : List ι), (List.replicate (max 1 n.toNat) M).flatten.reverse = (List.replicate (max 1 n.toNat) M.reverse).flatten := by
    intro M
    rw [List.reverse_flatten, List.map_replicate, List.reverse_replicate]
  cases symm with
  | true =>
    have hf : (fun x b => sweep A P L.reverse (sweep A P L x b) b) = sweep A P (L ++ L.reverse) := by
      funext x b; rw [sweep_append]
    refine ⟨(List.replicate (max 1 n.toNat) (L ++ L.reverse)).flatten, fun i => by rw [hmem]; simp, ?_, ?_⟩
    · simp only [if_true]
      rw [hf]; funext x b
      exact sweep_iterate _ b _ x
    · simp only [if_true]
      rw [hf, hrev, List.reverse_append, List.reverse_reverse]; funext x b
      exact sweep_iterate _ b _ x
  | false =>
    refine ⟨(List.replicate (max 1 n.toNat) L).flatten, fun i => hmem L i, ?_, ?_⟩
    · simp only [Bool.false_eq_true, if_false]
      funext x b
      exact sweep_iterate _ b _ x
    · simp only [Bool.false_eq_true, if_false]
      rw [hrev]; funext x b
      exact sweep_iterate _ b _ x

theorem proxy_sweep (full : Bool) (A : V →ₗ[ℝ] V) {ι : Type*} (P : ι → V →ₗ[ℝ] V) (L : List ι) (F B : Step V)
    (hF : Contract' full A F (sweep A P L)) (hB : Contract' full A B (sweep A P L.reverse)) (n : ℤ) (symm : Bool) :
    ∃ L' : List ι, (∀ i, i ∈ L' ↔ i ∈ L) ∧ Contract' full A (proxySmooth F B n symm) (sweep A P L') ∧
      Contract' full A (proxySmoothBack F B n symm) (sweep A P L'.reverse) := by
  obtain ⟨L', hm, h1, h2⟩ := proxy_lists A P L n symm
  refine ⟨L', hm, ?_⟩
  cases full with
  | true =>
    rw [contract'_true] at *
    rw [contract'_true]
    rw [← h1, ← h2]
    exact proxy_contract A F B _ _ hF hB n symm
  | false =>
    have hc := proxy_contract A _ _ _ _ (patch_contract A _ F hF) (patch_contract A _ B hB) n symm
    rw [h1, h2] at hc
    refine ⟨?_, ?_⟩
    · intro x b res ru ur xz ht hfl
      have hfl : ru = true ∨ ur = false := by simpa using hfl
      have := hc.1 x b res ru ur xz ht
      rw [show proxySmooth (patch A (sweep A P L) F) (patch A (sweep A P L.reverse) B) n symm x b res ru ur xz = proxySmooth F B n symm x b res ru ur xz by
        unfold proxySmooth
        cases symm
        · exact smoothK_patch _ _ _ _ _ _ _ _ _ _ hfl
        · exact symmK_patch _ _ _ _ _ _ _ _ _ _ _ _ hfl] at this
      exact this
    · intro x b res ru ur xz ht hfl
      have hfl : ru = true ∨ ur = false := by simpa using hfl
      have := hc.2 x b res ru ur xz ht
      rw [show proxySmoothBack (patch A (sweep A P L) F) (patch A (sweep A P L.reverse) B) n symm x b res ru ur xz = proxySmoothBack F B n symm x b res ru ur xz by
        unfold proxySmoothBack
        cases symm
        · exact smoothK_patch _ _ _ _ _ _ _ _ _ _ hfl
        · exact symmK_patch _ _ _ _ _ _ _ _ _ _ _ _ hfl] at this
      exact this

end NgsAMG.PC
