import Verif.Props.NCProl1
import Mathlib.Algebra.BigOperators.Fin
import Mathlib.Algebra.BigOperators.Ring.Finset
import Mathlib.Tactic.Ring
import Mathlib.Tactic.LinearCombination

/-!
# Property C101, the local problem: what its equations say about the net flow
-/

namespace NgsAMG.NCProl
open NgsAMG.SparseMM NgsAMG.Spec
variable {K : Type} [Field K] [LinearOrder K] {b : ℕ}

theorem sum_ffi (fs : List (ℕ × Bool)) (g : ℕ → K) : ∑ i : Fin (ffiinds fs).length, g ((ffiinds fs)[i]) =
    ((fs.filter fun x => x.2).map fun x => g ((ffacets fs).idxOf x.1)).sum := by
  rw [show (∑ i : Fin (ffiinds fs).length, g ((ffiinds fs)[i])) = ((ffiinds fs).map g).sum from Fin.sum_univ_fun_getElem _ _]
  unfold ffiinds
  rw [((List.perm_insertionSort _ _).map g).sum_eq, List.map_map]
  rfl

theorem sum_fff (fs : List (ℕ × Bool)) (g : ℕ → K) : ∑ i : Fin (fffinds fs).length, g ((fffinds fs)[i]) =
    ((fs.filter fun x => !x.2).map fun x => g ((ffacets fs).idxOf x.1)).sum := by
  rw [show (∑ i : Fin (fffinds fs).length, g ((fffinds fs)[i])) = ((fffinds fs).map g).sum from Fin.sum_univ_fun_getElem _ _]
  unfold fffinds
  rw [((List.perm_insertionSort _ _).map g).sum_eq, List.map_map]
  rfl

theorem sum_both (fs : List (ℕ × Bool)) (g : ℕ → K) :
    (∑ i : Fin (ffiinds fs).length, g ((ffiinds fs)[i])) + ∑ i : Fin (fffinds fs).length, g ((fffinds fs)[i]) =
    (fs.map fun x => g ((ffacets fs).idxOf x.1)).sum := by
  rw [sum_ffi, sum_fff, ← List.sum_append, ← List.map_append]
  exact ((List.filter_append_perm (fun x : ℕ × Bool => x.2) fs).map _).sum_eq

theorem bfFold (I : Inp b K) (ff : List ℕ) (v : ℕ) (p : ℕ × Fin b) : ∀ (l : List (ℕ × ℕ)) (f : ℕ × Fin b → K),
    ((∀ x ∈ l, p.1 ≠ ff.idxOf x.2) → l.foldl (fun f x p => if p.1 = ff.idxOf x.2 then sgn v x.1 * I.flow x.2 p.2 else f p) f p = f p) ∧
    ∀ x ∈ l, p.1 = ff.idxOf x.2 → (∀ y ∈ l, ff.idxOf y.2 = ff.idxOf x.2 → y = x) →
      l.foldl (fun f x p => if p.1 = ff.idxOf x.2 then sgn v x.1 * I.flow x.2 p.2 else f p) f p = sgn v x.1 * I.flow x.2 p.2 := by
  intro l
  induction l with
  | nil => exact fun f => ⟨fun _ => rfl, fun x hx => by simp at hx⟩
  | cons y l ih =>
    intro f
    refine ⟨fun h => ?_, fun x hx hp hu => ?_⟩
    · rw [List.foldl_cons, (ih _).1 fun x hx => h x (List.mem_cons_of_mem _ hx), if_neg (h y List.mem_cons_self)]
    · rw [List.foldl_cons]
      by_cases hl : x ∈ l
      · exact (ih _).2 x hl hp fun z hz => hu z (List.mem_cons_of_mem _ hz)
      · obtain rfl : x = y := by
          rcases List.mem_cons.1 hx with h | h
          · exact h
          · exact absurd h hl
        rw [(ih _).1 fun z hz hpz => hl ?_, if_pos hp]
        rw [← hu z (List.mem_cons_of_mem _ hz) (hpz.symm.trans hp)]
        exact hz

theorem bfRow_in {I : Inp b K} (hI : MeshOK I) {ff : List ℕ} {v w e : ℕ} (hff : ∀ x ∈ I.con v, x.2 ∈ ff) (h : (w, e) ∈ I.con v) (l : Fin b) :
    bfRow I ff v (ff.idxOf e, l) = sgn v w * I.flow e l := by
  refine (bfFold I ff v (ff.idxOf e, l) _ _).2 (w, e) h rfl fun y hy hyx => ?_
  have := (List.idxOf_inj (hff y hy)).1 hyx
  exact List.inj_on_of_nodup_map (hI.once v) hy h this

theorem bfRow_out {I : Inp b K} {ff : List ℕ} {v e : ℕ} (hff : ∀ x ∈ I.con v, x.2 ∈ ff) (h : e ∉ (I.con v).map Prod.snd) (l : Fin b) :
    bfRow I ff v (ff.idxOf e, l) = 0 := by
  refine (bfFold I ff v (ff.idxOf e, l) _ _).1 fun x hx hp => h ?_
  rw [← (List.idxOf_inj (hff x hx)).1 hp.symm]
  exact List.mem_map_of_mem hx

/-- a sum over a list in which only the keys of another list count -/
theorem sum_keys {S : List ℕ} {C : List (ℕ × ℕ)} (hS : S.Nodup) (hC : (C.map Prod.snd).Nodup) (hsub : ∀ x ∈ C, x.2 ∈ S) (g : ℕ → K) (h : ℕ × ℕ → K)
    (h1 : ∀ x ∈ C, g x.2 = h x) (h0 : ∀ e ∈ S, e ∉ C.map Prod.snd → g e = 0) : (S.map g).sum = (C.map h).sum := by
  have e1 : (C.map h).sum = ((C.map Prod.snd).map g).sum := by
    rw [List.map_map]
    exact congrArg List.sum (List.map_congr_left fun x hx => (h1 x hx).symm)
  rw [e1, ← List.sum_toFinset g hS, ← List.sum_toFinset g hC]
  symm
  apply Finset.sum_subset
  · intro e he
    rw [List.mem_toFinset] at he ⊢
    obtain ⟨x, hx, rfl⟩ := List.mem_map.1 he
    exact hsub x hx
  · intro e he hne
    rw [List.mem_toFinset] at he hne
    exact h0 e he hne

/-- the rows of `Bf`, on all edges of the agglomerate, give the net flow -/
theorem bf_netFlow {I : Inp b K} (hI : MeshOK I) {fs : List (ℕ × Bool)} (hn : (fs.map Prod.fst).Nodup) {v : ℕ}
    (hff : ∀ x ∈ I.con v, x.2 ∈ ffacets fs) (Y : ℕ → Fin b → K) :
    (∑ i : Fin (ffiinds fs).length, ∑ l, bfRow I (ffacets fs) v ((ffiinds fs)[i], l) * Y ((ffacets fs).getD ((ffiinds fs)[i]) 0) l) +
      ∑ i : Fin (fffinds fs).length, ∑ l, bfRow I (ffacets fs) v ((fffinds fs)[i], l) * Y ((ffacets fs).getD ((fffinds fs)[i]) 0) l =
    netFlow I.con I.flow Y v := by
  refine (sum_both fs fun k => ∑ l, bfRow I (ffacets fs) v (k, l) * Y ((ffacets fs).getD k 0) l).trans ?_
  rw [show (fun x : ℕ × Bool => ∑ l, bfRow I (ffacets fs) v ((ffacets fs).idxOf x.1, l) * Y ((ffacets fs).getD ((ffacets fs).idxOf x.1) 0) l) =
    (fun e => ∑ l, bfRow I (ffacets fs) v ((ffacets fs).idxOf e, l) * Y ((ffacets fs).getD ((ffacets fs).idxOf e) 0) l) ∘ Prod.fst from rfl,
    ← List.map_map]
  unfold netFlow
  refine sum_keys hn (hI.once v) (fun x hx => mem_ffacets.1 (hff x hx)) _ _ (fun x hx => ?_) fun e he hne => ?_
  · rw [Finset.mul_sum]
    refine Finset.sum_congr rfl fun l _ => ?_
    rw [bfRow_in hI hff (show (x.1, x.2) ∈ I.con v from hx), getD_idxOf (hff x hx)]
    unfold sgn
    ring
  · refine Finset.sum_eq_zero fun l _ => ?_
    rw [bfRow_out hff hne, zero_mul]

theorem sum_prod_fin {n : ℕ} (f : Fin n × Fin b → K) : ∑ p, f p = ∑ i, ∑ l, f (i, l) := Fintype.sum_prod_type f

theorem swap_sum {n : ℕ} {C : Type} [Fintype C] (w : Fin n → Fin b → K) (X : Fin n → Fin b → C → K) (u : C → K) :
    ∑ i, ∑ l, w i l * ∑ c, X i l c * u c = ∑ c, (∑ i, ∑ l, w i l * X i l c) * u c := by
  have : ∀ c, (∑ i, ∑ l, w i l * X i l c) * u c = ∑ i, ∑ l, w i l * (X i l c * u c) := by
    intro c
    rw [Finset.sum_mul]
    refine Finset.sum_congr rfl fun i _ => ?_
    rw [Finset.sum_mul]
    exact Finset.sum_congr rfl fun l _ => mul_assoc _ _ _
  calc ∑ i, ∑ l, w i l * ∑ c, X i l c * u c = ∑ i, ∑ c, ∑ l, w i l * (X i l c * u c) := by
        refine Finset.sum_congr rfl fun i _ => ?_
        rw [Finset.sum_comm]
        exact Finset.sum_congr rfl fun l _ => Finset.mul_sum _ _ _
    _ = ∑ c, ∑ i, ∑ l, w i l * (X i l c * u c) := Finset.sum_comm
    _ = _ := Finset.sum_congr rfl fun c _ => (this c).symm

/-- the equation of a vertex with positive volume -/
theorem core {I : Inp b K} (hI : MeshOK I) {P : List (Row b K)} {a : List ℕ} {fs : List (ℕ × Bool)} {cv : ℕ} (hn : (fs.map Prod.fst).Nodup)
    (hu : IsUnit (matM I a fs).det) (Y : ℕ → Fin b → K) (u : Crs I cv → K)
    (hint : ∀ (k : Fin (ffiinds fs).length) (l : Fin b), Y ((ffacets fs).getD ((ffiinds fs)[k]) 0) l = ∑ c, pext I P a fs cv (.inl (k, l)) c * u c)
    (hext : ∀ (f : Fin (fffinds fs).length) (m : Fin b), Y ((ffacets fs).getD ((fffinds fs)[f]) 0) m = ∑ c, matPf I P cv fs ((fffinds fs)[f], m) c * u c)
    {v r : ℕ} (hr : (real I a)[r]? = some v) (hff : ∀ x ∈ I.con v, x.2 ∈ ffacets fs) :
    ∃ lam : K, (lockP I a = true → ∀ (q : Fin (hB I a)), q.val = hB I a - 1 → lam = ∑ c, pext I P a fs cv (.inr q) c * u c) ∧
      scal I a fs * ((1 : K) / cvol I a) * netFlow I.con I.flow Y v + (if lockP I a then lockW I a fs r * lam else 0) =
        ∑ c, matBc I a fs cv r ((I.ccon cv)[c.1]) c.2 * u c := by
  have hrl : r < (real I a).length := (List.getElem?_eq_some_iff.1 hr).1
  have hrB : r < hB I a := by unfold hB; omega
  have hsol : matM I a fs * pext I P a fs cv = rhs I P a fs cv := by
    unfold pext
    rw [← Matrix.mul_assoc, Matrix.mul_nonsing_inv _ hu, Matrix.one_mul]
  -- the equation, summed over the coarse degrees of freedom
  have heq : ∀ c, (∑ i : Fin (ffiinds fs).length, ∑ l, matB I a fs r ((ffiinds fs)[i], l) * pext I P a fs cv (.inl (i, l)) c) +
      ∑ q : Fin (hB I a), matLock I a fs r q * pext I P a fs cv (.inr q) c = rhs I P a fs cv (.inr ⟨r, hrB⟩) c := by
    intro c
    rw [← hsol, Matrix.mul_apply, Fintype.sum_sum_type, sum_prod_fin]
    rfl
  have hB' : ∀ p, matB I a fs r p = scal I a fs * (1 / cvol I a) * bfRow I (ffacets fs) v p := by
    intro p
    unfold matB
    rw [hr]
  have hrhs : ∀ c, rhs I P a fs cv (.inr ⟨r, hrB⟩) c =
      (-∑ f : Fin (fffinds fs).length, ∑ m : Fin b, matB I a fs r ((fffinds fs)[f], m) * matPf I P cv fs ((fffinds fs)[f], m) c) +
        matBc I a fs cv r ((I.ccon cv)[c.1]) c.2 := by
    intro c
    unfold rhs
    dsimp only
    rw [if_neg]
    intro h
    rw [Bool.and_eq_true, decide_eq_true_eq] at h
    have h1 := h.1
    have h2 := h.2
    unfold hB at h2
    rw [h1] at h2
    simp at h2
    omega
  have hs : (∑ i : Fin (ffiinds fs).length, ∑ l, matB I a fs r ((ffiinds fs)[i], l) * Y ((ffacets fs).getD ((ffiinds fs)[i]) 0) l) +
      (∑ c, (∑ q : Fin (hB I a), matLock I a fs r q * pext I P a fs cv (.inr q) c) * u c) =
      -(∑ f : Fin (fffinds fs).length, ∑ m : Fin b, matB I a fs r ((fffinds fs)[f], m) * Y ((ffacets fs).getD ((fffinds fs)[f]) 0) m) +
        ∑ c, matBc I a fs cv r ((I.ccon cv)[c.1]) c.2 * u c := by
    have e1 : (∑ i : Fin (ffiinds fs).length, ∑ l, matB I a fs r ((ffiinds fs)[i], l) * Y ((ffacets fs).getD ((ffiinds fs)[i]) 0) l) =
        ∑ c, (∑ i : Fin (ffiinds fs).length, ∑ l, matB I a fs r ((ffiinds fs)[i], l) * pext I P a fs cv (.inl (i, l)) c) * u c := by
      simp only [hint]
      exact swap_sum _ _ _
    have e2 : (∑ f : Fin (fffinds fs).length, ∑ m : Fin b, matB I a fs r ((fffinds fs)[f], m) * Y ((ffacets fs).getD ((fffinds fs)[f]) 0) m) =
        ∑ c, (∑ f : Fin (fffinds fs).length, ∑ m : Fin b, matB I a fs r ((fffinds fs)[f], m) * matPf I P cv fs ((fffinds fs)[f], m) c) * u c := by
      simp only [hext]
      exact swap_sum _ _ _
    rw [e1, e2, ← Finset.sum_add_distrib, ← Finset.sum_neg_distrib, ← Finset.sum_add_distrib]
    refine Finset.sum_congr rfl fun c _ => ?_
    rw [← add_mul, heq c, hrhs c]
    ring
  have hnet := bf_netFlow hI hn hff Y
  simp only [hB'] at hs
  have e3 : ∀ (n : ℕ) (g : Fin n → ℕ), (∑ i : Fin n, ∑ l, scal I a fs * (1 / cvol I a) * bfRow I (ffacets fs) v (g i, l) * Y ((ffacets fs).getD (g i) 0) l) =
      scal I a fs * (1 / cvol I a) * ∑ i : Fin n, ∑ l, bfRow I (ffacets fs) v (g i, l) * Y ((ffacets fs).getD (g i) 0) l := by
    intro n g
    rw [Finset.mul_sum]
    refine Finset.sum_congr rfl fun i _ => ?_
    rw [Finset.mul_sum]
    exact Finset.sum_congr rfl fun l _ => mul_assoc _ _ _
  rw [e3 _ fun i => (ffiinds fs)[i], e3 _ fun i => (fffinds fs)[i]] at hs
  by_cases hl : lockP I a = true
  · have hpos : hB I a - 1 < hB I a := by omega
    refine ⟨∑ c, pext I P a fs cv (.inr ⟨hB I a - 1, hpos⟩) c * u c, fun _ q hq => ?_, ?_⟩
    · obtain rfl : q = ⟨hB I a - 1, hpos⟩ := Fin.ext hq
      rfl
    · have hlast : r < hB I a - 1 := by
        unfold hB
        rw [hl]
        simpa using hrl
      have e4 : ∀ c, ∑ q : Fin (hB I a), matLock I a fs r q * pext I P a fs cv (.inr q) c =
          lockW I a fs r * pext I P a fs cv (.inr ⟨hB I a - 1, hpos⟩) c := by
        intro c
        rw [Finset.sum_eq_single_of_mem (⟨hB I a - 1, hpos⟩ : Fin (hB I a)) (Finset.mem_univ _)]
        · unfold matLock
          rw [hl]
          simp only [Bool.not_true, Bool.false_eq_true, if_false]
          rw [if_neg (by omega), if_pos ⟨hlast, trivial⟩]
        · intro q _ hq
          unfold matLock
          rw [hl]
          simp only [Bool.not_true, Bool.false_eq_true, if_false]
          rw [if_neg (by omega), if_neg (fun h => hq (Fin.ext h.2)), zero_mul]
      simp only [e4] at hs
      rw [if_pos hl, ← hnet, mul_add]
      have e5 : ∑ c, lockW I a fs r * pext I P a fs cv (.inr ⟨hB I a - 1, hpos⟩) c * u c =
          lockW I a fs r * ∑ c, pext I P a fs cv (.inr ⟨hB I a - 1, hpos⟩) c * u c := by
        rw [Finset.mul_sum]
        exact Finset.sum_congr rfl fun c _ => mul_assoc _ _ _
      rw [e5] at hs
      linear_combination hs
  · refine ⟨0, fun h => absurd h hl, ?_⟩
    have e4 : ∀ c, ∑ q : Fin (hB I a), matLock I a fs r q * pext I P a fs cv (.inr q) c = 0 := by
      intro c
      refine Finset.sum_eq_zero fun q _ => ?_
      unfold matLock
      rw [if_pos (by simpa using hl), zero_mul]
    simp only [e4, zero_mul, Finset.sum_const_zero] at hs
    rw [if_neg hl, ← hnet, mul_add]
    linear_combination hs

end NgsAMG.NCProl
