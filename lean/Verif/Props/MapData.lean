import Verif.Spec.AuxEnergy
import Verif.Props.Elast2
import Verif.Props.SparseMM
import Mathlib.Algebra.BigOperators.Group.Finset.Piecewise

/-! C65: the data attached to a coarse mesh represents exactly the fine energy of prolongated coarse vectors. -/

namespace NgsAMG.MapData

open Matrix Finset Elast

/-! ### the scatter loop -/

theorem scatterAdd_apply {I M : Type} [AddCommMonoid M] (l : List I) (key : I → Option ℕ) (val : I → M) (c : ℕ → M) (k : ℕ) :
    scatterAdd l key val c k = c k + (l.map fun i => if key i = some k then val i else 0).sum := by
  induction l generalizing c with
  | nil => simp [scatterAdd]
  | cons i l ih =>
    have : scatterAdd (i :: l) key val c = scatterAdd l key val (match key i with
      | none => c
      | some k => Function.update c k (c k + val i)) := rfl
    rw [this, ih, List.map_cons, List.sum_cons, ← add_assoc]
    congr 1
    cases h : key i with
    | none => simp
    | some k' =>
      by_cases hk : k' = k
      · subst hk; simp
      · simp [hk, Function.update_of_ne (Ne.symm hk)]

theorem sum_keys {I N : Type} [AddCommMonoid N] (l : List I) (key : I → Option ℕ) (n : ℕ) (f : ℕ → I → N)
    (hk : ∀ i ∈ l, ∀ k, key i = some k → k < n) :
    ∑ k ∈ range n, (l.map fun i => if key i = some k then f k i else 0).sum
      = (l.map fun i => match key i with
        | none => 0
        | some k => f k i).sum := by
  induction l with
  | nil => simp
  | cons i l ih =>
    simp only [List.map_cons, List.sum_cons, sum_add_distrib]
    rw [ih fun j hj => hk j (List.mem_cons_of_mem _ hj)]
    congr 1
    cases h : key i with
    | none => simp
    | some k' =>
      have hlt := hk i (by simp) k' h
      rw [sum_eq_single k']
      · simp
      · intro b _ hb
        simp [Ne.symm hb]
      · intro hn
        exact absurd (mem_range.mpr hlt) hn

theorem scatterAdd_sum {I M N : Type} [AddCommMonoid M] [AddCommMonoid N] (l : List I) (key : I → Option ℕ) (val : I → M)
    (c : ℕ → M) (n : ℕ) (g : ℕ → M →+ N) (hk : ∀ i ∈ l, ∀ k, key i = some k → k < n) :
    ∑ k ∈ range n, g k (scatterAdd l key val c k) = ∑ k ∈ range n, g k (c k) +
      (l.map fun i => match key i with
        | none => 0
        | some k => g k (val i)).sum := by
  rw [← sum_keys l key n (fun k i => g k (val i)) hk, ← sum_add_distrib]
  refine sum_congr rfl fun k _ => ?_
  rw [scatterAdd_apply, map_add, map_list_sum, List.map_map]
  congr 2
  refine List.map_congr_left fun i _ => ?_
  simp only [Function.comp]
  split <;> simp

theorem list_range_sum {N : Type} [AddCommMonoid N] (n : ℕ) (f : ℕ → N) :
    ((List.range n).map f).sum = ∑ i ∈ range n, f i := by
  rw [Finset.sum_range]
  induction n with
  | zero => simp
  | succ n ih => rw [List.range_succ, List.map_append, List.sum_append, ih, Fin.sum_univ_castSucc]; simp

/-! ### the piecewise prolongation -/

theorem act_pwProl {VD ED ι : Type} [Fintype ι] (Q : VD → VD → Matrix ι ι ℝ) (F : Mesh VD ED) (C : CMap) (cvd : ℕ → VD)
    (U : ℕ → ι → ℝ) (v : ℕ) (hv : v < F.nv) :
    act (pwProl Q F C cvd) U v = match C.vmap v with
      | none => 0
      | some cv => Q (cvd cv) (F.vdata v) *ᵥ U cv := by
  unfold act pwProl
  simp only [hv, if_true]
  cases C.vmap v <;> simp

theorem groundVertex_lt {VD ED : Type} {F : Mesh VD ED} {C : CMap} (ok : MapOK F C) (ends : ℕ × ℕ) (e cv : ℕ)
    (h : groundVertex C ends e = some cv) : cv < C.ncv := by
  unfold groundVertex at h
  split at h
  · split at h
    · split at h
      · exact ok.vlt _ _ h
      · exact ok.vlt _ _ h
    · simp at h
  · simp at h

/-! ### H1 -/

/-- the identity block used by the H1 energy (h1/h1_energy_impl.hpp:25-29) -/
def h1QHh (k : ℕ) (_ _ : ℝ × ℝ) : Matrix (Fin k) (Fin k) ℝ := 1

/-- **C65**, H1: for every coarse vector the coarse energy is the fine energy of its piecewise prolongation -/
theorem h1Map_galerkin {k : ℕ} (F : Mesh (ℝ × ℝ) ℝ) (C : CMap) (ok : MapOK F C) (U : ℕ → Fin k → ℝ) :
    h1Energy (h1Map F C) U = h1Energy F (act (pwProl (h1QHh k) F C (h1MapV F C)) U) := by
  set P := act (pwProl (h1QHh k) F C (h1MapV F C)) U with hP
  have hPv : ∀ v < F.nv, P v = match C.vmap v with
      | none => 0
      | some cv => U cv := by
    intro v hv
    rw [hP, act_pwProl _ _ _ _ _ _ hv]
    cases C.vmap v <;> simp [h1QHh]
  -- vertex weights
  have hV : ∑ c ∈ range C.ncv, (h1MapV F C c).1 * (U c ⬝ᵥ U c) =
      ∑ v ∈ range F.nv, (F.vdata v).1 * (P v ⬝ᵥ P v) +
      ∑ e ∈ range F.edges.length, (match groundVertex C (F.edge e) e with
        | none => 0
        | some c => F.edata e * (U c ⬝ᵥ U c)) := by
    have h1 := scatterAdd_sum (List.range F.edges.length) (fun e => groundVertex C (F.edge e) e)
      (fun e => ((F.edata e, 0) : ℝ × ℝ)) (scatterAdd (List.range F.nv) C.vmap F.vdata (fun _ => 0)) C.ncv
      (fun c => (AddMonoidHom.mulRight (U c ⬝ᵥ U c)).comp (AddMonoidHom.fst ℝ ℝ))
      (fun e _ c h => groundVertex_lt ok _ _ _ h)
    have h2 := scatterAdd_sum (List.range F.nv) C.vmap F.vdata (fun _ => 0) C.ncv
      (fun c => (AddMonoidHom.mulRight (U c ⬝ᵥ U c)).comp (AddMonoidHom.fst ℝ ℝ))
      (fun v _ c h => ok.vlt _ _ h)
    rw [h2, list_range_sum, list_range_sum] at h1
    simp only [AddMonoidHom.comp_apply, AddMonoidHom.coe_fst, AddMonoidHom.coe_mulRight, Prod.fst_zero, zero_mul,
      sum_const_zero, zero_add] at h1
    rw [show h1MapV F C = scatterAdd (List.range F.edges.length) (fun e => groundVertex C (F.edge e) e)
      (fun e => ((F.edata e, 0) : ℝ × ℝ)) (scatterAdd (List.range F.nv) C.vmap F.vdata (fun _ => 0)) from rfl, h1]
    congr 1
    refine sum_congr rfl fun v hv => ?_
    rw [hPv v (mem_range.mp hv)]
    cases C.vmap v <;> simp
  have hE : ∑ ce ∈ range C.cedges.length, h1MapE F C ce *
        ((U (C.cedge ce).1 - U (C.cedge ce).2) ⬝ᵥ (U (C.cedge ce).1 - U (C.cedge ce).2)) =
      ∑ e ∈ range F.edges.length, (match C.emap e with
        | none => 0
        | some ce => F.edata e * ((U (C.cedge ce).1 - U (C.cedge ce).2) ⬝ᵥ (U (C.cedge ce).1 - U (C.cedge ce).2))) := by
    have h1 := scatterAdd_sum (List.range F.edges.length) C.emap F.edata (fun _ => 0) C.cedges.length
      (fun ce => AddMonoidHom.mulRight ((U (C.cedge ce).1 - U (C.cedge ce).2) ⬝ᵥ (U (C.cedge ce).1 - U (C.cedge ce).2)))
      (fun e he c h => (ok.mapped e (List.mem_range.mp he) c h).1)
    rw [list_range_sum] at h1
    simp only [AddMonoidHom.coe_mulRight, zero_mul, sum_const_zero, zero_add] at h1
    exact h1
  have hlhs : h1Energy (h1Map F C) U =
      ∑ c ∈ range C.ncv, (h1MapV F C c).1 * (U c ⬝ᵥ U c) +
      ∑ ce ∈ range C.cedges.length, h1MapE F C ce *
        ((U (C.cedge ce).1 - U (C.cedge ce).2) ⬝ᵥ (U (C.cedge ce).1 - U (C.cedge ce).2)) := rfl
  rw [hlhs, hV, hE, h1Energy, add_assoc, ← sum_add_distrib]
  congr 1
  refine sum_congr rfl fun e he => ?_
  have he := mem_range.mp he
  obtain ⟨l0, l1⟩ := ok.ends e he
  rw [hPv _ l0, hPv _ l1]
  cases hem : C.emap e with
  | some ce =>
    obtain ⟨_, a, b, ha, hb, hc⟩ := ok.mapped e he ce hem
    rw [ha, hb]
    simp only [groundVertex, hem]
    rcases hc with hc | hc
    · simp [hc]
    · simp only [hc]
      rw [← neg_sub (U a) (U b), dotProduct_neg, neg_dotProduct, neg_neg]
      simp
  | none =>
    simp only [groundVertex, hem, if_true, add_zero]
    by_cases hne : C.vmap (F.edge e).1 = C.vmap (F.edge e).2
    · simp [hne]
    · rcases ok.unmapped e he hem with h | h | h
      · exact absurd h hne
      · rw [h] at hne ⊢
        cases h1 : C.vmap (F.edge e).2 with
        | none => exact absurd h1.symm hne
        | some b => simp
      · rw [h] at hne ⊢
        cases h1 : C.vmap (F.edge e).1 with
        | none => exact absurd h1 hne
        | some b => simp

end NgsAMG.MapData
