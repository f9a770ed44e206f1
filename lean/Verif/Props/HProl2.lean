import Verif.Props.HProl1
import Verif.Spec.EdgeFlow
import Mathlib.Algebra.BigOperators.Ring.Finset
import Mathlib.Tactic.Ring

/-!
# Property C103: flows out of the vertices of an agglomerate
-/

namespace NgsAMG.HProl
open NgsAMG.Spec
variable {K : Type} [Field K] [LinearOrder K]

/-- the sign of the flow over `e` out of `v` -/
def sigma (I : Inp K) (v e : ℕ) : K := if (I.edge e).1 = v then 1 else if (I.edge e).2 = v then -1 else 0

theorem ends_ne {I : Inp K} (hI : MeshOK I) {e : ℕ} (he : e < I.nE) : (I.edge e).1 ≠ (I.edge e).2 := (hI.ends _ _ _ (hI.all e he)).2

theorem sigma_con {I : Inp K} (hI : MeshOK I) {v w e : ℕ} (h : (w, e) ∈ I.con v) (x : K) : (if (I.edge e).1 = v then x else -x) = sigma I v e * x := by
  unfold sigma
  obtain ⟨h1 | h1, h2⟩ := hI.ends _ _ _ h
  · simp [h1]
  · simp [h1, Ne.symm h2]

theorem con_of_sigma {I : Inp K} (hI : MeshOK I) {v e : ℕ} (he : e < I.nE) (h : sigma I v e ≠ 0) : ∃ w, (w, e) ∈ I.con v := by
  unfold sigma at h
  have h1 := hI.all e he
  split_ifs at h with q1 q2
  · exact ⟨_, q1 ▸ h1⟩
  · exact ⟨_, q2 ▸ hI.symm _ _ _ h1⟩
  · exact absurd rfl h

theorem outOf_sigma {I : Inp K} (hI : MeshOK I) (φ : ℕ → K) (v : ℕ) {S : Finset ℕ} (hS : ∀ e ∈ S, e < I.nE) (hv : ∀ w e, (w, e) ∈ I.con v → e ∈ S) :
    outOf I.con I.edge φ v = ∑ e ∈ S, sigma I v e * φ e := by
  have h1 : outOf I.con I.edge φ v = (((I.con v).map Prod.snd).map fun e => sigma I v e * φ e).sum := by
    unfold outOf
    rw [List.map_map]
    exact congrArg List.sum (List.map_congr_left fun x hx => sigma_con hI (show (x.1, x.2) ∈ I.con v from hx) _)
  rw [h1, ← List.sum_toFinset _ (hI.once v)]
  refine Finset.sum_subset ?_ ?_
  · intro e he
    obtain ⟨x, hx, rfl⟩ := List.mem_map.1 (List.mem_toFinset.1 he)
    exact hv x.1 x.2 hx
  · intro e he hn
    by_contra hne
    obtain ⟨w, hw⟩ := con_of_sigma hI (hS e he) (left_ne_zero_of_mul hne)
    exact hn (List.mem_toFinset.2 (List.mem_map.2 ⟨_, hw, rfl⟩))

/-- flow out of the agglomerate over `e` -/
def tau (I : Inp K) (C e : ℕ) : K := (if (I.edge e).1 ∈ I.agg C then 1 else 0) - if (I.edge e).2 ∈ I.agg C then 1 else 0

theorem sum_sigma {I : Inp K} (hI : MeshOK I) (C : ℕ) {e : ℕ} (he : e < I.nE) : ∑ v ∈ (I.agg C).toFinset, sigma I v e = tau I C e := by
  have h : ∀ v, sigma I v e = (if (I.edge e).1 = v then 1 else 0) - (if (I.edge e).2 = v then (1 : K) else 0) := by
    intro v
    unfold sigma
    have := ends_ne hI he
    split_ifs with q1 q2 q2
    · exact absurd (q1.trans q2.symm) this
    · ring
    · ring
    · ring
  unfold tau
  simp only [h, Finset.sum_sub_distrib, Finset.sum_ite_eq, List.mem_toFinset]

/-- an edge mapped to a coarse edge at `C` goes out of the agglomerate -/
theorem tau_coarse {I : Inp K} (hI : MeshOK I) {C D E e : ℕ} (hD : (D, E) ∈ I.ccon C) (he : e < I.nE) (hE : I.emap e = some E) :
    tau I C e = (if (I.cedge E).1 = C then 1 else -1) * (if I.vmap (I.edge e).1 = some (I.cedge E).1 then 1 else -1) ∧
    (((I.edge e).1 ∈ I.agg C ∧ (I.edge e).2 ∉ I.agg C) ∨ ((I.edge e).1 ∉ I.agg C ∧ (I.edge e).2 ∈ I.agg C)) := by
  have hc := hI.all e he
  have h0 : ¬ (I.vmap (I.edge e).1 = none ∨ I.vmap (I.edge e).1 = I.vmap (I.edge e).2) := fun h => by
    rw [hI.emapN _ _ _ hc h] at hE
    cases hE
  have h2 : I.vmap (I.edge e).2 ≠ none := fun h => by
    rw [hI.emapN _ _ _ (hI.symm _ _ _ hc) (Or.inl h)] at hE
    cases hE
  rw [not_or] at h0
  obtain ⟨A, hA⟩ := Option.ne_none_iff_exists'.1 h0.1
  obtain ⟨B, hB⟩ := Option.ne_none_iff_exists'.1 h2
  have hAB : A ≠ B := fun h => h0.2 (by rw [hA, hB, h])
  obtain ⟨E', e1, e2⟩ := hI.emap _ _ _ A B hc hA hB hAB
  rw [hE] at e1
  cases e1
  have m1 : (I.edge e).1 ∈ I.agg C ↔ A = C := by rw [mem_agg hI hc, hA, Option.some.injEq]
  have m2 : (I.edge e).2 ∈ I.agg C ↔ B = C := by rw [mem_agg' hI hc, hB, Option.some.injEq]
  unfold tau
  simp only [m1, m2, hA]
  obtain ⟨p, p'⟩ := hI.cends _ _ _ hD
  obtain ⟨q, q'⟩ := hI.cends _ _ _ e2
  have hset : (A = C ∧ B = D) ∨ (A = D ∧ B = C) := by
    rcases p with p | p <;> rcases q with q | q <;>
      · have := p.symm.trans q
        simp only [Prod.mk.injEq] at this
        obtain ⟨rfl, rfl⟩ := this
        simp
  rcases hset with ⟨rfl, rfl⟩ | ⟨rfl, rfl⟩
  · refine ⟨?_, Or.inl ⟨rfl, Ne.symm hAB⟩⟩
    rcases p with p | p
    · simp [p, Ne.symm hAB]
    · simp [p, Ne.symm hAB, hAB]
  · refine ⟨?_, Or.inr ⟨hAB, rfl⟩⟩
    rcases p with p | p
    · simp [p, hAB, Ne.symm hAB]
    · simp [p, hAB]

/-- the flows out of the vertices sum up to the flow of the coarse field out of the coarse vertex -/
theorem sum_outOf {I : Inp K} (hI : MeshOK I) (C : ℕ) (φ ψ : ℕ → K)
    (h1 : ∀ D E, (D, E) ∈ I.ccon C → ψ E = ∑ e ∈ (c2f I.emap I.nE E).toFinset, (if I.vmap (I.edge e).1 = some (I.cedge E).1 then 1 else -1) * φ e)
    (h2 : ∀ e, Exterior I C e → I.emap e = none → φ e = 0) :
    ∑ v ∈ (I.agg C).toFinset, outOf I.con I.edge φ v = outOf I.ccon I.cedge ψ C := by
  have a1 : ∑ v ∈ (I.agg C).toFinset, outOf I.con I.edge φ v = ∑ e ∈ Finset.range I.nE, tau I C e * φ e := by
    calc ∑ v ∈ (I.agg C).toFinset, outOf I.con I.edge φ v
        = ∑ v ∈ (I.agg C).toFinset, ∑ e ∈ Finset.range I.nE, sigma I v e * φ e :=
          Finset.sum_congr rfl fun v _ => outOf_sigma hI φ v (fun e he => Finset.mem_range.1 he) fun w e h => Finset.mem_range.2 (hI.range _ _ _ h).2
      _ = ∑ e ∈ Finset.range I.nE, ∑ v ∈ (I.agg C).toFinset, sigma I v e * φ e := Finset.sum_comm
      _ = ∑ e ∈ Finset.range I.nE, tau I C e * φ e := by
          refine Finset.sum_congr rfl fun e he => ?_
          rw [← Finset.sum_mul, sum_sigma hI C (Finset.mem_range.1 he)]
  have a2 : ∀ e ∈ Finset.range I.nE, tau I C e * φ e = ∑ E ∈ (edgesC I C).toFinset, if I.emap e = some E then tau I C e * φ e else 0 := by
    intro e he
    have hc := hI.all e (Finset.mem_range.1 he)
    by_cases hz : tau I C e * φ e = 0
    · rw [hz]
      simp
    · have ht := left_ne_zero_of_mul hz
      have hx : Exterior I C e := by
        unfold tau at ht
        split_ifs at ht with q1 q2 q2
        · exact absurd (sub_self _) ht
        · exact ⟨_, _, q1, q2, hc⟩
        · exact ⟨_, _, q2, q1, hI.symm _ _ _ hc⟩
        · exact absurd (sub_self _) ht
      have hE : I.emap e ≠ none := fun h => hz (by rw [h2 e hx h, mul_zero])
      obtain ⟨E, hE⟩ := Option.ne_none_iff_exists'.1 hE
      have hm : E ∈ edgesC I C := by
        obtain ⟨v, w, hv, hw, hc⟩ := hx
        have hw' : I.vmap w ≠ none := fun h => by
          rw [hI.emapN _ _ _ (hI.symm _ _ _ hc) (Or.inl h)] at hE
          cases hE
        obtain ⟨D, hD⟩ := Option.ne_none_iff_exists'.1 hw'
        obtain ⟨E', q1, q2⟩ := hI.emap _ _ _ C D hc (agg_map hv) hD fun h => hw ((mem_agg' hI hc).2 (h ▸ hD))
        rw [hE] at q1
        cases q1
        exact mem_edgesC.2 ⟨D, q2⟩
      rw [hE]
      simp only [Option.some.injEq]
      rw [Finset.sum_ite_eq, if_pos (List.mem_toFinset.2 hm)]
  have a3 : outOf I.ccon I.cedge ψ C = ∑ E ∈ (edgesC I C).toFinset, (if (I.cedge E).1 = C then 1 else -1) * ψ E := by
    rw [List.sum_toFinset _ (edgesC_nodup hI C)]
    unfold outOf edgesC
    rw [((List.perm_insertionSort (· ≤ ·) ((I.ccon C).map Prod.snd)).map _).sum_eq, List.map_map]
    refine congrArg List.sum (List.map_congr_left fun x _ => ?_)
    simp only [Function.comp_apply]
    split <;> simp
  rw [a1, Finset.sum_congr rfl a2, Finset.sum_comm, a3]
  refine Finset.sum_congr rfl fun E hE => ?_
  obtain ⟨D, hD⟩ := mem_edgesC.1 (List.mem_toFinset.1 hE)
  rw [h1 D E hD, Finset.mul_sum, ← Finset.sum_filter]
  have hset : (Finset.range I.nE).filter (fun e => I.emap e = some E) = (c2f I.emap I.nE E).toFinset := by
    ext e
    simp [mem_c2f]
  rw [hset]
  refine Finset.sum_congr rfl fun e he => ?_
  have he := mem_c2f.1 (List.mem_toFinset.1 he)
  rw [(tau_coarse hI hD he.1 he.2).1, mul_assoc]

end NgsAMG.HProl
