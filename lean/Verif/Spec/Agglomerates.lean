import Verif.Model.CoarseMap

/-!
# Specification: agglomerates of a graph

Independent of the model: what it means that a list of agglomerates and a map from vertices to agglomerates describe disjoint, connected, small sets of vertices.
-/

namespace NgsAMG.Spec
open NgsAMG.CMap

/-- `Walk nb S u v n`: there is a walk with at most `n` edges from `u` to `v` all of whose vertices lie in `S` -/
inductive Walk (nb : ℕ → List ℕ) (S : List ℕ) (u : ℕ) : ℕ → ℕ → Prop
  | refl (n : ℕ) (h : u ∈ S) : Walk nb S u u n
  | step {w v n : ℕ} (h : Walk nb S u w n) (hv : v ∈ S) (e : v ∈ nb w) : Walk nb S u v (n + 1)

/-- agglomerates and vertex map describe the same disjoint sets; every set contains its centre and is listed in ascending order -/
structure Disjoint (aggs : List Agg) (v2a : ℕ → Option ℕ) : Prop where
  mem : ∀ v a, v2a v = some a ↔ ∃ g, aggs[a]? = some g ∧ v ∈ g.mems
  cen : ∀ g ∈ aggs, g.center ∈ g.mems
  asc : ∀ g ∈ aggs, g.mems.Pairwise (· < ·)

end NgsAMG.Spec
