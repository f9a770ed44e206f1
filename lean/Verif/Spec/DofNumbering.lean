import Mathlib.Data.List.Basic

/-!
# Specification: which degree of freedom belongs to which vertex

`/repo/src/base/precond/amg_pc_vertex.hpp:235-240`: with `nv` vertices and the block sizes `bs = [b0, b1, ..]` the chosen degrees of freedom, in their order, are first `nv` blocks of
`b0`, then `nv` blocks of `b1`, and so on. The `v`-th block of each kind belongs to the vertex `v`.
-/

namespace NgsAMG.Spec

/-- vertex and component of the `k`-th chosen degree of freedom -/
def slot (nv : ℕ) : List ℕ → ℕ → Option (ℕ × ℕ)
  | [], _ => none
  | b :: bs, k => if k < nv * b then some (k / b, k % b) else (slot nv bs (k - nv * b)).map fun p => (p.1, b + p.2)

/-- the two maps between degrees of freedom and vertices, for the chosen degrees of freedom `D`: `d2v` (`none`: not chosen) and, for every vertex `v`, the entries
`v * dpv`, .., `v * dpv + dpv - 1` of `v2d`, one for every component; `num v` is the number of the vertex `v` -/
structure Numbering (ndof nv : ℕ) (bs D : List ℕ) (num : ℕ → ℕ) (d2v v2d : List (Option ℕ)) : Prop where
  len : d2v.length = ndof
  size : v2d.length = nv * bs.sum
  on : ∀ (k d v c : ℕ), D[k]? = some d → slot nv bs k = some (v, c) → d2v[d]? = some (some (num v)) ∧ v2d[num v * bs.sum + c]? = some (some d)
  off : ∀ d < ndof, d ∉ D → d2v[d]? = some none

end NgsAMG.Spec
