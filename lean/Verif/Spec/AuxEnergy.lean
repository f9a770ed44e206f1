import Verif.Model.MapData

/-! What the data attached to a mesh means: a quadratic form on vectors that have one value per vertex. Also the action of a
sparse matrix on such a vector, and when a coarse map is compatible with the two meshes. -/

namespace NgsAMG.MapData

open Matrix Finset Elast

/-- action of a sparse matrix with blocks on a block vector -/
def act {ι : Type} [Fintype ι] (A : CSR (Matrix ι ι ℝ)) (U : ℕ → ι → ℝ) (i : ℕ) : ι → ℝ :=
  ((A.row i).map fun e => e.2 *ᵥ U e.1).sum

/-- H1: `∑ w_v |u_v|² + ∑ a_ij |u_i - u_j|²` -/
def h1Energy {k : ℕ} (M : Mesh (ℝ × ℝ) ℝ) (u : ℕ → Fin k → ℝ) : ℝ :=
  ∑ v ∈ range M.nv, (M.vdata v).1 * (u v ⬝ᵥ u v) +
  ∑ e ∈ range M.edges.length,
    M.edata e * ((u (M.edge e).1 - u (M.edge e).2) ⬝ᵥ (u (M.edge e).1 - u (M.edge e).2))

/-- elasticity: vertex weights, and for every edge the form of the replacement matrix -/
noncomputable def elEnergy {D R : ℕ} (T : TOps D R) (M : Mesh (VData D R) (TM D R)) (u : ℕ → Fin D ⊕ Fin R → ℝ) : ℝ :=
  ∑ v ∈ range M.nv, u v ⬝ᵥ ((M.vdata v).wt *ᵥ u v) +
  ∑ e ∈ range M.edges.length, ∑ a : Fin 2, ∑ b : Fin 2,
    ![u (M.edge e).1, u (M.edge e).2] a ⬝ᵥ
      (calcRMBlock T (M.edata e) (M.vdata (M.edge e).1) (M.vdata (M.edge e).2) a b *ᵥ ![u (M.edge e).1, u (M.edge e).2] b)

/-- the coarse map fits: coarse numbers are in range, an edge is mapped to the coarse edge between the images of its ends, and it is
unmapped only if the ends are in the same aggregate or one of them is at the ground -/
structure MapOK {VD ED : Type} (F : Mesh VD ED) (C : CMap) : Prop where
  ends : ∀ e < F.edges.length, (F.edge e).1 < F.nv ∧ (F.edge e).2 < F.nv
  vlt : ∀ v cv, C.vmap v = some cv → cv < C.ncv
  mapped : ∀ e < F.edges.length, ∀ ce, C.emap e = some ce → ce < C.cedges.length ∧ ∃ a b,
    C.vmap (F.edge e).1 = some a ∧ C.vmap (F.edge e).2 = some b ∧ (C.cedge ce = (a, b) ∨ C.cedge ce = (b, a))
  unmapped : ∀ e < F.edges.length, C.emap e = none → C.vmap (F.edge e).1 = C.vmap (F.edge e).2 ∨
    C.vmap (F.edge e).1 = none ∨ C.vmap (F.edge e).2 = none

end NgsAMG.MapData
