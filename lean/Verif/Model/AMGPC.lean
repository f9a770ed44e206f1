import Verif.Model.AMGMatrix
import Verif.Model.GaussSeidel
import Verif.Model.LocBlock
import Verif.Model.SparseMM
import Mathlib.LinearAlgebra.Pi

/-!
# Model of the construction of the sequential preconditioner (`BaseAMGPC::BuildAMGMat`)

Source: `/repo/src/base/precond/amg_pc.cpp:565-736`, `845-928`, `932-979`, `1034-1214`, `amg_pc_vertex_impl.hpp:561-602`.

One process (no parallel dofs): level matrices by `ProlMap::AssembleMatrix` (sparse products of Model/SparseMM), smoothers `GSS3` (Model/GaussSeidel),
`BSmoother2` (Model/LocBlock) or Jacobi, wrapped into `ProxySmoother` if asked for, and an `AMGMatrix` (Model/AMGMatrix) of all that. Not modelled: logging and tests
(`test_levels`, `test_2level`, `do_test`), regularization of the coarsest level matrix before it is inverted (862-863), the conversion of its block size (865-886).
The prolongations are arbitrary (they are the subject of Model/SProl and Model/DOFMap); with an embedding the first one is the product with the embedding, or the embedding
itself (`smooth_after_emb`, amg_pc.cpp:599-637).
-/

namespace NgsAMG.PC
open Matrix SparseMM Sm AMG

/-- `Options::SM_TYPE`, amg_pc.hpp:54-62 -/
inductive SmType | gs | bgs | jacobi | hiptmair | amgsm | dynbgs
  deriving DecidableEq

/-- `VertexAMGPC::SelectSmoother`, amg_pc_vertex_impl.hpp:561-602, one process: `crsMap` says whether the level has a coarse map -/
def selectSmoother (t : SmType) (crsMap : Bool) : SmType :=
  match t with
  | .gs => .gs
  | .bgs => if crsMap then .bgs else .gs
  | .jacobi => .jacobi
  | .dynbgs => .gs
  | _ => .gs

/-- what the code knows of a level when it builds the smoother: matrix, free dofs (`GetFreeDofs`, amg_pc.cpp:1280-1297) and blocks (`GetGSBlocks` or `GetFESpaceGSBlocks`) -/
structure Level (k : ℕ) where
  mat : CSR (Blk k)
  free : Option (ℕ → Bool)
  blocks : List (List ℕ)

/-- the smoother objects that are built -/
inductive Smoother (k : ℕ)
  | gs (g : GS.GSS3 k)
  | bgs (S : BlkGS.LSm k)
  | jacobi (A : CSR (Blk k)) (dinv : ℕ → Blk k)

/-- dense inverses: `inv1` of a diagonal entry, `inv` of a diagonal block; `CalcPseudoInverseTryNormal` if `regularize_cmats` is set and `CalcInverse` otherwise -/
structure Inverses (k : ℕ) where
  inv1 : Blk k → Blk k
  inv : BlkGS.Inverter k

/-- `BuildSmoother`, amg_pc.cpp:1034-1093, with `BuildGSSmoother` (1096-1139), `BuildBGSSmoother` (1142-1205) and `BuildJacobiSmoother` (1208-1251, constructor
base_smoother.cpp:88-114) for one process. `none`: exception for the other types; for `DYNBGS` a Jacobi smoother is built (1075). The blocks of the block smoother are one group,
they are not said to be without overlap (1165) -/
def buildSmoother {k : ℕ} (I : Inverses k) (t : SmType) (L : Level k) : Option (Smoother k) :=
  match t with
  | .gs => some (.gs (GS.GSS3.mk' I.inv1 L.mat none L.free))
  | .bgs => (BlkGS.mkLSm I.inv L.mat [L.blocks] false none).map .bgs
  | .jacobi => some (.jacobi L.mat fun i => if GS.isFree L.free i then I.inv1 (L.mat.lookup i i) else 0)
  | .dynbgs => some (.jacobi L.mat fun i => if GS.isFree L.free i then I.inv1 (L.mat.lookup i i) else 0)
  | _ => none

/-- multiplication of a sparse matrix with entries of size `a × b` and a vector, row by row (NGSolve `Mult`) -/
def multRect {a b : ℕ} (A : CSR (Mt a b ℝ)) (x : ℕ → Fin b → ℝ) : ℕ → Fin a → ℝ :=
  fun i => (A.row i).foldl (fun s e => s + e.2 *ᵥ x e.1) 0

theorem multRect_eq {a b : ℕ} (A : CSR (Mt a b ℝ)) (x : ℕ → Fin b → ℝ) (i : ℕ) : multRect A x i = ((A.row i).map fun e => e.2 *ᵥ x e.1).sum := by
  unfold multRect
  suffices h : ∀ (l : List (ℕ × Mt a b ℝ)) (s : Fin a → ℝ), l.foldl (fun s e => s + e.2 *ᵥ x e.1) s = s + (l.map fun e => e.2 *ᵥ x e.1).sum by
    rw [h, zero_add]
  intro l
  induction l with
  | nil => simp
  | cons e l ih => intro s; rw [List.foldl_cons, ih, List.map_cons, List.sum_cons, add_assoc]

/-- the same as a linear map -/
def linRect {a b : ℕ} (A : CSR (Mt a b ℝ)) : (ℕ → Fin b → ℝ) →ₗ[ℝ] (ℕ → Fin a → ℝ) where
  toFun := multRect A
  map_add' x y := by
    funext i
    simp only [multRect_eq, Pi.add_apply, Matrix.mulVec_add]
    induction A.row i with
    | nil => simp
    | cons a l ih => simp only [List.map_cons, List.sum_cons, ih]; exact add_add_add_comm _ _ _ _
  map_smul' s x := by
    funext i
    simp only [multRect_eq, Pi.smul_apply, Matrix.mulVec_smul, RingHom.id_apply]
    induction A.row i with
    | nil => simp
    | cons a l ih => simp only [List.map_cons, List.sum_cons, ih, smul_add]

/-- `*diagInv` of the Jacobi smoother as a linear map, base_smoother.cpp:96-113 -/
def diagLin {k : ℕ} (d : ℕ → Blk k) (h : ℕ) : BVec k →ₗ[ℝ] BVec k where
  toFun x := fun i => if i < h then d i *ᵥ x i else 0
  map_add' x y := by funext i; by_cases hi : i < h <;> simp [hi, Matrix.mulVec_add]
  map_smul' s x := by funext i; by_cases hi : i < h <;> simp [hi, Matrix.mulVec_smul]

/-- `Smooth` (`back = false`) and `SmoothBack` of the object. For the block smoother see `BlkGS.smooth2` (its scratch vectors are not used without the option for blocks that do not
overlap); a failure of it, which `pc_spd_partial` excludes, changes nothing here. The default `omega` of the Jacobi smoother is 0.9 (base_smoother.hpp:279) -/
noncomputable def Smoother.step {k : ℕ} (S : Smoother k) (back : Bool) : Step (BVec k) :=
  match S with
  | .gs g => g.smooth back
  | .bgs S => fun x b res ru ur xz => (BlkGS.smooth2 S 1 back false x b res 0 0 ru ur xz).getD (x, res)
  | .jacobi A d => richardson (linRect A) (diagLin d A.height) 0.9

/-- options that are used here: `sm_type`, `sm_symm`, `sm_steps` per level, `mg_cycle`, `clev = INV_CLEV` -/
structure Opts where
  smType : ℕ → SmType
  symm : ℕ → Bool
  steps : ℕ → ℤ
  cycle : ℤ
  clevInv : Bool

/-- the wrapping into a `ProxySmoother` at the end of `BuildSmoother`, amg_pc.cpp:1078-1081 -/
noncomputable def proxied {k : ℕ} (O : Opts) (l : ℕ) (S : Smoother k) (back : Bool) : Step (BVec k) :=
  if O.symm l || 1 < O.steps l then
    (if back then proxySmoothBack (S.step false) (S.step true) (O.steps l) (O.symm l) else proxySmooth (S.step false) (S.step true) (O.steps l) (O.symm l))
  else S.step back

/-- input of the construction: the finest matrix, per level the prolongation from the next level, free dofs, blocks, and whether there is a coarse map -/
structure Input (k : ℕ → ℕ) where
  n : ℕ
  A0 : CSR (Blk (k 0))
  P : ∀ l, CSR (Mt (k l) (k (l + 1)) ℝ)
  free : ℕ → Option (ℕ → Bool)
  blocks : ℕ → List (List ℕ)
  crsMap : ℕ → Bool

variable {k : ℕ → ℕ}

/-- the level matrices: `ProlMap::AssembleMatrix`, dof_map.cpp:826-842, i.e. `RestrictMatrix(PT, A, P)`. `junk`, `mjunk`, `nhash`: hash table of the sparse product and its old
content, as in Model/SparseMM -/
def mats (nhash : ℕ → ℕ) (junk mjunk : ℕ → ℕ → ℕ × ℕ) (X : Input k) : (l : ℕ) → Option (CSR (Blk (k l)))
  | 0 => some X.A0
  | l + 1 => (mats nhash junk mjunk X l).bind fun A => (transpose (X.P l)).bind fun PT => restrictMatrix nhash junk mjunk PT A (X.P l)

/-- the smoother of level `l`, amg_pc.cpp:944-955 -/
def smootherOf (nhash : ℕ → ℕ) (junk mjunk : ℕ → ℕ → ℕ × ℕ) (I : ∀ l, Inverses (k l)) (O : Opts) (X : Input k) (l : ℕ) : Option (Smoother (k l)) :=
  (mats nhash junk mjunk X l).bind fun A => buildSmoother (I l) (selectSmoother (O.smType l) (X.crsMap l)) ⟨A, X.free l, X.blocks l⟩

/-- `BuildAMGMat`, amg_pc.cpp:565-736: the `AMGMatrix` that is applied. `cinv` is the inverse of the coarsest matrix (NGSolve, `InverseMatrix(free)`), used with `INV_CLEV` if there
is more than one level. Entries of the families for levels that do not exist are zero or the identity -/
noncomputable def build (nhash : ℕ → ℕ) (junk mjunk : ℕ → ℕ → ℕ × ℕ) (I : ∀ l, Inverses (k l)) (O : Opts) (X : Input k)
    (cinv : ∀ l, BVec (k l) → BVec (k l)) : Option (Mat fun l => BVec (k l)) :=
  if ((List.range X.n).all fun l => (mats nhash junk mjunk X l).isSome) && ((List.range (X.n - 1)).all fun l => (smootherOf nhash junk mjunk I O X l).isSome) then
    some {
      n := X.n
      F := fun l => (smootherOf nhash junk mjunk I O X l).elim (fun x _ res _ _ _ => (x, res)) fun S => proxied O l S false
      B := fun l => (smootherOf nhash junk mjunk I O X l).elim (fun x _ res _ _ _ => (x, res)) fun S => proxied O l S true
      R := fun l => if l + 1 < X.n then (transpose (X.P l)).elim 0 linRect else 0
      P := fun l => if l + 1 < X.n then linRect (X.P l) else 0
      hasCrsInv := O.clevInv && decide (1 < X.n)
      crsInv := some fun l b => if l + 1 = X.n then cinv l b else 0 }
  else none

end NgsAMG.PC
