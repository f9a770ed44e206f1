import Verif.Model.BlockGS
import Verif.Lib.Interleave

/-!
# Model of the shared memory parallel sweeps of `BSmoother`

Source: `/repo/src/base/smoothers/block_gssmoother.cpp:229-426`.

Every block of a color is a task (`Verif.Lib.Interleave`); all interleavings of the reads and writes of vector entries are possible, so this covers every
distribution of the blocks to threads by `ParallelForRange` or `SharedLoop2` (NGSolve). A color is begun when the previous one is finished.
The buffers `hxmax`, `hymax` of a thread have arbitrary contents at the start of a task. `hup` is computed where it is used, from `hr`.
-/

namespace NgsAMG.BlkGS
open Matrix Par

variable {k : ℕ}

/-- local variables of the callbacks: accumulator, and `hr` -/
structure Buf (k : ℕ) where
  acc : Fin k → ℝ
  hr : ℕ → Fin k → ℝ

/-- `hup = dinv[block_nr] * hr`, entry `j` -/
noncomputable def Buf.hup (l : Buf k) (B : BBlock k) (j : Fin B.dofs.length) : Fin k → ℝ := fun c => (B.dinv *ᵥ fun p => l.hr p.1 p.2) (j, c)

/-- `v(d_j) += w_j`: read the entry, then write it. `cell` is the place of the entry in the memory -/
def addOps {C : Type} (cell : C) (w : Buf k → Fin k → ℝ) : List (Op C (Fin k → ℝ) (Buf k)) :=
  [.rd cell fun l v => { l with acc := v }, .wr cell fun l => l.acc + w l]

/-- `hr(j) = fb(jj) - A.RowTimesVector(jj, fx)`, block_gssmoother.cpp:304-308 -/
def readRHS (A : CSR (Blk k)) (b : BVec k) (B : BBlock k) (j : Fin B.dofs.length) : List (Op ℕ (Fin k → ℝ) (Buf k)) :=
  (.lc fun l => { l with acc := 0 }) :: (A.row B.dofs[j]).map (fun e => .rd e.1 fun l v => { l with acc := l.acc + e.2 *ᵥ v }) ++
    [.lc fun l => { l with hr := Function.update l.hr j (b B.dofs[j] - l.acc) }]

/-- block_gssmoother.cpp:293-318, the callback of `Smooth_impl`; a cell of the memory is an entry of `fx`. `fb` is not written by anybody -/
noncomputable def progRHS (A : CSR (Blk k)) (b : BVec k) (B : BBlock k) : List (Op ℕ (Fin k → ℝ) (Buf k)) :=
  (List.finRange B.dofs.length).flatMap (readRHS A b B) ++
    (List.finRange B.dofs.length).flatMap fun j => addOps B.dofs[j] fun l => l.hup B j

/-- block_gssmoother.cpp:359-378, the callback of `SmoothRES_impl`; the cells `inl i` are the entries of `fx`, `inr i` those of `fres` -/
noncomputable def progRES (A : CSR (Blk k)) (B : BBlock k) : List (Op (ℕ ⊕ ℕ) (Fin k → ℝ) (Buf k)) :=
  (List.finRange B.dofs.length).map (fun j => .rd (.inr B.dofs[j]) fun l v => { l with hr := Function.update l.hr j v }) ++
    ((List.finRange B.dofs.length).flatMap fun j => (A.row B.dofs[j]).flatMap fun e => addOps (.inr e.1) fun l => e.2ᵀ *ᵥ (-l.hup B j)) ++
    (List.finRange B.dofs.length).flatMap fun j => addOps (.inl B.dofs[j]) fun l => l.hup B j

/-- block_gssmoother.cpp:413-424, the body of the loop of `MultAdd` -/
noncomputable def progMult (s : ℝ) (b : BVec k) (B : BBlock k) : List (Op ℕ (Fin k → ℝ) (Buf k)) :=
  (List.finRange B.dofs.length).map (fun j => .lc fun l => { l with hr := Function.update l.hr j (b B.dofs[j]) }) ++
    (List.finRange B.dofs.length).flatMap fun j => addOps B.dofs[j] fun l => s • l.hup B j

/-- the program of block number `i` -/
def blockProg {C : Type} (S : BSm k) (f : BBlock k → List (Op C (Fin k → ℝ) (Buf k))) (i : ℕ) : List (Op C (Fin k → ℝ) (Buf k)) :=
  match S.blocks[i]? with
  | some B => f B
  | none => []

/-- block_gssmoother.cpp:229-272 with `parallel`: the lists of `todo` one after the other, the tasks of a list at the same time. `m` is the memory before, `m'` a possible memory afterwards -/
inductive Phases {C : Type} [DecidableEq C] (prog : ℕ → List (Op C (Fin k → ℝ) (Buf k))) : List (List ℕ) → (C → Fin k → ℝ) → (C → Fin k → ℝ) → Prop
  | nil (m) : Phases prog [] m m
  | cons (ids todo m m') (l0 : ℕ → Buf k) (t : St C (Fin k → ℝ) (Buf k))
      (run : Relation.ReflTransGen Step ⟨m, l0, fun i => if i ∈ ids then prog i else []⟩ t) (done : t.Done)
      (more : Phases prog todo t.mem m') : Phases prog (ids :: todo) m m'

/-- the colors in the order in which they are visited -/
def colorSeq (cs : List (List ℕ)) (reverse : Bool) : List (List ℕ) := if reverse then cs.reverse else cs

/-- `Smooth_impl` with shared memory parallelisation, block_gssmoother.cpp:290-320: `x'` is a possible result for `x` -/
def ParSmooth (S : BSm k) (cs : List (List ℕ)) (steps : ℕ) (reverse : Bool) (b x x' : BVec k) : Prop :=
  Phases (blockProg S (progRHS S.mat b)) (List.replicate steps (colorSeq cs reverse)).flatten x x'

/-- `SmoothRES_impl` with shared memory parallelisation, block_gssmoother.cpp:345-381 -/
def ParSmoothRES (S : BSm k) (cs : List (List ℕ)) (steps : ℕ) (reverse : Bool) (x res x' res' : BVec k) : Prop :=
  Phases (blockProg S (progRES S.mat)) (List.replicate steps (colorSeq cs reverse)).flatten (Sum.elim x res) (Sum.elim x' res')

/-- `MultAdd`, block_gssmoother.cpp:403-426: all blocks at the same time -/
def ParMultAdd (S : BSm k) (s : ℝ) (b x x' : BVec k) : Prop :=
  Phases (blockProg S (progMult s b)) [List.range S.blocks.length] x x'

end NgsAMG.BlkGS
