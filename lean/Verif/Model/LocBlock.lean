import Verif.Model.BlockGS

/-!
# Model of the block Gauss-Seidel smoother `BSmoother2`

Source: `/repo/src/base/smoothers/loc_block_gssmoother_impl.hpp`, `/repo/src/base/smoothers/loc_block_gssmoother.cpp`.

The object keeps the rows of the matrix block by block. `firsti`, `cols`, `vals` of a block are modelled by one list per row (`low` for `firsti[k]..firsti[k+1]`,
`up` for `firsti[nds+k]..firsti[nds+k+1]`, which is there for non-overlapping blocks only). All calls of the code have `omega = 1`; the updates are modelled for it.
The buffers `smallsol`, `smallrhs` are local. The dense inverse is the argument `inv`.
-/

namespace NgsAMG.BlkGS
open Matrix

variable {k : ℕ}

/-- `BSBlock`, loc_block_gssmoother.hpp:19-31 -/
structure LBlock (k : ℕ) where
  dofs : List ℕ
  diag : Matrix (Fin dofs.length × Fin k) (Fin dofs.length × Fin k) ℝ
  dinv : Matrix (Fin dofs.length × Fin k) (Fin dofs.length × Fin k) ℝ
  low : Fin dofs.length → List (ℕ × Blk k)
  up : Fin dofs.length → List (ℕ × Blk k)

/-- the part of `BSmoother2` that the sweeps use; `fi` is `fi_blocks`, `no` is `blocks_no` -/
structure LSm (k : ℕ) where
  height : ℕ
  blocks : List (LBlock k)
  fi : List ℕ
  no : Bool

abbrev Inverter (k : ℕ) := ∀ n : ℕ, Matrix (Fin n × Fin k) (Fin n × Fin k) ℝ → Matrix (Fin n × Fin k) (Fin n × Fin k) ℝ

/-- `iterate_anotb`, utils_arrays_tables.hpp:624-638: how often the callback is called -/
def anotb : List ℕ → List ℕ → ℕ
  | [], _ => 0
  | x :: a, [] => anotb a [] + 1
  | x :: a, y :: b => if x < y then anotb a (y :: b) + 1 else if x = y then anotb a b else anotb (x :: a) b
termination_by a b => a.length + b.length

/-- `GetAllocSize`, loc_block_gssmoother_impl.hpp:13-33: number of entries of `cols` and `vals` for a block; the unknowns are in the order in which they are given -/
def allocCols (A : CSR (Blk k)) (dofs0 : List ℕ) : ℕ := (dofs0.map fun d => anotb ((A.row d).map Prod.fst) dofs0).sum

/-- `SetFromSPMat`, loc_block_gssmoother_impl.hpp:66-135 -/
def setFrom (inv : Inverter k) (A : CSR (Blk k)) (md : Option (ℕ → Blk k)) (dofs0 : List ℕ) : LBlock k :=
  let dofs := dofs0.insertionSort (· ≤ ·)
  { dofs := dofs
    diag := diagOf A none dofs
    dinv := inv _ (diagOf A md dofs)
    low := fun j => (A.row dofs[j]).filter fun e => SortedArray.find e.1 dofs = some .sentinel
    up := fun _ => [] }

/-- `SetLUFromSPMat`, loc_block_gssmoother_impl.hpp:138-219, without replaced diagonal (with one it throws). `d2b` is `d2blk`, `none` for `-1` -/
def setLU (inv : Inverter k) (nr : ℕ) (d2b : ℕ → Option ℕ) (A : CSR (Blk k)) (dofs0 : List ℕ) : LBlock k :=
  let dofs := dofs0.insertionSort (· ≤ ·)
  { dofs := dofs
    diag := diagOf A none dofs
    dinv := inv _ (diagOf A none dofs)
    low := fun j => (A.row dofs[j]).filter fun e => match d2b e.1 with | none => true | some q => q < nr
    up := fun j => (A.row dofs[j]).filter fun e => match d2b e.1 with | none => false | some q => nr < q }

/-- loc_block_gssmoother.cpp:109-126: `dof2block`; `none` if blocks overlap, then the constructor throws -/
def mkD2B : List (ℕ × List ℕ) → (ℕ → Option ℕ) → Option (ℕ → Option ℕ)
  | [], f => some f
  | (nr, b) :: bs, f => (b.foldlM (fun (f : ℕ → Option ℕ) d => if (f d).isSome then none else some (Function.update f d (some nr))) f).bind (mkD2B bs)

/-- prefix sums, loc_block_gssmoother.cpp:54-57 -/
def fiOf (sizes : List ℕ) : List ℕ := sizes.scanl (· + ·) 0

/-- `SetUp`, loc_block_gssmoother.cpp:40-158: groups of blocks; `none` if an exception is thrown -/
def mkLSm (inv : Inverter k) (A : CSR (Blk k)) (groups : List (List (List ℕ))) (no : Bool) (md : Option (ℕ → Blk k)) : Option (LSm k) :=
  let bs := groups.flatten
  let fi := fiOf (groups.map List.length)
  if no then
    (mkD2B (bs.zipIdx.map fun p => (p.2, p.1)) fun _ => none).bind fun d2b =>
      if md.isSome && !bs.isEmpty then none
      else some ⟨A.height, bs.zipIdx.map fun p => setLU inv p.2 d2b A p.1, fi, true⟩
  else some ⟨A.height, bs.map (setFrom inv A md), fi, false⟩

/-- `smallrhs(k) -= vals[l] * bigsol(cols[l])` for a range of `l` -/
def subRow (es : List (ℕ × Blk k)) (x : BVec k) (s : Fin k → ℝ) : Fin k → ℝ := es.foldl (fun s e => s - e.2 *ᵥ x e.1) s

/-- `smallrhs` of loc_block_gssmoother_impl.hpp:248-258 -/
def LBlock.rhsLU (B : LBlock k) (x b : BVec k) : Fin B.dofs.length × Fin k → ℝ := fun p => subRow (B.up p.1) x (subRow (B.low p.1) x (b B.dofs[p.1])) p.2

/-- `v(dofnrs)` -/
def gather (dofs : List ℕ) (v : BVec k) : Fin dofs.length × Fin k → ℝ := fun p => v dofs[p.1] p.2

/-- `RichardsonUpdate`, loc_block_gssmoother_impl.hpp:244-269 -/
noncomputable def LBlock.upd (B : LBlock k) (b x : BVec k) : BVec k :=
  addAt B.dofs (B.dinv *ᵥ (B.rhsLU x b - B.diag *ᵥ gather B.dofs x)) x

/-- `bigres(cols[l]) -= Trans(vals[l]) * u` for a range of `l` -/
def subTrans (es : List (ℕ × Blk k)) (u : Fin k → ℝ) (r : BVec k) : BVec k := es.foldl (fun r e => Function.update r e.1 (r e.1 - e.2ᵀ *ᵥ u)) r

/-- `bigres(cols[l]) -= vals[l] * u` for a range of `l` -/
def subVals (es : List (ℕ × Blk k)) (u : Fin k → ℝ) (r : BVec k) : BVec k := es.foldl (fun r e => Function.update r e.1 (r e.1 - e.2 *ᵥ u)) r

/-- `RichardsonUpdate_RES`, loc_block_gssmoother_impl.hpp:508-533 -/
noncomputable def LBlock.updRES (B : LBlock k) (s : BVec k × BVec k) : BVec k × BVec k :=
  let u := B.dinv *ᵥ gather B.dofs s.2
  let r1 := (List.finRange B.dofs.length).foldl (fun r j => subTrans (B.low j) (fun c => u (j, c)) r) s.2
  let r2 := (List.finRange B.dofs.length).foldl (fun r j => subTrans (B.up j) (fun c => u (j, c)) r) r1
  (addAt B.dofs u s.1, addAt B.dofs (-(B.diag *ᵥ u)) r2)

/-- `IterateBlocks`, loc_block_gssmoother_impl.hpp:618-652: the blocks in the order in which they are visited. `groups[sg-1]-k` below zero is `none` -/
def iterGroups (fi groups : List ℕ) (reverse : Bool) : Option (List ℕ) :=
  ((List.range groups.length).mapM fun k =>
    (if reverse then (groups[groups.length - 1]?).bind fun g => if k ≤ g then some (g - k) else none else groups[k]?).bind fun g =>
      (fi[g]?).bind fun first => (fi[g + 1]?).map fun next =>
        if reverse then (List.range' first (next - first)).reverse else List.range' first (next - first)).map List.flatten

/-- one pass of a callback over the blocks; `none` is an access out of range -/
def pass {σ : Type} (S : LSm k) (groups : List ℕ) (reverse : Bool) (f : σ → LBlock k → σ) (s : σ) : Option σ :=
  (iterGroups S.fi groups reverse).bind fun ids => ids.foldlM (fun s i => (S.blocks[i]?).map (f s)) s

/-- `n` repetitions of a step that can fail -/
def timesM {σ : Type} (f : σ → Option σ) : ℕ → σ → Option σ
  | 0, s => some s
  | n + 1, s => (f s).bind (timesM f n)

/-- `SmoothSimple`, loc_block_gssmoother_impl.hpp:672-689 -/
noncomputable def smoothSimple (S : LSm k) (groups : List ℕ) (steps : ℕ) (reverse symm : Bool) (x b : BVec k) : Option (BVec k) :=
  timesM (fun x => (pass S groups reverse (fun x B => B.upd b x) x).bind fun x => if symm then pass S groups (!reverse) (fun x B => B.upd b x) x else some x) steps x

/-- `SmoothRESSimple`, loc_block_gssmoother_impl.hpp:692-709 -/
noncomputable def smoothRESSimple (S : LSm k) (groups : List ℕ) (steps : ℕ) (reverse symm : Bool) (s : BVec k × BVec k) : Option (BVec k × BVec k) :=
  timesM (fun s => (pass S groups reverse (fun s B => B.updRES s) s).bind fun s => if symm then pass S groups (!reverse) (fun s B => B.updRES s) s else some s) steps s

/-- `MultAdd_mat`, loc_block_gssmoother_impl.hpp:572-590. For blocks smaller than the largest one the code hands over vectors that are too long
(loc_block_gssmoother.cpp:316-318); the entries that are too many are not used here -/
noncomputable def LBlock.addMat (B : LBlock k) (s : ℝ) (x y : BVec k) : BVec k :=
  let y1 := (List.finRange B.dofs.length).foldl (fun y j => Function.update y B.dofs[j] ((B.low j).foldl (fun t e => t + s • (e.2 *ᵥ x e.1)) (y B.dofs[j]))) y
  let y2 := (List.finRange B.dofs.length).foldl (fun y j => Function.update y B.dofs[j] ((B.up j).foldl (fun t e => t + s • (e.2 *ᵥ x e.1)) (y B.dofs[j]))) y1
  addAt B.dofs (s • (B.diag *ᵥ gather B.dofs x)) y2

/-- `Mult_mat`, loc_block_gssmoother_impl.hpp:593-612 -/
noncomputable def LBlock.setMat (B : LBlock k) (x y : BVec k) : BVec k :=
  B.addMat 1 x ((List.finRange B.dofs.length).foldl (fun y j => Function.update y B.dofs[j] 0) y)

/-- `MultAdd_Sysmat`, loc_block_gssmoother.cpp:294-320: `GetAMatrix()->MultAdd(s, x, y)`. The blocks one after the other -/
noncomputable def multAddSys (S : LSm k) (s : ℝ) (x y : BVec k) : BVec k := S.blocks.foldl (fun y B => B.addMat s x y) y

/-- `Mult_Sysmat`, loc_block_gssmoother.cpp:269-291: `GetAMatrix()->Mult(x, y)` -/
noncomputable def sysMult (S : LSm k) (x y : BVec k) : BVec k :=
  if S.no then S.blocks.foldl (fun y B => B.setMat x y) y else multAddSys S 1 x 0

/-- `allgroups`, loc_block_gssmoother.cpp:66-68 -/
def LSm.all (S : LSm k) : List ℕ := List.range (S.fi.length - 1)

/-- `SmoothWO`, loc_block_gssmoother_impl.hpp:655-669: new `x` and `res`. NGSolve evaluates `res = b - A * x` as `res = b; A.MultAdd(-1, x, res)` -/
noncomputable def smoothWO (S : LSm k) (groups : List ℕ) (steps : ℕ) (reverse symm : Bool) (x b res : BVec k) (resUpdated updateRes : Bool) : Option (BVec k × BVec k) :=
  if resUpdated && updateRes then smoothRESSimple S groups steps reverse symm (x, res)
  else (smoothSimple S groups steps reverse symm x b).map fun x' => (x', if updateRes then multAddSys S (-1) x' b else res)

/-- `bigsol(dofnrs[k]) = (1-omega) * bigsol(dofnrs[k]) + omega * smallsol(k)` with `omega = 1` -/
def setAt (dofs : List ℕ) (u : Fin dofs.length × Fin k → ℝ) (x : BVec k) : BVec k :=
  (List.finRange dofs.length).foldl (fun x j => Function.update x dofs[j] fun c => u (j, c)) x

/-- `b - L x`, loc_block_gssmoother_impl.hpp:276-281 -/
def LBlock.rhsL (B : LBlock k) (x b : BVec k) : Fin B.dofs.length × Fin k → ℝ := fun p => subRow (B.low p.1) x (b B.dofs[p.1]) p.2

/-- `b - U x`, loc_block_gssmoother_impl.hpp:295-302 -/
def LBlock.rhsU (B : LBlock k) (x b : BVec k) : Fin B.dofs.length × Fin k → ℝ := fun p => subRow (B.up p.1) x (b B.dofs[p.1]) p.2

/-- `RichardsonUpdate_FW_zig`, loc_block_gssmoother_impl.hpp:272-285 -/
noncomputable def LBlock.fwZig (B : LBlock k) (b x : BVec k) : BVec k := setAt B.dofs (B.dinv *ᵥ B.rhsL x b) x

/-- `RichardsonUpdate_BW_zig`, loc_block_gssmoother_impl.hpp:288-308 -/
noncomputable def LBlock.bwZig (B : LBlock k) (b x : BVec k) : BVec k := setAt B.dofs (B.dinv *ᵥ B.rhsU x b) x

/-- `RichardsonUpdate_FW_zig_saveU`, loc_block_gssmoother_impl.hpp:311-333: new `bigsol` and `bigres` -/
noncomputable def LBlock.fwZigSaveU (B : LBlock k) (b : BVec k) (s : BVec k × BVec k) : BVec k × BVec k :=
  let u := B.dinv *ᵥ B.rhsL s.1 b
  let r := setAt B.dofs 0 s.2
  (setAt B.dofs u s.1, (List.finRange B.dofs.length).foldl (fun r j => subVals (B.low j) (fun c => u (j, c)) r) r)

/-- `RichardsonUpdate_BW_zig_saveL`, loc_block_gssmoother_impl.hpp:359-383: the range of the last loop is that of the first row for all `k` -/
noncomputable def LBlock.bwZigSaveL (B : LBlock k) (b : BVec k) (s : BVec k × BVec k) : BVec k × BVec k :=
  let u := B.dinv *ᵥ B.rhsU s.1 b
  let r := setAt B.dofs 0 s.2
  (setAt B.dofs u s.1, (List.finRange B.dofs.length).foldl (fun r j => subVals (B.up ⟨0, Nat.lt_of_le_of_lt (Nat.zero_le _) j.2⟩) (fun c => u (j, c)) r) r)

/-- `RichardsonUpdate_FW_zig_savebL`, loc_block_gssmoother_impl.hpp:336-356 -/
noncomputable def LBlock.fwZigSavebL (B : LBlock k) (b : BVec k) (s : BVec k × BVec k) : BVec k × BVec k :=
  (setAt B.dofs (B.dinv *ᵥ B.rhsL s.1 b) s.1, setAt B.dofs (B.rhsL s.1 b) s.2)

/-- `RichardsonUpdate_savebL`, loc_block_gssmoother_impl.hpp:444-476 -/
noncomputable def LBlock.savebL (B : LBlock k) (b : BVec k) (s : BVec k × BVec k) : BVec k × BVec k :=
  (setAt B.dofs (B.dinv *ᵥ B.rhsLU s.1 b) s.1, setAt B.dofs (B.rhsL s.1 b) s.2)

/-- `RichardsonUpdate_saveU` and `RichardsonUpdate_saveL`, loc_block_gssmoother_impl.hpp:386-441: `rows` is `low` or `up` -/
noncomputable def LBlock.saveRows (B : LBlock k) (rows : Fin B.dofs.length → List (ℕ × Blk k)) (b : BVec k) (s : BVec k × BVec k) : BVec k × BVec k :=
  let sol := B.dinv *ᵥ B.rhsLU s.1 b
  let u := sol - gather B.dofs s.1
  let r := setAt B.dofs 0 s.2
  (setAt B.dofs sol s.1, (List.finRange B.dofs.length).foldl (fun r j => subVals (rows j) (fun c => u (j, c)) r) r)

/-- `RichardsonUpdate_subtractU_saveL`, loc_block_gssmoother_impl.hpp:479-505, where `bigrhs` and `bigres` are the same vector -/
noncomputable def LBlock.subUSaveL (B : LBlock k) (s : BVec k × BVec k) : BVec k × BVec k :=
  let sol := B.dinv *ᵥ B.rhsU s.1 s.2
  let u := sol - gather B.dofs s.1
  let r := setAt B.dofs 0 s.2
  (setAt B.dofs sol s.1, (List.finRange B.dofs.length).foldl (fun r j => subVals (B.up j) (fun c => u (j, c)) r) r)

/-- the loop over the steps: in the first one `zig` is as given, afterwards it is off -/
def stepsZig {σ : Type} (f : Bool → σ → Option σ) : ℕ → Bool → σ → Option σ
  | 0, _, s => some s
  | n + 1, zig, s => (f zig s).bind (stepsZig f n false)

/-- `Smooth` for non-overlapping blocks, loc_block_gssmoother_impl.hpp:753-776 -/
noncomputable def smoothFB (S : LSm k) (groups : List ℕ) (steps : ℕ) (zig reverse : Bool) (x b : BVec k) : Option (BVec k) :=
  stepsZig (fun zig x => pass S groups reverse (fun x B => if zig then (if reverse then B.fwZig b x else B.bwZig b x) else B.upd b x) x) steps zig x

/-- `Smooth_CR`, loc_block_gssmoother_impl.hpp:779-812: `x` and `res` -/
noncomputable def smoothCR (S : LSm k) (groups : List ℕ) (steps : ℕ) (zig reverse : Bool) (b : BVec k) (s : BVec k × BVec k) : Option (BVec k × BVec k) :=
  stepsZig (fun zig s => pass S groups reverse (fun s B =>
    if zig then (if reverse then B.bwZigSaveL b s else B.fwZigSaveU b s) else (if reverse then B.saveRows B.up b s else B.saveRows B.low b s)) s) steps zig s

/-- `Smooth_SYMM`, loc_block_gssmoother_impl.hpp:815-844: `x` and the working vector `res` -/
noncomputable def smoothSYMM (S : LSm k) (groups : List ℕ) (steps : ℕ) (zig : Bool) (b : BVec k) (s : BVec k × BVec k) : Option (BVec k × BVec k) :=
  stepsZig (fun zig s => (pass S groups false (fun s B => if zig then B.fwZigSavebL b s else B.savebL b s) s).bind fun s =>
    pass S groups true (fun s B => (B.bwZig s.2 s.1, s.2)) s) steps zig s

/-- `Smooth_SYMM_CR`, loc_block_gssmoother_impl.hpp:847-879 -/
noncomputable def smoothSYMMCR (S : LSm k) (groups : List ℕ) (steps : ℕ) (zig : Bool) (b : BVec k) (s : BVec k × BVec k) : Option (BVec k × BVec k) :=
  stepsZig (fun zig s => (pass S groups false (fun s B => if zig then B.fwZigSavebL b s else B.savebL b s) s).bind fun s =>
    pass S groups true (fun s B => B.subUSaveL s) s) steps zig s

/-- `SmoothNO`, loc_block_gssmoother_impl.hpp:712-750: new `x` and `res`. `upd0` is what the working vector `update` holds from earlier calls, `work` the contents of `myresb` -/
noncomputable def smoothNO (S : LSm k) (groups : List ℕ) (steps : ℕ) (reverse symm : Bool) (x b res upd0 work : BVec k) (resUpdated updateRes xZero : Bool) : Option (BVec k × BVec k) :=
  if resUpdated then
    if updateRes then
      if symm then (smoothSYMMCR S groups steps true res (upd0, res)).map fun s => (x + s.1, s.2)
      else (smoothCR S groups steps true reverse res (upd0, res)).map fun s => (x + s.1, s.2)
    else
      if symm then (smoothSYMM S groups steps true res (0, work)).map fun s => (x + s.1, res)
      else (smoothFB S groups steps false reverse 0 res).map fun u => (x + u, res)
  else
    if symm then (smoothSYMM S groups steps xZero b (x, res)).map fun s => (s.1, if updateRes then multAddSys S (-1) s.1 b else s.2)
    else (smoothFB S groups steps xZero reverse x b).map fun x' => (x', if updateRes then multAddSys S (-1) x' b else res)

/-- `Smooth`, `SmoothK`, `SmoothSymmK`, `SmoothBack`, `SmoothBackK`, loc_block_gssmoother.cpp:161-236 -/
noncomputable def smooth2 (S : LSm k) (steps : ℕ) (reverse symm : Bool) (x b res upd0 work : BVec k) (resUpdated updateRes xZero : Bool) : Option (BVec k × BVec k) :=
  if S.no then smoothNO S S.all steps reverse symm x b res upd0 work resUpdated updateRes xZero
  else smoothWO S S.all steps reverse symm x b res resUpdated updateRes

/-- `SmoothGroups`, loc_block_gssmoother.cpp:239-250: `reverse` is not handed on, `true` is -/
noncomputable def smoothGroups (S : LSm k) (groups : List ℕ) (steps : ℕ) (_reverse symm : Bool) (x b res upd0 work : BVec k) (resUpdated updateRes xZero : Bool) :
    Option (BVec k × BVec k) :=
  if S.no then smoothNO S groups steps true symm x b res upd0 work resUpdated updateRes xZero
  else smoothWO S groups steps true symm x b res resUpdated updateRes

end NgsAMG.BlkGS
