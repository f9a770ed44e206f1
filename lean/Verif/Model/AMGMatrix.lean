import Verif.Model.Smoother

/-! Model of `AMGMatrix`, `EmbeddedAMGMatrix`, `AMGSmoother` (solve/amg_matrix.{hpp,cpp}) as state transformers on their
work vectors. Simplifications: one process (`drops_out = false`, all level vectors exist), the parallel status of
vectors is not tracked (see Model/Parallel for that), timers dropped. Level vectors have level dependent types. -/

namespace NgsAMG.AMG
open Sm

variable {V : ℕ → Type*} [∀ l, AddCommGroup (V l)] [∀ l, Module ℝ (V l)]

/-- immutable part of an `AMGMatrix`: amg_matrix.hpp:15-29. `F`, `B` are `Smooth`, `SmoothBack` of the smoothers, `R`
is `map->TransferF2C`, `P` is the map behind `AddC2F`. `crsInv = none` is the null pointer; it is only applied on
level `n-1` (given as a family to keep the types simple). -/
structure Mat (V : ℕ → Type*) [∀ l, AddCommGroup (V l)] [∀ l, Module ℝ (V l)] where
  n : ℕ
  F : ∀ l, Step (V l)
  B : ∀ l, Step (V l)
  R : ∀ l, V l →ₗ[ℝ] V (l + 1)
  P : ∀ l, V (l + 1) →ₗ[ℝ] V l
  hasCrsInv : Bool
  crsInv : Option (∀ l, V l → V l)

/-- the work vectors `x_level`, `rhs_level`, `res_level`, amg_matrix.hpp:20, persistent between calls -/
structure Mem (V : ℕ → Type*) where
  xl : ∀ l, V l
  rhs : ∀ l, V l
  res : ∀ l, V l

/-- state during a cycle: the caller's `x` and the work vectors -/
structure St (V : ℕ → Type*) where
  xu : V 0
  mem : Mem V

/-- `(level == 0) ? x : *x_level[level]` -/
def getX (s : St V) : (l : ℕ) → V l
  | 0 => s.xu
  | l + 1 => s.mem.xl (l + 1)

/-- write access to `(level == 0) ? x : *x_level[level]` -/
def putX (s : St V) : (l : ℕ) → V l → St V
  | 0, v => { s with xu := v }
  | l + 1, v => { s with mem := { s.mem with xl := Function.update s.mem.xl (l + 1) v } }

/-- `(level == 0) ? b : *rhs_level[level]` -/
def getB (s : St V) (b : V 0) : (l : ℕ) → V l
  | 0 => b
  | l + 1 => s.mem.rhs (l + 1)

/-- write `res_level[l]` -/
def putRes (s : St V) (l : ℕ) (v : V l) : St V :=
  { s with mem := { s.mem with res := Function.update s.mem.res l v } }

/-- write `rhs_level[l]` -/
def putRhs (s : St V) (l : ℕ) (v : V l) : St V :=
  { s with mem := { s.mem with rhs := Function.update s.mem.rhs l v } }

/-- body of the pre-smoothing loop, amg_matrix.cpp:183-214: zero `x`, `res = b`, smooth, restrict -/
def pre (m : Mat V) (b : V 0) (s : St V) (l : ℕ) : St V :=
  let bl := getB s b l
  let t := m.F l 0 bl bl true true true
  let s := putRes (putX s l t.1) l t.2
  putRhs s (l + 1) (m.R l (s.mem.res l))

/-- coarsest level, amg_matrix.cpp:216-247: acts on the work vectors, also if `n_levels = 1` -/
def coarse (m : Mat V) (w : Mem V) : Mem V :=
  let v : V (m.n - 1) := if m.hasCrsInv then
      m.crsInv.elim 0 (fun f => f _ (w.rhs (m.n - 1))) else 0
  { w with xl := Function.update w.xl (m.n - 1) v }

/-- body of the post-smoothing loop, amg_matrix.cpp:249-305 -/
def post (m : Mat V) (b : V 0) (s : St V) (l : ℕ) : St V :=
  let x1 := getX s l + m.P l (s.mem.xl (l + 1))
  let t := m.B l x1 (getB s b l) (s.mem.res l) false false false
  putRes (putX s l t.1) l t.2

/-- `SmoothV`, amg_matrix.cpp:160-307 -/
def smoothV (m : Mat V) (b : V 0) (s : St V) : St V :=
  let s1 := (List.range (m.n - 1)).foldl (pre m b) s
  let s2 : St V := { s1 with mem := coarse m s1.mem }
  (List.range (m.n - 1)).reverse.foldl (post m b) s2

/-- one half of the body in `SmoothW` for a level that has a coarser one, amg_matrix.cpp:66-89: smooth, restrict,
recursive call, prolongate, smooth back. `x0`, `zero`: start vector and `x_zero` flag; `urB`: `update_res` of the
backward step; `ru`: `res_updated` flag of the forward step. -/
def wHalf (m : Mat V) (b : V 0) (rec : St V → St V) (l : ℕ) (x0 : V l) (r0 : V l) (zero urB : Bool) (s : St V) :
    St V :=
  let bl := getB s b l
  let t := m.F l x0 bl r0 true true zero
  let s := putRes (putX s l t.1) l t.2
  let s := putRhs s (l + 1) (m.R l (s.mem.res l))
  let s := rec s
  let x1 := getX s l + m.P l (s.mem.xl (l + 1))
  let t := m.B l x1 (getB s b l) (s.mem.res l) false urB false
  putRes (putX s l t.1) l t.2

/-- the recursive lambda `smit` of `SmoothW` on level `l`, amg_matrix.cpp:45-104; `k` is the number of levels below.
Level 0 executes the first block (46-64) and then the second one (65-90). -/
def smit (m : Mat V) (b : V 0) : (k l : ℕ) → St V → St V
  | 0, _, s => { s with mem := coarse m s.mem }
  | k + 1, l, s =>
    let rec' := smit m b k (l + 1)
    let s := if l = 0 then wHalf m b rec' l 0 (getB s b l) true false s else s
    let s := wHalf m b rec' l 0 (getB s b l) true true s
    wHalf m b rec' l (getX s l) (s.mem.res l) false false s

/-- `SmoothW`, amg_matrix.cpp:37-107, for `n_levels ≥ 2` (`none`: with one level, `rhs_level[1]` is accessed behind the
end, amg_matrix.cpp:58) -/
def smoothW (m : Mat V) (b : V 0) (s : St V) : Option (St V) :=
  if m.n ≤ 1 then none else some (smit m b (m.n - 1) 0 s)

/-- loop body in `SmoothVFromLevel`, amg_matrix.cpp:326-340 (levels above the start level only use work vectors) -/
def preM (m : Mat V) (w : Mem V) (l : ℕ) : Mem V :=
  let t := m.F l 0 (w.rhs l) (w.rhs l) true true true
  let w := { w with xl := Function.update w.xl l t.1, res := Function.update w.res l t.2 }
  { w with rhs := Function.update w.rhs (l + 1) (m.R l (w.res l)) }

/-- loop body in `SmoothVFromLevel`, amg_matrix.cpp:356-365 -/
def postM (m : Mat V) (w : Mem V) (l : ℕ) : Mem V :=
  let x1 := w.xl l + m.P l (w.xl (l + 1))
  let t := m.B l x1 (w.rhs l) (w.res l) false false false
  { w with xl := Function.update w.xl l t.1, res := Function.update w.res l t.2 }

/-- `SmoothVFromLevel`, amg_matrix.cpp:310-374: new work vectors, `x`, `res`; `none` if the start level has no coarser
level (then `rhs_level[startlevel+1]` and possibly `smoothers[startlevel]` do not exist). -/
def smoothVFrom (m : Mat V) (w : Mem V) (sl : ℕ) (x b res : V sl) (ru ur xz : Bool) :
    Option (Mem V × V sl × V sl) :=
  if sl + 1 < m.n then
    let t := m.F sl x b res ru true xz
    let w := { w with rhs := Function.update w.rhs (sl + 1) (m.R sl t.2) }
    let w := if sl + 2 < m.n then (List.range' (sl + 1) (m.n - 1 - (sl + 1))).foldl (preM m) w else w
    let w := coarse m w
    let w := if sl + 2 < m.n then (List.range' (sl + 1) (m.n - 1 - (sl + 1))).reverse.foldl (postM m) w else w
    let x1 := t.1 + m.P sl (w.xl (sl + 1))
    let t2 := m.B sl x1 b t.2 false ur false
    some (w, t2.1, t2.2)
  else none

/-- pre-smoothing in `SmoothBS`, amg_matrix.cpp:119-130 -/
def preBS (m : Mat V) (b : V 0) (s : St V) (l : ℕ) : Option (St V) :=
  let bl := getB s b l
  (smoothVFrom m s.mem l 0 bl bl true true true).map fun t =>
    let s := putRes (putX { s with mem := t.1 } l t.2.1) l t.2.2
    putRhs s (l + 1) (m.R l (s.mem.res l))

/-- post-smoothing in `SmoothBS`, amg_matrix.cpp:148-155 -/
def postBS (m : Mat V) (b : V 0) (s : St V) (l : ℕ) : Option (St V) :=
  let x1 := getX s l + m.P l (s.mem.xl (l + 1))
  (smoothVFrom m s.mem l x1 (getB s b l) (s.mem.res l) false false false).map fun t =>
    putRes (putX { s with mem := t.1 } l t.2.1) l t.2.2

/-- `SmoothBS`, amg_matrix.cpp:110-157 -/
def smoothBS (m : Mat V) (b : V 0) (s : St V) : Option (St V) := do
  let s1 ← (List.range (m.n - 1)).foldlM (preBS m b) s
  let s2 : St V := { s1 with mem := coarse m s1.mem }
  (List.range (m.n - 1)).reverse.foldlM (postBS m b) s2

/-- `AMGMatrix::Smooth`, amg_matrix.hpp:38-44 (other values of `vwb`: nothing happens) -/
def smooth (m : Mat V) (vwb : ℤ) (b : V 0) (s : St V) : Option (St V) :=
  if vwb = 0 then some (smoothV m b s) else if vwb = 1 then smoothW m b s
  else if vwb = 2 then smoothBS m b s else some s

/-- `Mult` = `MultTrans`, amg_matrix.cpp:377-382: new caller's vector and work vectors -/
def mult (m : Mat V) (vwb : ℤ) (w : Mem V) (b x : V 0) : Option (V 0 × Mem V) :=
  (smooth m vwb b ⟨x, w⟩).map fun s => (s.xu, s.mem)

/-- `MultAdd` = `MultTransAdd`, amg_matrix.cpp:385-393: calls `Smooth` with `*x_level[0]` as caller's vector. Inside the
cycle `x` and `x_level[0]` are then the same memory; the write of the coarsest level for `n_levels = 1` hits it. -/
def multAdd (m : Mat V) (vwb : ℤ) (w : Mem V) (s : ℝ) (b x : V 0) : Option (V 0 × Mem V) :=
  (smooth m vwb b ⟨w.xl 0, w⟩).map fun t =>
    -- both names denote one vector: for one level it is the one written by `coarse`
    let x0 : V 0 := if m.n ≤ 1 then t.mem.xl 0 else t.xu
    (x + s • x0, { t.mem with xl := Function.update t.mem.xl 0 x0 })

end NgsAMG.AMG
