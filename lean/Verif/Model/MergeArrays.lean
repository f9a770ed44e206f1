import Mathlib.Logic.Function.Basic
import Mathlib.Data.Nat.Basic
import Verif.Model.MergeArrays1

/-!
Model of the k-way merge `MergeArrays` for any number of rows, `/repo/src/base/utils/utils_arrays_tables.hpp:700-803`:
a lazily sorted priority queue (`minvals`, partitioned by the stack `ranges`) with a hash table of values that are (probably)
already queued.

Values are column numbers, `ℕ` (the code uses `int`; signed overflow in `firstval+otherval` is an explicit `none`). Arrays
are functions with explicit bounds where the code could run out of range; memory that is not initialised in the code is
a parameter. `ptrs[i]`, `sizes[i]` are the list `rest i` of values of row `i` that are not consumed yet.
`none`: undefined behaviour or fuel exhausted.
-/

namespace NgsAMG.MergeArrays

/-- `numeric_limits<int>::max()` -/
def intMax : ℕ := 2147483647

/-- `nhash`, line 715 -/
def nhash : ℕ := 1024

/-- state of the merge: `mv p = (minvals[p].val, minvals[p].src)`, `na = nactive`, `rg` the stack `ranges[0..nrange)` of
`(idx, val)` with the top first, `hash` the hash table (`none` = -1), `rest i` the unconsumed part of row `i` -/
structure St where
  rest : ℕ → List ℕ
  hash : ℕ → Option ℕ
  mv : ℕ → ℕ × ℕ
  na : ℕ
  rg : List (ℕ × ℕ)

/-- lines 720-725, 778-783: take the next value of a row that is not in the hash table (`continue` if it is);
result: that value and the rest of the row, `none` if the row is exhausted -/
def fetch (hash : ℕ → Option ℕ) : List ℕ → Option (ℕ × List ℕ)
  | [] => none
  | v :: r => if hash (v % nhash) = some v then fetch hash r else some (v, r)

/-- lines 719-731: fill the queue with the first value of each row `i = k, k+1, .. < n` -/
def fill (n : ℕ) : ℕ → St → St
  | 0, s => s
  | k + 1, s =>
    let i := n - (k + 1)
    match fetch s.hash (s.rest i) with
    | none => fill n k { s with rest := Function.update s.rest i [] }
    | some (v, r) =>
      fill n k { s with
        rest := Function.update s.rest i r
        mv := Function.update s.mv s.na (v, i)
        hash := Function.update s.hash (v % nhash) (some v)
        na := s.na + 1 }

/-- line 758: `while (minvals[l].val > midval) l++`, reading beyond `nactive` is an error -/
def scanL (mv : ℕ → ℕ × ℕ) (na mid : ℕ) : ℕ → ℕ → Option ℕ
  | 0, _ => none
  | fuel + 1, l => if na ≤ l then none else if mid < (mv l).1 then scanL mv na mid fuel (l + 1) else some l

/-- line 759: `while (minvals[r].val <= midval) r--`; the argument is `r+1`, reading index -1 is an error -/
def scanR (mv : ℕ → ℕ × ℕ) (mid : ℕ) : ℕ → Option ℕ
  | 0 => none
  | r + 1 => if (mv r).1 ≤ mid then scanR mv mid r else some (r + 1)

/-- `Swap(minvals[a], minvals[b])` -/
def swap (mv : ℕ → ℕ × ℕ) (a b : ℕ) : ℕ → ℕ × ℕ := Function.update (Function.update mv a (mv b)) b (mv a)

/-- lines 756-762: partition loop `while (l <= r)`, with `r1 = r+1`; returns the array and `l` -/
def partition (na mid : ℕ) : ℕ → (ℕ → ℕ × ℕ) → ℕ → ℕ → Option ((ℕ → ℕ × ℕ) × ℕ)
  | 0, _, _, _ => none
  | fuel + 1, mv, l, r1 =>
    if l < r1 then
      (scanL mv na mid (na + 1) l).bind fun l' =>
      (scanR mv mid r1).bind fun r' =>
      if l' + 1 < r' then partition na mid fuel (swap mv l' (r' - 1)) (l' + 1) (r' - 1)
      else partition na mid fuel mv l' r'
    else some (mv, l)

/-- lines 739-746: first value different from `firstval` in positions `i, .., i+k-1`, or `firstval` -/
def other (mv : ℕ → ℕ × ℕ) (fv : ℕ) : ℕ → ℕ → ℕ
  | 0, _ => fv
  | k + 1, i => if (mv i).1 ≠ fv then (mv i).1 else other mv fv k (i + 1)

/-- lines 735-768: `while (true)`, sort until all values in the last range are equal -/
def presort (na : ℕ) : ℕ → (ℕ → ℕ × ℕ) → List (ℕ × ℕ) → ℕ → Option ((ℕ → ℕ × ℕ) × List (ℕ × ℕ))
  | 0, _, _, _ => none
  | fuel + 1, mv, rg, lower =>
    let fv := (mv lower).1
    let ov := other mv fv (na - (lower + 1)) (lower + 1)
    if fv = ov then some (mv, if rg.length = 0 then [(0, fv)] else rg)
    else if intMax < fv + ov then none
    else
      (partition na ((fv + ov) / 2) (na + 1) mv lower na).bind fun (mv', l) =>
      presort na fuel mv' ((l, (fv + ov) / 2) :: rg) l

/-- lines 784-793: make room for a new entry, from the last range to the one it belongs to -/
def place (vs : ℕ × ℕ) : (ℕ → ℕ × ℕ) → ℕ → List (ℕ × ℕ) → (ℕ → ℕ × ℕ) × List (ℕ × ℕ)
  | mv, prev, [] => (Function.update mv prev vs, [])
  | mv, prev, (idx, val) :: rg =>
    if vs.1 ≤ val then (Function.update mv prev vs, (idx, val) :: rg)
    else
      let r := place vs (Function.update mv prev (mv idx)) idx rg
      (r.1, (idx + 1, val) :: r.2)

/-- lines 776-797: the popped entries at positions `t, .., t+k-1` are replaced by the next values of their rows -/
def refill : ℕ → ℕ → St → St
  | 0, _, s => s
  | k + 1, t, s =>
    let src := (s.mv t).2
    match fetch s.hash (s.rest src) with
    | none => refill k (t + 1) { s with rest := Function.update s.rest src [] }
    | some (v, r) =>
      let pl := place (v, src) s.mv s.na s.rg
      refill k (t + 1)
        { rest := Function.update s.rest src r
          hash := Function.update s.hash (v % nhash) (some v)
          mv := pl.1
          na := s.na + 1
          rg := pl.2 }

/-- lines 733-734: start of the last range -/
def lowerOf (rg : List (ℕ × ℕ)) : ℕ := match rg with | [] => 0 | (i, _) :: _ => i

/-- lines 732-799: `while (nactive > 0)`; the list of values handed to `f` -/
def loop : ℕ → St → Option (List ℕ)
  | 0, s => if s.na = 0 then some [] else none
  | fuel + 1, s =>
    if s.na = 0 then some []
    else
      (presort s.na (s.na + 1) s.mv s.rg (lowerOf s.rg)).bind fun (mv, rg) =>
      match rg with
      | [] => none
      | (last, _) :: rg' =>
        (loop fuel (refill (s.na - last) last { s with mv := mv, rg := rg', na := last })).map fun out =>
          (mv last).1 :: out

/-- the initial state, lines 709-718; `junk` is the uninitialised content of `minvals` -/
def init (junk : ℕ → ℕ × ℕ) (rows : List (List ℕ)) : St where
  rest i := (rows[i]?).getD []
  hash _ := none
  mv := junk
  na := 0
  rg := []

/-- `MergeArrays(ptrs, sizes, f)`, lines 700-803: sequence of values handed to `f` -/
def run (junk : ℕ → ℕ × ℕ) (rows : List (List ℕ)) : Option (List ℕ) :=
  if rows.length ≤ 16 then MergeArrays1.run intMax (rows.map List.length).sum rows
  else loop (rows.map List.length).sum (fill rows.length rows.length (init junk rows))

end NgsAMG.MergeArrays
