import Verif.Model.CSR

/-!
Model of `ConvertToBSThree`, `/repo/src/base/precond/amg_pc.cpp:739-840`: the coarsest matrix with blocks of size 6 is
rewritten with blocks of size 3 (with the distant processes and the free unknowns), to be inverted by NGSolve.
`none` is undefined behaviour (access out of range, entries of the new matrix that were not written).
-/

namespace NgsAMG.BS3

open Matrix

/-- index `3 * a + i` into a block of size 6: `ii` and `3 + ii`, amg_pc.cpp:782-785 -/
def idx6 (a : Fin 2) (i : Fin 3) : Fin 6 := ⟨3 * a.val + i.val, by omega⟩

/-- `rv0[2*j]`, `rv0[2*j+1]`, `rv1[2*j]`, `rv1[2*j+1]`: the sub-block in row `a` and column `b`, amg_pc.cpp:779-787 -/
def subBlk (M : Blk 6) (a b : Fin 2) : Blk 3 := fun ii jj => M (idx6 a ii) (idx6 b jj)

/-- the writes into the row `2k + a`, amg_pc.cpp:759-789, from the old entry number `j` on: indices (767-770) and values
(782-785); the two loops over the old entries are one here -/
def rowWrites (a : Fin 2) : ℕ → List (ℕ × Blk 6) → List (ℕ × ℕ × Blk 3)
  | _, [] => []
  | j, e :: es => (2 * j, 2 * e.1, subBlk e.2 a 0) :: (2 * j + 1, 2 * e.1 + 1, subBlk e.2 a 1) :: rowWrites a (j + 1) es

/-- writes into an array, out of range is undefined -/
def write {α : Type} (r : List (Option α)) (w : ℕ × α) : Option (List (Option α)) :=
  if w.1 < r.length then some (r.set w.1 (some w.2)) else none

/-- a row with `perow` entries (amg_pc.cpp:753-754) is filled; an entry that was not written is undefined -/
def fillRow {α : Type} (perow : ℕ) (ws : List (ℕ × α)) : Option (List α) :=
  (ws.foldlM write (List.replicate perow none)).bind fun r => r.mapM id

/-- row `2k + a` of the new matrix, amg_pc.cpp:749-789 -/
def convRow (es : List (ℕ × Blk 6)) (a : Fin 2) : Option (List (ℕ × Blk 3)) := fillRow (2 * es.length) (rowWrites a 0 es)

/-- `newA`, amg_pc.cpp:746-789; `H = 2 * h` is the width -/
def convert (A : CSR (Blk 6)) : CSR (Blk 3) where
  height := 2 * A.height
  width := 2 * A.height
  row r := (convRow (A.row (r / 2)) ⟨r % 2, Nat.mod_lt _ (by omega)⟩).getD []

/-- `newF`, amg_pc.cpp:822-837 -/
def convFree (h : ℕ) (origF : List Bool) : Option (List Bool) :=
  (List.range h).foldlM (fun f k =>
    match origF[k]? with
    | none => none
    | some true => if 2 * k + 1 < f.length then some ((f.set (2 * k) true).set (2 * k + 1) true) else none
    | some false => some f) (List.replicate (2 * h) false)

/-- `createNewDPs`, amg_pc.cpp:802-812: what is added to the rows `2k` and `2k+1`; a row of the result is all that was added to
it -/
def convDps (h : ℕ) (dps : ℕ → List ℕ) : List (List ℕ) :=
  (List.range (2 * h)).map fun r => (List.range h).flatMap fun k =>
    (if 2 * k = r then dps k else []) ++ (if 2 * k + 1 = r then dps k else [])

end NgsAMG.BS3
