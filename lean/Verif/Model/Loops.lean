import Mathlib.Data.List.Sort
import Mathlib.Order.Basic

/-!
# Model: coarse loops (stokes/common/loop_utils.cpp, loop_utils.hpp, stokes_map_impl.hpp)

A vertex `(eqc-id, number)` is an element of a linear order `V` (`IVec<2,int>` is compared lexicographically).
-/

namespace NgsAMG.Loop
variable {V : Type} [LinearOrder V]

/-- loop_utils.cpp:24-34: `inds`, together with the vertices: the positions of a chunk, sorted by vertex (`QuickSortI` leaves the order
of positions with the same vertex open; `specinds` is sorted anyway) -/
def sortedPos (c : List V) : List (V × ℕ) := c.zipIdx.insertionSort fun a b => a.1 ≤ b.1

/-- loop_utils.cpp:36-50: the positions `specinds` of the first vertex that occurs repeatedly. `S`: size of the chunk; the list is what
is left of the sorted positions from `k` on. -/
def findRep (S : ℕ) : List (V × ℕ) → Option (List ℕ)
  | [] => none
  | e :: t =>
    let g := e.2 :: (t.takeWhile fun x => decide (x.1 = e.1)).map Prod.snd
    if g.length < 2 then findRep S t
    else if g.insertionSort (· ≤ ·) = [0, S - 1] then findRep S t
    else some (g.insertionSort (· ≤ ·))

/-- loop_utils.cpp:22: `closed` -/
def isClosed (c : List V) : Bool := decide (c.head? = c.getLast?)

/-- loop_utils.cpp:52-56: `bnd_arr`, the part that goes over the end of the array. Simplified: the second assignment is to
`Part(s1, s1+s2)` instead of `Part(s1, s2)`, what it writes behind the end of `bnd_arr` is left out here, see `bndWritten`. -/
def bndArr (c : List V) (first last : ℕ) : List V :=
  if isClosed c then (c.drop last) ++ (c.drop 1).take first else (c.drop last) ++ c.take (first + 1)

/-- loop_utils.cpp:52-53: the size with which `bnd_arr` is allocated -/
def bndSize (c : List V) (first last : ℕ) : ℕ := (c.length - last) + (first + if isClosed c then 0 else 1)

/-- loop_utils.cpp:54-55: the positions of `bnd_arr` the two assignments write (`Part(pos, size)` has `size` entries, all of them are
assigned) -/
def bndWritten (c : List V) (first last : ℕ) : List ℕ :=
  List.range (c.length - last) ++ List.range' (c.length - last) ((c.length - last) + (first + if isClosed c then 0 else 1))

/-- loop_utils.cpp:60-61: the part between two occurrences, `chunk.Range(i, j+1)` -/
def part (c : List V) (i j : ℕ) : List V := (c.drop i).take (j + 1 - i)

/-- loop_utils.cpp:57-61: the parts into which a chunk is divided at the positions `s` -/
def parts (c : List V) (s : List ℕ) : List (List V) :=
  bndArr c (s.headD 0) (s.getLastD 0) :: (s.zip s.tail).map fun p => part c p.1 p.2

/-- loop_utils.cpp:8-69, `SplitChunk`: the loops it appends to `split_out` (`none`: still running after `fuel` nested calls) -/
def splitChunk : ℕ → List V → Option (List (List V))
  | 0, _ => none
  | fuel + 1, c =>
    if c.length < 2 then some []
    else if c.length = 2 ∧ c.head? = c.getLast? then some []
    else match findRep c.length (sortedPos c) with
      | none => some [c]
      | some s => ((parts c s).mapM (splitChunk fuel)).map List.flatten

/-- nested calls that are enough, see `split_total` -/
def splitFuel (c : List V) : ℕ := 2 * c.length + 2

/-- an edge `(eq0,lv0) → (eq1,lv1)` of the data, and whether it is used already (loop_utils.cpp:81-84: its first entry is negated) -/
abbrev Entry (V : Type) := Bool × V × V

/-- loop_utils.cpp:112-125: one entry is tried at both ends of `sub_chunk` -/
def tryEntry (c : List V) (e : Entry V) : List V × Entry V :=
  if e.1 then (c, e)
  else if c.getLast? = some e.2.1 then (c ++ [e.2.2], (true, e.2))
  else if c.head? = some e.2.2 then (e.2.1 :: c, (true, e.2))
  else (c, e)

/-- loop_utils.cpp:109-128: one pass over the data (the two nested loops run over all entries in order; `the_data` is flattened) -/
def pass : List V → List (Entry V) → List V × List (Entry V)
  | c, [] => (c, [])
  | c, e :: es =>
    let r := tryEntry c e
    let q := pass r.1 es
    (q.1, r.2 :: q.2)

/-- loop_utils.cpp:92-104: begin with the first entry that is not used -/
def start : List (Entry V) → List V × List (Entry V)
  | [] => ([], [])
  | e :: es => if e.1 then let q := start es; (q.1, e :: q.2) else ([e.2.1, e.2.2], (true, e.2) :: es)

/-- loop_utils.cpp:89, 106: `ndone == totsize` -/
def allUsed (es : List (Entry V)) : Bool := es.all fun e => e.1

/-- loop_utils.cpp:132-133: the chunk that is left at the end -/
def finishChunk (sub : List V) (out : List (List V)) : Option (List (List V)) :=
  if sub = [] then some out else (splitChunk (splitFuel sub) sub).map (out ++ ·)

/-- loop_utils.cpp:89-133: the loop of `SimpleLoopsFromChunks` (`none`: still running after `fuel` rounds) -/
def mergeLoop : ℕ → List V → List (Entry V) → List (List V) → Option (List (List V) × List (Entry V))
  | 0, _, _, _ => none
  | fuel + 1, sub, es, out =>
    if allUsed es then (finishChunk sub out).map (·, es)
    else
      let b := if sub = [] then start es else (sub, es)
      if allUsed b.2 then (finishChunk b.1 out).map (·, b.2)
      else
        let q := pass b.1 b.2
        if q.2 = b.2 then
          (splitChunk (splitFuel q.1) q.1).bind fun ls => mergeLoop fuel [] q.2 (out ++ ls)
        else mergeLoop fuel q.1 q.2 out

/-- loop_utils.cpp:71-147, `SimpleLoopsFromChunks`, and the data after it: all entries are negated once more (134-138), which restores
those that are used and only those -/
def simpleLoops (data : List (V × V)) : Option (List (List V) × List (Entry V)) :=
  (mergeLoop (2 * data.length + 2) [] (data.map fun e => (false, e)) []).map fun r => (r.1, r.2.map fun e => (!e.1, e.2))

end NgsAMG.Loop
