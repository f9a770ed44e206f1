import Verif.Model.SortedArray
import Mathlib.Data.Nat.Basic
import Mathlib.Order.Nat

/-!
# Model: the buckets in which duplicates of loops are looked for (stokes/common/stokes_map_impl.hpp:497-563)
-/

namespace NgsAMG.Loop
open NgsAMG.SortedArray

/-- stokes_map_impl.hpp:507-530: `all_eqids`, `eq_min_vs`, `eq_next_vs` (one list of triples) after one more loop, that begins at `f` -/
def addFirst (st : List (ℕ × ℕ × ℕ)) (f : ℕ × ℕ) : Option (List (ℕ × ℕ × ℕ)) :=
  match mergePos f.1 (st.map Prod.fst) with
  | some (.pos p) =>
    match (if 0 < p then st[p - 1]? else none) with
    | some e =>
      if e.1 = f.1 then some (st.set (p - 1) (e.1, min e.2.1 f.2, max e.2.2 (f.2 + 1)))
      else if p ≤ st.length then some (st.insertIdx p (f.1, f.2, f.2 + 1)) else none
    | none => if p ≤ st.length then some (st.insertIdx p (f.1, f.2, f.2 + 1)) else none
  | _ => none

/-- stokes_map_impl.hpp:507-537: all loops; `firsts`: their first vertices. (The sorting in lines 532-537 finds sorted arrays.) -/
def eqRanges (firsts : List (ℕ × ℕ)) : Option (List (ℕ × ℕ × ℕ)) := firsts.foldlM addFirst []

/-- stokes_map_impl.hpp:539-545: `eq_bucket_offsets[k]` -/
def bucketOff (st : List (ℕ × ℕ × ℕ)) (k : ℕ) : ℕ := ((st.take k).map fun e => e.2.2 - e.2.1).sum

/-- stokes_map_impl.hpp:548-554: `tup2bucket` (`none`: the eqc-id is not found, or a vertex in front of the range) -/
def tup2bucket (st : List (ℕ × ℕ × ℕ)) (f : ℕ × ℕ) : Option ℕ :=
  match find f.1 (st.map Prod.fst) with
  | some (.pos k) =>
    match st[k]? with
    | some e => if e.2.1 ≤ f.2 then some (bucketOff st k + (f.2 - e.2.1)) else none
    | none => none
  | _ => none

end NgsAMG.Loop
