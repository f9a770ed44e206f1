import Verif.Model.SparseLA
import Verif.Model.DofMesh

/-!
# Model of the embedding of the finest mesh into the space of the given matrix

`/repo/src/base/precond/amg_pc_vertex_impl.hpp`: `BuildES` (798-885), `BuildEmbedding_impl` (622-793); `BuildED` of `/repo/src/h1/h1_impl.hpp` (488-525) and
`/repo/src/elasticity/elasticity_pc_impl.hpp` (539-708).

A matrix is `CSR`, blocks are matrices over a commutative ring. `none` is undefined behaviour (writing behind the end of an array). A shared pointer that can be `nullptr` is an `Option`.
-/

namespace NgsAMG.DofM
open NgsAMG NgsAMG.SparseMM NgsAMG.SparseLA

variable {K : Type*} [CommRing K] {a b n : ℕ}

/-! ### `BuildES`: from all degrees of freedom to the chosen ones -/

/-- amg_pc_vertex_impl.hpp:817-823: `notin_ss` after one range -/
def notInStep (r : ℕ × ℕ) (x : ℕ × ℕ) : ℕ × ℕ := if x.1 = r.1 then (r.2, x.2) else if x.2 = r.2 then (x.1, r.1) else x

/-- amg_pc_vertex_impl.hpp:816-823: the loop over the ranges -/
def notIn (nd : ℕ) (ranges : List (ℕ × ℕ)) : ℕ × ℕ := ranges.foldl (fun x r => notInStep r x) (0, nd)

/-- amg_pc_vertex_impl.hpp:825 (the sum over the processes in line 828 is not used by the code) -/
def rangeTriv (nd : ℕ) (ranges : List (ℕ × ℕ)) : Bool := (notIn nd ranges).1 == (notIn nd ranges).2

/-- amg_pc_vertex_impl.hpp:844-848 and 875-879: the next row gets an identity block in the next column -/
def esPut (s : (ℕ → List (ℕ × Mt n n K)) × ℕ) (d : ℕ) : (ℕ → List (ℕ × Mt n n K)) × ℕ := (Function.update s.1 d [(s.2, 1)], s.2 + 1)

/-- the rows of `E_S` for the degrees of freedom `D`, in this order -/
def esRows (D : List ℕ) : (ℕ → List (ℕ × Mt n n K)) × ℕ := D.foldl esPut (fun _ => [], 0)

/-- amg_pc_vertex_impl.hpp:813-852: `BuildES`, ranges; `some none` is `nullptr`. Writing the row counts behind the end of the array and a range that ends before it starts are errors -/
def esRange (n nd : ℕ) (ranges : List (ℕ × ℕ)) : Option (Option (CSR (Mt n n K))) :=
  if rangeTriv nd ranges then some none
  else if ∀ r ∈ ranges, r.1 ≤ r.2 ∧ (r.1 < r.2 → r.2 ≤ nd) then some (some ⟨nd, (ranges.map fun r => r.2 - r.1).sum, (esRows (dofsOf ranges)).1⟩) else none

/-- amg_pc_vertex_impl.hpp:853-882: `BuildES`, chosen bits -/
def esSelect (n nd : ℕ) (bits : List Bool) : Option (Option (CSR (Mt n n K))) :=
  if (setBits bits).length = bits.length then some none
  else if nd ≤ bits.length then some (some ⟨nd, (setBits bits).length, (esRows ((List.range nd).filter fun k => bits.getD k false)).1⟩) else none

/-- amg_pc_vertex.hpp:209-218: the chosen degrees of freedom -/
inductive Subset where
  | ranges (rs : List (ℕ × ℕ))
  | bits (ss : List Bool)

/-- the list of the chosen degrees of freedom -/
def Subset.dofs : Subset → List ℕ
  | .ranges rs => dofsOf rs
  | .bits ss => setBits ss

/-- amg_pc_vertex_impl.hpp:798-886: `BuildES` -/
def buildES (n nd : ℕ) : Subset → Option (Option (CSR (Mt n n K)))
  | .ranges rs => esRange n nd rs
  | .bits ss => esSelect n nd ss

/-- amg_pc_vertex_impl.hpp:656: `subset_count` -/
def subsetCount (nd : ℕ) (ES : Option (CSR (Mt n n K))) : ℕ := (ES.map CSR.width).getD nd

/-! ### `BuildED`: from the chosen degrees of freedom to the vertices -/

/-- the row with a one at the place `c` (h1_impl.hpp:508-510, elasticity_pc_impl.hpp:698-699) -/
def unitRow (c : Fin b) : Mt 1 b K := fun _ j => if j = c then 1 else 0

/-- h1_impl.hpp:506-512, elasticity_pc_impl.hpp:695-701: the next row belongs to the component `p.2` of the vertex `p.1`; writing behind the last row or the last component is an error -/
def edPut (height : ℕ) (rows : Option (List (ℕ × Mt 1 b K))) (p : ℕ × ℕ) : Option (List (ℕ × Mt 1 b K)) :=
  rows.bind fun rows => if rows.length < height then (if h : p.2 < b then some (rows ++ [(p.1, unitRow ⟨p.2, h⟩)]) else none) else none

/-- h1_impl.hpp:505-513, elasticity_pc_impl.hpp:692-702: the loops over the vertices and the components of one block size `bz`, components behind `os` -/
def edBlock (height nv os bz : ℕ) (rows : Option (List (ℕ × Mt 1 b K))) : Option (List (ℕ × Mt 1 b K)) :=
  (List.range nv).foldl (fun rows v => (List.range bz).foldl (fun rows j => edPut height rows (v, os + j)) rows) rows

/-- h1_impl.hpp:503-515, elasticity_pc_impl.hpp:690-704: the loop over the block sizes -/
def edLoop (height nv : ℕ) : List ℕ → ℕ → Option (List (ℕ × Mt 1 b K)) → Option (List (ℕ × Mt 1 b K))
  | [], _, rows => rows
  | bz :: bs, os, rows => edLoop height nv bs (os + bz) (edBlock height nv os bz rows)

/-- h1_impl.hpp:498-516, elasticity_pc_impl.hpp:687-706: `BuildED` for scalar degrees of freedom; rows that are not written contain `junk` -/
def edScal (b height nv : ℕ) (bs : List ℕ) (junk : ℕ → ℕ × Mt 1 b K) : Option (CSR (Mt 1 b K)) :=
  (edLoop height nv bs 0 (some [])).map fun rows => ⟨height, nv, fun k => if k < height then [(rows[k]?).getD (junk k)] else []⟩

/-- elasticity_pc_impl.hpp:679-682: the block `(I | 0)` -/
def dispBlock (a b : ℕ) : Mt a b K := fun i j => if i.val = j.val then 1 else 0

/-- elasticity_pc_impl.hpp:668-685: `BuildED` for displacements without rotations; `none`: the exception in lines 670-671 -/
def edDisp (a b nv : ℕ) (bs : List ℕ) : Option (CSR (Mt a b K)) :=
  if bs = [1] then some ⟨nv, nv, fun k => if k < nv then [(k, dispBlock a b)] else []⟩ else none

/-- elasticity_pc_impl.hpp:560-667: `BuildED` with the embedding of the quadratic elements, for the numbers `v2d` of the degrees of freedom of the vertices and
the triples `par` of the edges (degree of freedom of the middle, numbers of the two vertices). Simplification: the two blocks of an edge, which depend on the positions
of the vertices, are given by `Q`; rows of constrained degrees of freedom are not set to zero (no `finest_freedofs`). -/
def edP2 (height nv : ℕ) (v2d : List ℕ) (par : List (ℕ × ℕ × ℕ)) (Q : ℕ → ℕ → Mt a b K × Mt a b K) : CSR (Mt a b K) :=
  ⟨height, nv, fun d => match par.find? (fun t => t.1 = d) with
    | some t => [(min t.2.1 t.2.2, (Q (min t.2.1 t.2.2) (max t.2.1 t.2.2)).1), (max t.2.1 t.2.2, (Q (min t.2.1 t.2.2) (max t.2.1 t.2.2)).2)]
    | none => match v2d.idxOf? d with
      | some v => [(v, dispBlock a b)]
      | none => []⟩

/-! ### `BuildEmbedding_impl` -/

/-- the hash tables of a product (C10) -/
structure Tables where
  nhash : ℕ → ℕ
  junk : ℕ → ℕ → ℕ × ℕ
  mjunk : ℕ → ℕ → ℕ × ℕ

/-- amg_pc_vertex_impl.hpp:660-664: the permutation, in parallel only -/
def permOf (n : ℕ) (sort : Option (List ℕ)) : Option (CSR (Mt n n K)) := sort.map (permutationMatrix n)

/-- amg_pc_vertex_impl.hpp:669: `E_S * E_D` -/
def esed (h1 : Tables) (ES : Option (CSR (Mt a a K))) (ED : CSR (Mt a b K)) : Option (CSR (Mt a b K)) :=
  match ES with
    | none => some ED
    | some ES => matMultAB h1.nhash h1.junk h1.mjunk ES ED

/-- amg_pc_vertex_impl.hpp:667-672: `E_S * E_D * P` with `E_D` -/
def embDiff (h1 h2 : Tables) (ES : Option (CSR (Mt a a K))) (ED : CSR (Mt a b K)) (P : Option (CSR (Mt b b K))) : Option (CSR (Mt a b K)) :=
  (esed h1 ES ED).bind fun ESED =>
  match P with
    | none => some ESED
    | some P => matMultAB h2.nhash h2.junk h2.mjunk ESED P

/-- amg_pc_vertex_impl.hpp:673-680: `E_S * P` if the blocks are the same; `some none` is `nullptr` -/
def embSame (h1 : Tables) (ES P : Option (CSR (Mt n n K))) : Option (Option (CSR (Mt n n K))) :=
  match P with
    | none => some ES
    | some P => match ES with
      | none => some (some P)
      | some ES => (matMultAB h1.nhash h1.junk h1.mjunk ES P).map some

/-- amg_pc_vertex_impl.hpp:650-681: scalar degrees of freedom, blocks of `b` on the mesh -/
def embScal (h1 h2 : Tables) (b nd nv : ℕ) (S : Subset) (bs : List ℕ) (junk : ℕ → ℕ × Mt 1 b K) (sort : Option (List ℕ)) : Option (CSR (Mt 1 b K)) :=
  (buildES 1 nd S).bind fun ES => (edScal b (subsetCount nd ES) nv bs junk).bind fun ED => embDiff h1 h2 ES ED (permOf b sort)

/-- amg_pc_vertex_impl.hpp:650-681: displacements `a`, blocks of `b` (displacements and rotations) on the mesh -/
def embDisp (h1 h2 : Tables) (a b nd nv : ℕ) (S : Subset) (bs : List ℕ) (sort : Option (List ℕ)) : Option (CSR (Mt a b K)) :=
  (buildES a nd S).bind fun ES => (edDisp a b nv bs).bind fun ED => embDiff h1 h2 ES ED (permOf b sort)

/-- amg_pc_vertex_impl.hpp:650-681: the same blocks (`E_D` is `nullptr`); `some none` is `nullptr` -/
def embBlock (h1 : Tables) (n nd : ℕ) (S : Subset) (sort : Option (List ℕ)) : Option (Option (CSR (Mt n n K))) :=
  (buildES n nd S).bind fun ES => embSame h1 ES (permOf n sort)

/-- amg_pc_vertex_impl.hpp:703-713 and 739-760: the identity with `h` rows and `w` columns -/
def identE (a b h w : ℕ) : CSR (Mt a b K) := ⟨h, w, fun k => if k < h then [(k, dispBlock a b)] else []⟩

/-- amg_pc_vertex_impl.hpp:723-730: the rows of a block that are not free are set to zero -/
def zeroBlock (free : List Bool) (k : ℕ) (B : Mt a b K) : Mt a b K := fun l j => if free.getD (a * k + l) false then B l j else 0

/-- amg_pc_vertex_impl.hpp:715-733: the loop over the first `N` rows; reading behind the end of the bits is an error -/
def projectE (N : ℕ) (free : List Bool) (E : CSR (Mt a b K)) : Option (CSR (Mt a b K)) :=
  if a * N ≤ free.length ∧ N ≤ E.height then some { E with row := fun k => if k < N then (E.row k).map (fun e => (e.1, zeroBlock free k e.2)) else E.row k } else none

/-- amg_pc_vertex_impl.hpp:693-735: with partial Dirichlet conditions; `N` is `subset_count` -/
def projected (N : ℕ) (free : Option (List Bool)) (E : Option (CSR (Mt a b K))) : Option (Option (CSR (Mt a b K))) :=
  match free with
    | none => some E
    | some free => (projectE N free (E.getD (identE a b N N))).map some

/-- amg_pc_vertex_impl.hpp:737-760: the embedding of process `p`, from the results of all processes; a process without matrix gets the identity if another has one. `none`: no embedding -/
def finalE (np : ℕ) (nd nv : ℕ → ℕ) (E : ℕ → Option (CSR (Mt a b K))) (p : ℕ) : Option (CSR (Mt a b K)) :=
  if (List.range np).any (fun q => (E q).isSome) then some ((E p).getD (identE a b (nd p) (nv p))) else none

end NgsAMG.DofM
