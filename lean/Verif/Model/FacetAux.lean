import Mathlib.Logic.Function.Basic
import Mathlib.Data.List.Basic
import Mathlib.Data.Int.Notation

/-!
# Model: relevant elements, nodes of the potential space and facets (base/ngs_extension/facet_aux_info.cpp)

Arrays are functions of the index (their sizes are given apart), the value `-1` of an `Array<size_t>` is `-1 : ℤ`. The mesh of a process (NGSolve)
is input; the library function `MeshAccess::AllReduceNodalData` is modelled by its result: nodes of different processes that are the same node of
the mesh have the same name.
-/

namespace NgsAMG.FAux

/-- the mesh of a process and where the space is defined, facet_aux_info.cpp:47-50, 72-87, 106, 117-120: numbers of elements, nodes of the
potential space (vertices in 2D, edges in 3D) and facets, `DefinedOn`, and the nodes and facets of the elements -/
structure PMesh where
  nEl : ℕ
  nPsn : ℕ
  nFacet : ℕ
  defined : ℕ → Bool
  elPsns : ℕ → List ℕ
  elFacets : ℕ → List ℕ

/-- the nodes of the distributed mesh: rank and local number to a global name -/
structure Names where
  el : ℕ → ℕ → ℕ
  psn : ℕ → ℕ → ℕ
  facet : ℕ → ℕ → ℕ

/-- `countSubsetMarks`, facet_aux_info.cpp:6-15 -/
def countMarks (a : ℕ → ℤ) (n : ℕ) : ℕ := (List.range n).foldl (fun c j => if a j ≠ 0 then c + 1 else c) 0

/-- result of `markToSubsetMappings`: `all2Sub`, `nSub` and `subToAll` -/
structure SubMap where
  a2r : ℕ → ℤ
  n : ℕ
  r2a : ℕ → ℕ

/-- facet_aux_info.cpp:25-33: one index; a write outside of `subToAll` (of length `size`) is an error -/
def SubMap.step (size : ℕ) (s : SubMap) (j : ℕ) : Option SubMap :=
  if s.a2r j ≠ 0 then
    if s.n < size then some ⟨Function.update s.a2r j s.n, s.n + 1, Function.update s.r2a s.n j⟩ else none
  else some ⟨Function.update s.a2r j (-1), s.n, s.r2a⟩

/-- `markToSubsetMappings`, facet_aux_info.cpp:17-34 -/
def markToSubset (a : ℕ → ℤ) (n : ℕ) : Option SubMap := (List.range n).foldlM (SubMap.step (countMarks a n)) ⟨a, 0, fun _ => 0⟩

/-- `AllReduceNodalData` with `NG_MPI_LOR` (facet_aux_info.cpp:91-96, 128-130): the value of node `k` of process `p` -/
def reduceLor (np : ℕ) (n : ℕ → ℕ) (name : ℕ → ℕ → ℕ) (data : ℕ → ℕ → ℤ) (p k : ℕ) : ℤ :=
  if (List.range np).any fun q => (List.range (n q)).any fun j => name q j == name p k && data q j != 0 then 1 else 0

/-- facet_aux_info.cpp:72-88: one element -/
def PMesh.markStep (m : PMesh) (s : (ℕ → ℤ) × (ℕ → ℤ)) (e : ℕ) : (ℕ → ℤ) × (ℕ → ℤ) :=
  if m.defined e then (Function.update s.1 e 1, (m.elPsns e).foldl (fun a k => Function.update a k 1) s.2) else s

/-- facet_aux_info.cpp:65-88: the marks of elements and of nodes of the potential space -/
def PMesh.mark (m : PMesh) : (ℕ → ℤ) × (ℕ → ℤ) := (List.range m.nEl).foldl m.markStep (fun _ => 0, fun _ => 0)

/-- facet_aux_info.cpp:117-121: the facets for which a task of `IterateElements` calls `SetBitAtomic` -/
def PMesh.facetOps (m : PMesh) : List ℕ :=
  (List.range m.nEl).flatMap fun e => if m.defined e then m.elFacets e else []

/-- facet_aux_info.cpp:115-121: the bits after the calls of `SetBitAtomic` in the order `sched` -/
def setBits (sched : List ℕ) : ℕ → Bool := sched.foldl (fun b f => Function.update b f true) fun _ => false

/-- facet_aux_info.cpp:124-126: bits to numbers -/
def bitsToInt (b : ℕ → Bool) (k : ℕ) : ℤ := if b k then 1 else 0

/-- facet_aux_info.cpp:136-137: `for (auto k : Range(n_facet_rel)) rel_facets->SetBit(k)` -/
def updateBits (nRel : ℕ) (b : ℕ → Bool) : ℕ → Bool := (List.range nRel).foldl (fun b k => Function.update b k true) b

/-- the members of `FacetAuxiliaryInformation`, facet_aux_info.hpp:43-52 -/
structure Info where
  haveMaps : Bool
  nElAll : ℕ
  nPsnAll : ℕ
  nFacetAll : ℕ
  el : SubMap
  psn : SubMap
  facet : SubMap
  relFacets : ℕ → Bool

/-- facet_aux_info.cpp:50-101: maps for elements and nodes of the potential space. Without `definedon` there are only the numbers -/
def setupMaps (np : ℕ) (N : Names) (M : ℕ → PMesh) (haveMaps : Bool) (p : ℕ) : Option (SubMap × SubMap) :=
  if haveMaps then
    (markToSubset (reduceLor np (fun q => (M q).nEl) N.el (fun q => (M q).mark.1) p) (M p).nEl).bind fun e =>
      (markToSubset (reduceLor np (fun q => (M q).nPsn) N.psn (fun q => (M q).mark.2) p) (M p).nPsn).map fun s => (e, s)
  else some (⟨fun _ => 0, (M p).nEl, fun _ => 0⟩, ⟨fun _ => 0, (M p).nPsn, fun _ => 0⟩)

/-- facet_aux_info.cpp:106-133: the maps for facets, `sched q` is the order of the calls of `SetBitAtomic` of process `q` -/
def setupFacets (np : ℕ) (N : Names) (M : ℕ → PMesh) (sched : ℕ → List ℕ) (p : ℕ) : Option SubMap :=
  markToSubset (reduceLor np (fun q => (M q).nFacet) N.facet (fun q => bitsToInt (setBits (sched q))) p) (M p).nFacet

/-- `FacetAuxiliaryInformation::setup` on process `p`, facet_aux_info.cpp:45-163 -/
def setup (np : ℕ) (N : Names) (M : ℕ → PMesh) (haveMaps : Bool) (sched : ℕ → List ℕ) (p : ℕ) : Option Info :=
  (setupMaps np N M haveMaps p).bind fun es =>
    (setupFacets np N M sched p).map fun f =>
      ⟨haveMaps, (M p).nEl, (M p).nPsn, (M p).nFacet, es.1, es.2, f, updateBits f.n (setBits (sched p))⟩

/-- `IsElementRel`, facet_aux_info.hpp:61 -/
def Info.isElRel (I : Info) (k : ℕ) : Bool := if I.haveMaps then I.el.a2r k != -1 else true

/-- `A2R_EL`, facet_aux_info.hpp:62 -/
def Info.a2rEl (I : Info) (k : ℕ) : ℤ := if I.haveMaps then I.el.a2r k else k

/-- `R2A_EL`, facet_aux_info.hpp:63 -/
def Info.r2aEl (I : Info) (k : ℕ) : ℕ := if I.haveMaps then I.el.r2a k else k

/-- `IsPSNRel`, facet_aux_info.hpp:69 -/
def Info.isPsnRel (I : Info) (k : ℕ) : Bool := if I.haveMaps then I.psn.a2r k != -1 else true

/-- `A2R_PSN`, facet_aux_info.hpp:70 -/
def Info.a2rPsn (I : Info) (k : ℕ) : ℤ := if I.haveMaps then I.psn.a2r k else k

/-- `R2A_PSN`, facet_aux_info.hpp:71 -/
def Info.r2aPsn (I : Info) (k : ℕ) : ℕ := if I.haveMaps then I.psn.r2a k else k

/-- `IsFacetRel`, facet_aux_info.hpp:79 -/
def Info.isFacetRel (I : Info) (k : ℕ) : Bool := I.relFacets k

end NgsAMG.FAux
