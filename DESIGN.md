# Formal model of NgsAMG in Lean 4 — design

(This file is put together by `tools/design.py` from `tools/design_head.md`, `tools/design_rows.py`, the comments of the model and `#print axioms`.)

## Trusted base
* Lean 4.33.0 kernel, Mathlib as installed. No own axioms, nothing that rests on compiled code. The axioms each theorem depends on
  are at most `propext`, `Classical.choice`, `Quot.sound`; section "Axioms" lists them.
* The transcription from C++ to Lean, done by hand. Every definition cites file and lines.
* The meaning given to what is not in the repository (see "General modelling decisions"): NGSolve classes, MPI, mutex / condition variable, LAPACK.

## General modelling decisions
* **Numbers.** `double` is modelled by an exact field / ring (`ℝ`, or a generic ring where nothing more is used).
  Rounding, NaN and overflow of doubles are not modelled. Index types (`int`, `size_t`) are `ℕ`/`ℤ` unless
  wrap-around is the point (sentinels such as `size_t(-1)` and the `int` overflow in `merge_arrays` are modelled).
* **Blocks.** `Mat<N,N>` entries are `Matrix (Fin k) (Fin k) ℝ`; the block size is a variable of the theorems.
* **Memory.** Arrays are lists / functions; out-of-range access is an explicit `none` outcome where the code's
  index arithmetic could leave the array, and the theorems show that it does not happen (or exhibit when it does).
  Uninitialised memory is a universally quantified function.
* **Loops** are structural or well-founded recursion over the loop state; `while` loops keep their loop variables.
* **MPI.** A family of local states indexed by rank and a transition system: a process advances by one send, receive or local phase at
  a time, messages of one pair with one tag do not overtake, receives block. Theorems quantify over every reachable state or every complete
  run (`Reach`, `Final`), and show that no run gets stuck (`no_deadlock`) and that all runs end (`terminates`) (`Model/Exchange`, `Model/Exchange2`).
* **Shared memory.** Tasks are lists of reads and writes of single vector entries; a parallel loop is any interleaving of its tasks (`Lib/Interleave`).
  The thread of `BackgroundMPIThread` is an interleaving transition system with spurious wakeups.
* **NGSolve** (`SparseMatrix`, `BaseVector`, `ParallelDofs`, `BitArray`, `ComputeColoring`, `QuickSort`) is not part of the repository; the used
  operations are given their documented meaning. An unstable sort is any sorted permutation.
* **Dense inverses** (LAPACK, `CalcInverse`, pseudo inverse) are parameters with the mathematical contract stated as hypothesis.
* If the code violates the property, the negation is proved on a concrete reachable witness, and the
  maximal true part is proved with suffix `_partial`.

## Layout
* `lean/Verif/Model/*.lean`  – model of the code, cites `/repo` lines.
* `lean/Verif/Spec/*.lean`   – small independent specifications (no model helpers): dense Gauss-Seidel, block Gauss-Seidel, multigrid recursion,
  rigid motions, energy of auxiliary problems, transfer operators, contract of smoothers.
* `lean/Verif/Lib/*.lean`    – theory without reference to the code (sweeps of projections, interleavings).
* `lean/Verif/Props/*.lean`  – property theorems, each with non-vacuity examples. A number after the name continues a file.
* `tools/props.py`, `tools/props_more.py` – write properties.jsonl; `tools/manifest.py`, `tools/manifest_more.py` – write MANIFEST.json;
  `tools/design.py` – writes this file; `tools/seed.py` – applies wrong edits to the model in a scratch copy, rebuilds, appends to `seeded/LOG.jsonl`.

## Not modelled
Python bindings, file output, timers, TAU profiling, memory allocation failure, floating point rounding,
GPU/SIMD specifics, LAPACK (given by its mathematical contract where used), NGSolve internals, and the
finite-element parts (integrators) of the h1/elasticity/stokes front ends. Of the coarsening, MIS aggregation and the plate test are not modelled.

## Plan per property
| id | property | what is modelled | how it is proved | status |
|----|----|----|----|----|
| C01 | Searching a sorted array is exact | bisection loop and linear tail of `find_in_sorted_array` with explicit bounds | loop invariant by well-founded induction | proved |
| C02 | Insertion into a sorted array keeps it sorted | `merge_pos_in_sorted_array`, inserts | loop invariant; induction over the history of inserts | proved |
| C03 | Merging sorted arrays is the sorted union | two-way merge, k-way merges (counter based, sentinel based) | induction on remaining elements; spec = strictly sorted list with given membership (unique) | proved |
| C04 | Sorted-set traversals visit the right elements once | two-pointer traversals producing the list of callback invocations | induction; spec = filter of the input | proved |
| C05 | Positions of a sorted subset | `posSortedInSorted` | induction; witness that the subset condition is needed | proved |
| C06 | Permutations are applied exactly | in-place cycle following on functions/lists | invariant on visited cycles | proved |
| C07 | Key orderings are strict weak orders | `lex_smaller`, `IVec::operator<` | order laws; witness against the 4- and 5-tuple operator | partial |
| C08 | Per-level options resolve to the specific or default value | `SpecOpt` lookup, copy, move, flags | case analysis; uninitialised memory quantified; witnesses | partial |
| C09 | Combining boolean per-level options is level-wise or | `SpecOpt` combining assignment (or) | case analysis; witnesses | partial |
| C10 | Sparse transposition is exact | CSR matrices as list of rows; transposition | refinement to `Matrix` | proved |
| C100 | The discrete divergence of the discrete curl of a loop is zero | `SetUpDOFedEdges`, `MeshDOFs` (offsets, both directions), `BuildDivMat` and `BuildCurlMat` of both Stokes discretizations, as CSR matrices (a value never written is arbitrary) | rows as tabulated lists, entry formulas; the product of a row with a loop is a sum over the entries of the loop; closed walks are balanced (C98); transposition and product by C10, C11; witnesses for what is not covered | proved |
| C101 | Prolonged fields have constant divergence on agglomerates, and constants are preserved | `BuildPrimarySpaceProlongation` of the nonconforming Stokes discretization: allocation, facet rows, local saddle point problems with all index tables, writing of the rows; `map_data` for flows and volumes; energy blocks and norm are arbitrary | the rows of the local system give net flow plus weight times multiplier equals zero; flows over interior edges cancel (involution), so the multiplier is fixed by the sum; frame lemmas for the rows written by different agglomerates; explicit inverses for the concrete meshes | partial |
| C102 | Basis functions of coarse facets represent the preserved vectors and only the first has flow | `computePW`, `computePWZF` with both thresholds and the second orthogonalization, special vectors, flows, buffer layout, offsets, reading of blocks and coarse vectors, `MeshDOFs` | the loop keeps `V = P W + rest` for any inner product; exact orthogonality by induction over the columns, so rests are orthogonal to the span before and the retry changes nothing; the change to zero flow is a change of basis; `writeAt` frame lemmas with disjoint ranges for the buffer | proved |
| C103 | H(div) prolongation: constant divergence, minimal energy, preserved vectors | `BuildPrimarySpaceProlongation` of the H(div) Stokes discretization: allocation, rows from the packed blocks, coarse flows, local saddle point problems with the index searches, writing of the rows; composed with the model of C102 for the blocks and of C101 for the volumes | frame lemmas for rows written by different agglomerates (an edge is inside at most one); the rows of the local system give flow plus multiplier, and summation over the agglomerate (flows inside cancel) gives the multiplier; first block row tested with divergence-free fields gives orthogonality and by expansion of the square minimality; uniqueness by regularity of the local matrix gives reproduction; example with three vertices by an explicit inverse | partial |
| C104 | Summary of the AMG setup: truthful, written once, and without deadlock | `Logger::LogLevel`, `Finalize` with `alam`, `PrintLog`, `PrintToFile`, and the call in `SetUpLevels` as programs of the processes with reductions and blocking messages; levels with their processes are given | operations that are possible at the same time are the same or commute (diamond), so one execution that ends decides for all; induction over the levels with processes that drop out; for the deadlock the final state is one where nothing is possible and process zero is not finished | partial |
| C105 | Sorting of facet loops: every simple loop becomes one closed loop of edges | `SortAndOrientLoop` with both extensions, the orientation marks and `ApplyPermutation` (model of C06); `sortTup4Loop`, the functions `encodeLoop`, `reduceLoops`, `decodeLoop`, `localTransformLoop` of `CalcFacetLoops` | invariant of the search (marks and list agree), induction over the rounds: the new edges are a walk from the end, no unused edge is at its end; chunks as walks `front.reverse ++ start :: back`; parity of degrees shows that the back extension of a closed loop comes back, so the front is empty; degree at most two and connectedness leave no second chunk; boundary of a walk telescopes | proved |
| C106 | CalcFacetLoops: the same divergence-free loops on all processes | `ProduceReducedTable` with its counters, sizes of rows, shift of the sizes of `dps_table`, both decodings and the interleaved last loop; composed with the model of `ReduceTable` (C69) and the sorting of loops (C105) | invariants of the counting loop and of the last loop: the `i`-th row with (without) distant processes is where the counter says, the exchanged rows are recognized because their numbers are increasing; sizes agree with what is written; then `reduceTable_correct` gives the input of the reduction on the master, and it does not depend on the process because keys are injective | proved |
| C107 | Relevant elements, nodes and facets: maps are inverse to each other, marks are right | `markToSubsetMappings` with its writes, the marking loops (the bits of the facets set in any order), the reductions as logical or over the copies of a node, the update of the bits, the accessors | the number written is `Nat.count` of the marks (invariant of the loop), which is strictly increasing on marked indices; bits are membership in the list of operations, so any permutation gives the same; counting (a surjection of `0..n-1` onto itself leaves no room) shows that the marks are right only if the relevant facets are the first | partial |
| C108 | Every relevant free facet is in the loops of its nodes on exactly one process | `masterOfFacet`, `makeFacetLoop2D`, `makeFacetLoop3D`, `isFacetFree` with its access to the bits, `produceLoop`; the sorted insertion is the model of C02, the marks are those of C107 | membership in the result of the nested loops by induction with the correctness of the sorted insertion; the master is the least rank with the facet, as the distant processes are sorted and the first is compared; the lost facet is a concrete mesh of two triangles on two processes | partial |
| C109 | Free loops, vertices and edges of the finest level are those without Dirichlet conditions | `BuildFreeNodes`: bits of the empty loops, of the far ends of Dirichlet facets, of the edges; the reductions for more than two processes; composed with `makeFacetLoop2D` (C108) and `localTransformLoop` (C105) for the counterexample | membership by induction over the loops that set bits; the reduced value is not zero iff some copy is marked; the square of two triangles with Dirichlet conditions all around is computed with the models of C105 and C108 | partial |
| C11 | Sparse matrix products are exact, whatever memory held before | sparse product with hash scratch memory and `merge_arrays` graph | refinement to `Matrix`; invariant of the scratch memory; `int` overflow explicit | proved |
| C110 | Blocks of the block smoothers: the right unknowns together, none lost | `LoopBlocks` with the sorted insertion (model of C02), the counter, `ce2block` and the list of additions to the table; `GetGSBlocks` of the vertex-based and the HDiv preconditioners; composed with the block smoother (C80) for the empty table | an invariant of the additions (numbers of coarse edges are different, an entry comes from a coarse edge or is alone in its row, rows increase, no row is empty) is kept by each assignment; tables are read off from the additions | partial |
| C111 | The coarsest matrix, converted to smaller blocks for the inverse, is the same matrix | the sizes of the new rows, every write of an index and a block into them, the writes of the bits, the additions to the table of distant processes | the writes are consecutive and fill the row (induction over the old entries); entries and products agree row by row, as a sum over six is one over three plus one over three | proved |
| C112 | The P2 embedding interpolates the middle of every edge from the two vertices at its ends | the maps of both P2 orderings, the parents of the middles, the renumbering (model of C95), the numbers of entries per row and all writes of `BuildED`; entries of the matrix abstract | the loop is one over the proper degrees of freedom, then as in C94; folds of writes at different places give a table that has exactly these values; concrete counterexamples for the two violations | partial |
| C113 | A mesh contracted to fewer processes keeps its loops | `RemoveDuplicates` with all writes; the sorted insertion of the global numbers and the search for them (models of C01, C02), the map of the entries of loops with signs and flips, both tables, the bits of the ghost vertices | the writing loop keeps a written prefix that ends with the entry compared to (induction over the row); entries of the tables are read off from the additions; sorted insertion and search are correct by C01, C02 | proved |
| C114 | Processes agree on the shared degrees of freedom of the edges | the order in which the loops visit pairs of process and edge, the flags that are sent, the counters and additions to the table; e2dof and dof2e from the model of C100 | invariant of the visits: the counter of a process is the number of its edges visited so far; the rows are read off; the exchanged edges of both sides are the same filter of the same list of global edges, as sorted lists with the same entries are equal | proved |
| C12 | Updating product values in place | value update of a product with fixed graph | refinement to `Matrix`; witness | proved |
| C13 | Coarse matrices are Galerkin projections | `RestrictMatrix` on top of C10/C11 | matrix algebra | proved |
| C14 | Sparse identity is the identity | CSR routines of `utils_sparseLA` | witnesses for the defects, partial theorems for the rest | partial |
| C15 | Adding sparse matrices is exact | CSR routines of `utils_sparseLA` | witnesses for the defects, partial theorems for the rest | partial |
| C16 | Dropping small entries keeps the large ones | CSR routines of `utils_sparseLA` | witnesses for the defects, partial theorems for the rest | partial |
| C17 | The dynamic block format represents the same matrix | dyn-block matrix: Finalize, Mult, MultAdd | refinement to `Matrix.mulVec` for every outcome of the sort | proved |
| C18 | Vector status conversion preserves the represented global vector | `DCCMap` start/apply/finish of both directions as phases of the transition system | confluence of the transition system (Exchange), finite-sum algebra | proved |
| C19 | The hybrid splitting represents the same operator | `HybridMatrix` splitting, incl. exchange of matrix rows | entrywise refinement: M + G = sum of local matrices | proved |
| C20 | Applying the preconditioner is a pure function of the right hand side | cycle of `AMGMatrix` as state machine with work vectors | induction on the number of levels; refinement to the recursive cycle of Spec/Multigrid; adjointness / energy by operator algebra | partial |
| C21 | The V-cycle is the recursive multigrid algorithm | V, W, BS loops | induction on the number of levels; refinement to the recursive cycle of Spec/Multigrid; adjointness / energy by operator algebra | proved |
| C22 | The multigrid operator is linear | same | induction on the number of levels; refinement to the recursive cycle of Spec/Multigrid; adjointness / energy by operator algebra | proved |
| C23 | The V-cycle preconditioner is symmetric | same | induction on the number of levels; refinement to the recursive cycle of Spec/Multigrid; adjointness / energy by operator algebra | proved |
| C24 | A V-cycle never increases the energy error | same | induction on the number of levels; refinement to the recursive cycle of Spec/Multigrid; adjointness / energy by operator algebra | proved |
| C25 | Operator-style application agrees with the cycle | `AMGMatrix` as preconditioner (embedding) | induction on the number of levels; refinement to the recursive cycle of Spec/Multigrid; adjointness / energy by operator algebra | partial |
| C26 | Concatenated level steps act like the original chain | `DOFMap` steps as linear maps with CanConcatenate flags | induction over the chain | proved |
| C27 | Transferring across several levels composes the steps | `DOFMap` steps as linear maps with CanConcatenate flags | induction over the chain | proved |
| C28 | The smoother contract holds: flags are only hints | `BaseSmoother` family as state transformers (x,res) | algebra against Spec/SmootherContract, witnesses | partial |
| C29 | Multi-step smoothing keeps the contract | `BaseSmoother` family as state transformers (x,res) | algebra against Spec/SmootherContract, witnesses | proved |
| C30 | The auxiliary-space (Hiptmair) smoother keeps the contract in both directions | `BaseSmoother` family as state transformers (x,res) | algebra against Spec/SmootherContract, witnesses | partial |
| C31 | Residual-based and right-hand-side-based Gauss-Seidel agree | `GSS3`, `GSS4` row loops | induction over the row list; refinement to Spec/DenseGS; energy identities of Lib/Sweep | proved |
| C32 | Gauss-Seidel only changes free degrees of freedom | `GSS3`, `GSS4` row loops | induction over the row list; refinement to Spec/DenseGS; energy identities of Lib/Sweep | proved |
| C33 | Gauss-Seidel does not increase the energy error | `GSS3`, `GSS4` row loops | induction over the row list; refinement to Spec/DenseGS; energy identities of Lib/Sweep | proved |
| C34 | Backward Gauss-Seidel is the adjoint of forward Gauss-Seidel | `GSS3`, `GSS4` row loops | induction over the row list; refinement to Spec/DenseGS; energy identities of Lib/Sweep | proved |
| C35 | The compressed Gauss-Seidel smoother agrees with the full one | `GSS3`, `GSS4` row loops | induction over the row list; refinement to Spec/DenseGS; energy identities of Lib/Sweep | partial |
| C36 | Iterative solver bookkeeping | `LinearSolver::Solve` loop | induction on steps; witnesses | partial |
| C37 | Solving is independent of the initial output vector | `LinearSolver::Solve` loop | induction on steps; witnesses | proved |
| C38 | Background communication is executed exactly once before it is awaited | mutex/condvar transition system of `BackgroundMPIThread` | inductive invariant over all reachable states; witness trace for the lost wakeup | proved |
| C39 | The background thread can be shut down | mutex/condvar transition system of `BackgroundMPIThread` | inductive invariant over all reachable states; witness trace for the lost wakeup | partial |
| C40 | The parallel hybrid smoother keeps the residual contract | `HybridBaseSmoother::SmoothImpl` as program of exchange and kernel phases | symbolic state after every phase, arbitrary kernels meeting a stage contract; then the Gauss-Seidel kernels | proved |
| C41 | The preconditioner is positive definite | theory of the cycle: energy contraction | operator algebra on the recursion | proved |
| C42 | Converting a symbolic matrix expression keeps the operator | sparse matrix conversion and sum/product routines | refinement to `Matrix`, witnesses | partial |
| C43 | Permutation matrices | sparse matrix conversion and sum/product routines | refinement to `Matrix`, witnesses | proved |
| C44 | Embedding rows | sparse matrix conversion and sum/product routines | refinement to `Matrix`, witnesses | proved |
| C45 | Restricting a matrix to blocks | sparse matrix conversion and sum/product routines | refinement to `Matrix`, witnesses | partial |
| C46 | Gathering a cumulated vector keeps its values | status handling of `DCCMap` | witness run; exact condition under which it is right | partial |
| C47 | The residual contract of the hybrid smoother does not depend on the status of the right hand side | residual in `SmoothImpl`, copies on other processes | exact error for all runs; witness | partial |
| C48 | Applying the parallel hybrid matrix is applying the global operator | `HybridMatrix` Mult / MultAdd as exchange program | C18, C19 | proved |
| C49 | Settings reach the hybrid smoothers | constructors of hybrid smoothers (argument order, steps) | evaluation of the model of the constructors; negations | partial |
| C50 | Reducing DOF values gives the same result everywhere | reduction of DOF values over sharing processes (`mpiwrap_extension.hpp`) | induction over ranks | proved |
| C51 | Backward hybrid smoothing is the adjoint of forward smoothing | energy and adjointness of the hybrid smoother | blockwise energy identities; witness with symm_loc | partial |
| C52 | Hybrid Gauss-Seidel does not increase the energy of the error | `CalcModDiag` (l1 type diagonals) | row-sum dominance; SPD witness for blocks | partial |
| C53 | Aggregates are a partition | successive pairwise aggregation: pairing rounds on lists | invariant: partition | proved |
| C54 | The intermediate coarse graphs of the pairwise algorithm are quotient graphs | coarse graph between rounds | refinement to quotient graph; witness | partial |
| C55 | Aggregates are connected and of bounded size | connectedness, size of aggregates | induction over rounds; witness for locked edges | partial |
| C56 | Every process that shares a member of an aggregate shares its center | orphan treatment | case analysis; witness | partial |
| C57 | The hierarchy of sharing classes is closed and consistent | `EQCHierarchy` constructors and queries as exchange programs | refinement to sets of processes; witnesses | proved |
| C58 | Class identifiers are globally unique and agreed | `EQCHierarchy` constructors and queries as exchange programs | refinement to sets of processes; witnesses | proved |
| C59 | Queries of the class hierarchy are set operations | `EQCHierarchy` constructors and queries as exchange programs | refinement to sets of processes; witnesses | proved |
| C60 | Every constructor finds the classes of the shared objects | `EQCHierarchy` constructors and queries as exchange programs | refinement to sets of processes; witnesses | partial |
| C61 | All cuts and unions, and the global number of classes | `EQCHierarchy` constructors and queries as exchange programs | refinement to sets of processes; witnesses | partial |
| C62 | Vertex transports are rigid body motions | elasticity vertex / edge data, transformation matrices Q | matrix identities entry by entry in 2D/3D against Spec/RigidMotion; witnesses | proved |
| C63 | Optimised products with transports equal the matrix products | elasticity vertex / edge data, transformation matrices Q | matrix identities entry by entry in 2D/3D against Spec/RigidMotion; witnesses | partial |
| C64 | The edge matrix of the auxiliary problem has exactly the rigid body motions as kernel | elasticity vertex / edge data, transformation matrices Q | matrix identities entry by entry in 2D/3D against Spec/RigidMotion; witnesses | proved |
| C65 | Coarse mesh data represents the fine energy | `AttachedVertexData/EdgeData` map to the coarse mesh, H1 and elasticity | energy of coarse data = energy of prolongated (Spec/AuxEnergy) | partial |
| C66 | The edge connectivity matrix is the adjacency of the mesh | edge connectivity matrix of the mesh (`base_mesh.cpp`) | refinement to the adjacency of the mesh | proved |
| C67 | Rows of the smoothed prolongation are bounded and strong | graph of the smoothed prolongation | list invariants of the row construction | proved |
| C68 | The smoothed prolongation keeps constants and rigid body motions | piecewise and smoothed prolongation values | row identity: rows applied to rigid motions of the coarse centers | proved |
| C69 | Parallel table reduction | `ReduceTable` as exchange program | confluence of Exchange2 and row-wise refinement | proved |
| C70 | Scatter of class-wise data | `ScatterEQCData` | same | proved |
| C71 | Vertices of a distributed mesh are numbered by class, consistently | `BlockTM::SetVs` | refinement: order by class, bijection | proved |
| C72 | Edges of a distributed mesh are numbered consistently | `BlockTM::SetNodes<NT_EDGE>` | refinement over C69, C03; long invariant chain (BTM 1-10) | proved |
| C73 | Nodal data of a distributed mesh is reduced and scattered to all copies | `AllreduceNodalData`, `ScatterNodalData` | C69, C70 on tables of node values | proved |
| C74 | Cumulate and Distribute keep the meaning of attached data | `Cumulate`, `Distribute` | induction over the history of calls | proved |
| C75 | The coarse vertices of a distributed mesh are its agglomerates | `BaseAgglomerateCoarseMap::MapVerts` | refinement over C69/C70; injectivity of the coarse numbering | proved |
| C76 | The coarse edges of a distributed mesh are the pairs of coarse vertices that a fine edge joins | `BaseAgglomerateCoarseMap::MapEdges` | refinement over C69/C70, re-established hypotheses of the next level | proved |
| C77 | Block Gauss-Seidel is multiplicative Schwarz | `BSmoother` sequential loops, construction of blocks | refinement to Spec/BlockGS; Lib/Sweep | proved |
| C78 | The parallel block Gauss-Seidel sweep has one result | `BSmoother` parallel loops over colours | independence of tasks, Lib/Interleave | proved |
| C79 | MultAdd of the block smoother is the sum of the block corrections | `BSmoother::MultAdd` | same; witness of a lost update | partial |
| C80 | The second block smoother is multiplicative Schwarz as well, with a right residual | `BSmoother2` with overlapping blocks: block storage, sweeps, residual | representation invariant of block rows; refinement to Spec/BlockGS; witnesses | partial |
| C81 | The block smoother for blocks without common unknowns gives the same sweep and residual as the general one | `BSmoother2` without overlap (L/U split) | zig-zag invariants; refinement to Spec/BlockGS; witnesses | partial |
| C82 | The hybrid block smoother over processes performs block Gauss-Seidel within each process with a fixed exchange | `HybridBS`: block filter, constructor, kernels in `SmoothImpl` | C40 with kernels of C77/C80; witnesses | partial |
| C83 | The smoother for dynamic block matrices is damped block Gauss-Seidel over the rows with equal pattern | `DynBlockSmoother`: diagonal blocks, sweeps with and without residual | refinement to Spec/BlockGS with blocks of Spec/RowClasses; witness | partial |
| C84 | The hybrid smoother for dynamic block matrices performs block Gauss-Seidel over equal rows within each process and converges if the local ones do | `HybridDynBlockSmoother`: `CalcScalModDiag`, constructor, stages in `SmoothImpl` | C40 with kernels of C83; pattern of the split matrix (C19); C52 for the diagonal; witness | partial |
| C85 | Vectors can be moved between all processes and the masters of process groups without change | `CtrMap` transfers (`AddF2C`, `TransferF2C`, `TransferC2F`, `AddC2F`), MPI types | Exch phases; sums over members | proved |
| C86 | The contracted matrix is the same operator | `CtrMap::DoAssembleMatrix`: reverse map, sorting, merging of rows | row refinement with C03/C04/C02; sums over members | proved |
| C87 | Exchanging contraction and prolongation changes nothing | `CtrMap::SwapWithProl`, `SetUpMPIStuff` | rows of the prolongation; commuting diagrams; witness for stale MPI types | partial |
| C88 | The contracted mesh is the same mesh seen by groups of processes | `GridContractMap`: `BuildCEQCH`, vertices of `BuildNodeMaps`; C58 for the set-up of the contracted hierarchy | names of classes (identifier, members, size); invariants of the loops; sums over identifiers; witness for the missing closure | partial |
| C89 | Groups of processes partition the processes | `PartitionProcsMETIS` | refinement: lowest ranks, places, rows of the table | proved |
| C90 | Unknowns and vertex data of a (contracted) level fit the mesh | `BuildUDofs`, `BuildContractDOFMap`, `MapNodeData` | names of vertices (C88) give the hypotheses of C85-C87; sums over members | proved |
| C91 | MIS agglomeration gives connected, small, disjoint agglomerates that cover the mesh | `MISAgglomerator::FormAgglomerates_impl`: both loops, `init_agglomerate` with the greedy loop and its undoing, fixed agglomerates; strengths of connection are arbitrary outcomes of tests | invariant of the state (disjointness, marks, walks to the centre with the stored distance); refinement of one agglomerate (`Grown`); witnesses for the two violations; link to C75 | partial |
| C92 | The preconditioner that is built is symmetric positive definite | `BuildAMGMat`, `BuildSmoother`, `SelectSmoother` for one process: composition of C10-C13 (level matrices), C31-C35 (Gauss-Seidel), C80 (block Gauss-Seidel), Jacobi, C28-C30 (proxy), C20-C25 and C41 (cycles) | all smoothers are sweeps of self-adjoint corrections; induction over levels for the matrices; composition with C22-C25, C41; concrete evaluation for the two violations | partial |
| C93 | Agglomerates owned by any process become the vertices of the coarse mesh | `MapVerts_sv`: counts, first `ReduceTable`, prefix sums, loop over the agglomerates, second `ReduceTable`, loop over the shared vertices | C69 for both exchanges; numbers of a class as concatenated blocks of its processes (injective and onto); invariant of the loop over the agglomerates; composition with C71 and C76 | proved |
| C94 | Every chosen degree of freedom belongs to exactly one vertex of the finest mesh | `SetUpMaps`: the loops for `RANGE_SUBSET` and `SELECTED_SUBSET` with regular ordering, one or several block sizes; rows of the table are stored one after the other, so that a write behind the end of a row is a write into the next | specification `slot` of the place of a degree of freedom (bijective); invariants of the loops (position = finished blocks); witnesses for the two violations, one of them an infinite loop (for all numbers of rounds) | partial |
| C95 | The finest mesh made from the matrix has an edge exactly where first degrees of freedom are coupled | `BuildEQCH`, `BTM_Alg` (vertices, renumbering of the maps, free vertices, edges from the rows of the matrix); composition with C58 (classes), C71, C72 (vertices and edges of the mesh) and C94 (maps) | refinement of the loops over vertices; names of vertices as first degrees of freedom; composition over all schedules; witnesses for the violations, one of them a deadlock in all schedules | partial |
| C96 | The embedding gives every degree of freedom the value of its vertex | `BuildES`, `BuildED` (scalar, displacements, quadratic elements), `BuildPermutationMatrix`, `BuildEmbedding_impl` with the rows set to zero and the identity for processes without embedding | products of matrices with at most one entry per row (C10); order of the loops is the specification `slot`; entries of the triple product (C13); witnesses for the violations | partial |
| C97 | The set-up of the levels ends, with levels that shrink, and alike on all processes | `InitState`, `RSU`, `DoStep`, `TryCoarseStep`, `TryContractStep`, `FindRDFac`, `ComputeGoal`, `ComputeLocFrac`, the number of groups: one program per process that stops at collective operations; coarsening and contraction are an arbitrary `World` | lock-step relation `Runs` (no rule if processes disagree), determinism; invariant that all states agree; induction over the number of nodes for termination and over the run for the levels; witnesses | partial |
| C98 | Coarse loops are simple, and their combinations contain the images of all fine loops | `SplitChunk`, `SimpleLoopsFromChunks` (marks in the data included), `rotateVLoop`, phases I to III of the mapping of loops, `convert_loop`, the buckets; vertices are an arbitrary linear order | measure for the nested calls (length, open or closed); permutation of the steps under splitting; maximal trails in balanced sets of edges are closed; sums of oriented edges (`net`) under rotation and reversal; witnesses for the violations | partial |
| C99 | All processes agree on which processes share a coarse loop | `ShrinkDPTable`, `AddOrientedLoops`, packing and unpacking of the coarse edges (PHASE II), removal of duplicates with their loopers, as phases of message exchange over the loops of C98 | a row is identified by a name; reading with counters gives back what was packed (induction over the rows, using that shared rows have the same order); stability of the specification `Shared` under filtering; invariant of a deadlocked execution for the violation | partial |

Every entry `partial` is a property that the code violates: the exact violation is proved with a concrete reachable witness, and what remains true is proved (theorems with suffix `_partial`). The notes in MANIFEST.json say which part is missing.

## Which code is modelled
File and line ranges cited by the definitions in `lean/Verif/Model` (generated from their comments). Lines not in this table are not modelled.

| model | code |
|----|----|
| AMGMatrix | src/base/solve/amg_matrix.hpp: 15-29, 20, 38-44; src/base/solve/amg_matrix.cpp: 37-107, 45-104, 58, 66-89, 110-157, 119-130, 148-155, 160-307, 183-214, 216-247, 249-305, 310-374, 326-340, 356-365, 377-382, 385-393 |
| AMGMatrix2 | src/base/solve/amg_matrix.cpp: 406-434, 590-633, 636-646, 693-740, 742-789; src/base/solve/amg_matrix.hpp: 96-107 |
| AMGPC | src/base/precond/amg_pc.cpp: 565-736, 599-637, 944-955, 1034-1093, 1078-1081, 1280-1297; src/base/precond/amg_pc_vertex_impl.hpp: 561-602; src/base/precond/amg_pc.hpp: 54-62; src/base/smoothers/base_smoother.cpp: 88-114, 96-113; src/base/smoothers/base_smoother.hpp: 279; src/base/coarsening/dof_map.cpp: 826-842 |
| AllReduce | src/base/distributed/mpiwrap_extension.hpp: 283-335 |
| BSThree | src/base/precond/amg_pc.cpp: 739-840, 746-789, 749-789, 753-754, 759-789, 779-787, 782-785, 802-812, 822-837 |
| BTM | src/base/mesh/base_mesh_impl.hpp: 27-370, 27-95, 46-47, 64, 73-75, 94-104, 107-370, 134-140, 149-170, 196-216, 202-214, 203, 218-354, 226-354, 226-257, 233-241, 242-249, 271-304, 306-350, 376-384; src/base/mesh/base_mesh.hpp: 107-150, 113-114, 117-118, 119-128, 140-141, 142-144; src/base/utils/utils_arrays_tables.hpp: 229-285, 245-248, 254-284, 255-266, 267-273; src/base/mesh/base_mesh.cpp: 93-109; src/base/distributed/eqchierarchy.hpp: 79-83 |
| BackgroundThread | src/base/smoothers/hybrid_base_smoother.cpp: 11-66, 33-51 |
| BlockGS | src/base/smoothers/block_gssmoother.cpp: 17-505, 17-225, 83-99, 153-182, 155-178, 195-201, 229-286, 290-320, 293-318, 304-312, 315, 345-381, 359-378, 403-426, 429-502 |
| BlockPar | src/base/smoothers/block_gssmoother.cpp: 229-426, 229-272, 290-320, 293-318, 304-308, 345-381, 359-378, 403-426, 413-424 |
| CSR | src/base/linalg/utils_sparseMM.cpp: 32-36; src/base/smoothers/gssmoother.cpp: 155, 209; src/base/smoothers/base_smoother.hpp: 132-142 |
| CoarseMap | src/base/coarsening/agglomerate_map.cpp: 105-283, 133-137, 139-201, 141-144, 161-197, 171-195, 172-194, 205, 210-217, 235-263, 236-245, 242-262 |
| CoarseMapSV | src/base/coarsening/agglomerate_map.cpp: 286-467, 323-331, 332-358, 332-337, 347-358, 350-355, 360-371, 360-402, 363-371, 372-400, 377, 388-397, 412-430, 415-429, 433-448, 434-436, 437-442 |
| CtrMap | src/base/coarsening/dof_contract.cpp: 1-725, 14, 15, 18, 58-60, 63-112, 63-235, 74, 76-83, 87-98, 99-100, 115-165, 127, 168-221, 179, 301-490, 316-320, 372-391, 386-391, 392-409, 470-475, 503-537, 511-515, 541-722, 574-722, 580-588, 597-612, 613-715, 625-630, 627, 631, 634-665, 641-650, 694-697, 704-712; src/base/coarsening/dof_contract.hpp: 64-67, 64, 67 |
| Curl | src/stokes/common/stokes_mesh_impl.hpp: 156-181, 162-165, 169-181; src/stokes/ncfes/nc_stokes_factory_impl.hpp: 807-879, 849-854, 856-872, 860, 865-867, 883-985, 906-951, 926-931, 932-949, 937, 938-946; src/stokes/hdiv/hdiv_stokes_factory_impl.hpp: 1484-1620, 1547-1561, 1563-1564, 1595-1608, 1600-1607, 1626-1745, 1672-1711, 1692-1697, 1698-1709, 1703, 1707; src/stokes/hdiv/mesh_dofs.hpp: 32-62, 45-62, 73-76, 83-86, 93-96, 103-106 |
| DCC | src/base/linalg/dcc_map.cpp: 54-59, 60-65, 76-131, 85-87, 134-183, 249-259, 262-273, 276-287, 290-301, 506-534, 509, 512 |
| DOFMap | src/base/coarsening/dof_contract.hpp: 11-76; src/base/coarsening/dof_map.cpp: 17-41, 24-35, 27-33, 44-65, 68-79, 84-88, 90-110, 112-119, 121-128, 131-161, 164-182, 173-181, 185-206, 209-218, 221-255, 310-345, 373-390, 380-388, 408, 412-431, 428-429, 453, 463-464, 622-632, 655-675, 678-696, 699-716, 719-736, 762-794, 770, 826-842; src/base/linalg/utils_sparseMM.hpp: 93-109; src/base/factory/base_factory.cpp: 449-500 |
| DofMaps | src/base/precond/amg_pc_vertex_impl.hpp: 177-266, 192-194, 205-233, 208, 234-264, 242-263, 244-262, 245-261, 245-247, 248-254, 249-252, 255-261, 414-432, 424-431, 433-458, 441-457, 443-455, 445-448, 449-455 |
| DofMesh | src/base/precond/amg_pc_vertex_impl.hpp: 123, 128-132, 941-1100, 963, 970-986, 996-1001, 1007-1019, 1010-1013, 1012-1017, 1021-1036, 1033-1036, 1053-1058, 1062, 1066-1078, 1068-1072, 1073-1077, 1079-1087, 1084-1086 |
| DynBlock | src/base/linalg/dyn_block.hpp: 13-106, 34-37, 51-74, 76-97, 277-286; src/base/linalg/dyn_block.cpp: 13-39, 119-142, 144-146, 277-506, 291-299, 321-344, 373-441, 409-425, 411-424, 437, 445-480, 445-472, 962-974, 965-998, 986-998, 1069-1133, 1110-1114, 1117-1121 |
| DynSmoother | src/base/smoothers/dyn_block_smoother.cpp: 1-547, 20-230, 121-228, 143-147, 157-168, 174-193, 189-191, 201, 203-214, 211, 233-286, 278, 280-283, 301-337, 327, 352-430, 433-502, 506-523, 526-544; src/base/smoothers/dyn_block_smoother.hpp: 14-118, 49-53, 101-117; src/base/linalg/dyn_block.hpp: 221-252, 221-236 |
| EQC | src/base/distributed/eqchierarchy.cpp: 34-70, 94-131, 172-326, 172-320, 181-201, 186, 217-314, 225-247, 260-269, 349-426, 349-641, 357-367, 373-387, 394-422, 398-421, 428-535, 433-459, 470-491, 472-476, 478-488, 495-535, 498-534, 500-531, 549-590, 552-565, 559-564, 604-607, 608-610, 611-613, 615-630, 617-624, 618-630, 632-634, 637-639, 641, 686-702, 703-720, 722-738; src/base/distributed/eqchierarchy.hpp: 67-68, 70-71, 86-92, 98-108, 110-112, 114-115; src/base/distributed/mpiwrap_extension.hpp: 12; src/base/utils/utils_arrays_tables.hpp: 10-21 |
| EdgeDofs | src/stokes/common/stokes_mesh_impl.hpp: 220-309, 254-272, 266-272, 279-295, 284-290, 288-289 |
| Elast | src/elasticity/elasticity_energy.hpp: 30-688, 65-84, 86-101, 103-110, 112-447, 134-138, 139-147, 416-424, 450-493, 503-525, 516-519, 544-566, 585-618, 637-670, 755-782, 839-858, 860-876, 885-901, 927-940; src/elasticity/elasticity_mesh.hpp: 20-41; src/elasticity/elasticity_energy_impl.hpp: 51-59, 70-77, 88-100, 102-114, 226-259, 261-272 |
| Embedding | src/base/precond/amg_pc_vertex_impl.hpp: 650-681, 656, 660-664, 667-672, 669, 673-680, 693-735, 703-713, 715-733, 723-730, 737-760, 798-886, 813-852, 816-823, 817-823, 825, 844-848, 853-882; src/base/precond/amg_pc_vertex.hpp: 209-218; src/h1/h1_impl.hpp: 498-516, 503-515, 505-513, 506-512, 508-510; src/elasticity/elasticity_pc_impl.hpp: 560-667, 668-685, 679-682, 687-706, 690-704, 692-702, 695-701, 698-699 |
| Exchange | src/base/linalg/dcc_map.cpp: 54-67, 87-90, 116 |
| Exchange2 | src/base/distributed/reducetable.hpp: 207-215 |
| FacetAux | src/base/ngs_extension/facet_aux_info.cpp: 6-15, 17-34, 25-33, 45-163, 47-50, 50-101, 65-88, 72-88, 91-96, 106-133, 115-121, 117-121, 124-126, 136-137; src/base/ngs_extension/facet_aux_info.hpp: 43-52, 61, 62, 63, 69, 70, 71, 79 |
| FacetLoops | src/stokes/common/stokes_pc.cpp: 388-510, 398-408, 410-420, 436-439, 441-450, 442-450, 442-464, 464, 468-509, 470-475, 484-509, 491-507 |
| FreeNodes | src/stokes/common/stokes_pc.cpp: 758-894, 770-777, 770-791, 782-783, 785-788, 798-856, 807-839, 814-839, 828-835, 867-891, 877-885 |
| GSBlocks | src/stokes/common/stokes_mesh_impl.hpp: 70-149, 85-86, 85, 99-131, 102-114, 103-114, 116-130, 116-127, 118-120, 129-130, 138-148; src/stokes/hdiv/hdiv_stokes_pc_impl.hpp: 816-858, 839, 848-853, 861-922, 881-894; src/base/precond/amg_pc_vertex_impl.hpp: 1171-1269, 1190, 1191-1214 |
| GaussSeidel | src/base/smoothers/gssmoother.cpp: 90-107, 110-137, 121-126, 127-134, 142-170, 173-192, 195-257, 209-212, 214-256, 260-315, 274-278, 349-372, 375-398, 406-438, 441-453, 455-506, 542-561, 555-559, 564-583, 577-581; src/base/smoothers/base_smoother.hpp: 132-142 |
| GridCtr | src/base/coarsening/grid_contract.cpp: 18-200, 163-171, 172-173, 423-430, 437-502, 446-459, 452, 478-484, 486-501, 552-575, 909-1073, 917-923, 960-970, 982-1002, 984-989, 1004-1014, 1015-1032, 1044-1055; src/base/coarsening/grid_contract.hpp: 128-192, 128-180, 160-167; src/base/factory/nodal_factory_impl.hpp: 43-80, 199-204; src/base/mesh/base_mesh.hpp: 150-156 |
| HProl | src/stokes/hdiv/hdiv_stokes_factory_impl.hpp: 106-1161, 315-391, 319-382, 399-497, 409-463, 441, 484-492, 518-542, 594-635, 639-711, 716-732, 717-733, 779-1161, 787-792, 814-922, 852-874, 876-901, 924-946, 948-961, 963-981, 1122-1123, 1139-1161; src/base/coarsening/base_coarse.cpp: 16-30; src/stokes/hdiv/mesh_dofs.hpp: 108-120 |
| Hybrid | src/base/linalg/hybrid_matrix.cpp: 20-277, 58-95, 62-78, 122-125 |
| HybridBS | src/base/smoothers/block_gssmoother.cpp: 505-940, 525-534, 529, 543-590, 594-686, 610-635, 650-667, 702-815, 818-909; src/base/smoothers/hybrid_base_smoother.hpp: 56-61 |
| HybridDyn | src/base/smoothers/dyn_block_smoother.cpp: 288-298, 553-1060, 557-677, 587-624, 591-601, 592-608, 866-981, 893-927, 929-971, 973-978, 984-1038, 997-998, 1041-1053; src/base/smoothers/dyn_block_smoother.hpp: 120-180, 170-179; src/base/linalg/hybrid_matrix.cpp: 663-688; src/base/smoothers/hybrid_smoother_utils.hpp: 28-32, 35-45, 45-99, 65-99 |
| HybridMatrix | src/base/linalg/hybrid_matrix.cpp: 336-620, 394-413, 437-455, 458-477, 499-518, 567-583, 591-615; src/base/smoothers/hybrid_base_smoother.cpp: 83-97; src/base/smoothers/hybrid_smoother.cpp: 18-47, 236-241; src/base/smoothers/gssmoother.cpp: 603-619; src/base/smoothers/block_gssmoother.cpp: 508-521 |
| HybridSmoother | src/base/smoothers/hybrid_base_smoother.cpp: 81-595, 246-289, 269-270, 296-405, 412-495, 502-574, 508, 509, 511, 522-532, 534-559, 546-559, 548-559, 567-573; src/base/smoothers/gssmoother.cpp: 601-861, 639-662, 664-678, 693, 695-696, 710-783, 789-861; src/base/smoothers/hybrid_base_smoother.hpp: 14-19, 84-96; src/base/linalg/hybrid_matrix.cpp: 396-411, 571-583 |
| LevelCtrl | src/base/factory/base_factory.hpp: 93-124, 165-178; src/base/distributed/universal_dofs.hpp: 41-42; src/base/factory/nodal_factory_impl.hpp: 36, 37-38, 90-101, 141-144; src/base/factory/base_factory.cpp: 269-353, 287-292, 293-307, 293-352, 317, 334-352, 356-436, 368-369, 392-393, 528-570, 549, 555-563, 573-625, 594-598, 600-624, 605, 607-617, 628-682, 643-660, 650-660, 655-658, 665-679, 693-710 |
| LinearSolver | src/base/solve/LinearSolver.hpp: 23-25, 37-41, 46-50, 53-62; src/base/solve/LinearSolver.cpp: 9-18, 30-105, 85-100, 108-112, 121-130, 133-139, 166-181 |
| LocBlock | src/base/smoothers/loc_block_gssmoother.hpp: 19-31; src/base/utils/utils_arrays_tables.hpp: 624-638; src/base/smoothers/loc_block_gssmoother_impl.hpp: 13-33, 66-135, 138-219, 244-269, 248-258, 272-285, 276-281, 288-308, 295-302, 311-333, 336-356, 359-383, 386-441, 444-476, 479-505, 508-533, 572-590, 593-612, 618-652, 655-669, 672-689, 692-709, 712-750, 753-776, 779-812, 815-844, 847-879; src/base/smoothers/loc_block_gssmoother.cpp: 40-158, 54-57, 66-68, 109-126, 161-236, 239-250, 269-291, 294-320, 316-318 |
| LoopBuckets | src/stokes/common/stokes_map_impl.hpp: 497-563, 507-537, 507-530, 539-545, 548-554 |
| LoopCtr | src/stokes/common/stokes_map_impl.hpp: 13-46, 25-30, 30-43, 40-42, 826-1119, 988-992, 988-1113, 1004-1013, 1006-1012, 1046-1047, 1077-1112, 1082-1099, 1091-1098, 1100-1105 |
| LoopMap | src/stokes/common/loop_utils.hpp: 22-25, 28-32, 364-412, 374-377, 380-385, 387-402; src/stokes/common/stokes_map_impl.hpp: 243-292, 243-651, 258-287, 405-454, 430-435, 466-488, 565-594, 601-627, 629-650 |
| LoopSort | src/stokes/common/loop_utils.hpp: 21-24, 21-103, 27-31, 35-102, 45-49, 51-77, 58-62, 80-95, 84-89, 84-94, 96-98; src/stokes/common/stokes_pc.cpp: 328-386, 331-348, 603-625, 627-650, 652-690, 693-738, 711-732 |
| LoopTab | src/stokes/common/loop_utils.hpp: 309-314, 319, 322-329, 325, 326-327, 331-349, 331, 335-349, 340-347, 344-345; src/stokes/common/stokes_map_impl.hpp: 296-650, 320-335, 328-332, 351-377, 357-369, 360-364, 473-488, 565-650; src/stokes/common/stokes_mesh_impl.hpp: 14-66, 21-26, 28-39, 41-61; src/base/distributed/mpiwrap_extension.hpp: 338-351, 354-376 |
| Loops | src/stokes/common/loop_utils.cpp: 8-69, 22, 24-34, 36-50, 52-53, 52-56, 54-55, 57-61, 60-61, 71-147, 81-84, 89-133, 89, 92-104, 109-128, 112-125, 132-133 |
| MISAgg | src/base/coarsening/mis_agg_impl.hpp: 87-857, 157-160, 169-173, 184-206, 465-592, 465-571, 467-472, 477-478, 491-515, 496-500, 508-511, 516-571, 523-538, 539-549, 547, 550-570, 596-610, 706-719, 744-841, 791, 792-829, 809, 847-862; src/base/coarsening/agglomerator.hpp: 43-68 |
| MakeLoop | src/stokes/common/stokes_pc.cpp: 166-170, 166-283, 173-231, 191-207, 201-203, 203-204, 220-223, 234-283, 263-268, 576-585, 588-601 |
| MapData | src/base/factory/vertex_factory_impl.hpp: 1599-1660; src/base/coarsening/base_coarse.hpp: 20-45; src/h1/h1_impl.hpp: 18-44, 35-40, 37-38, 47-57; src/elasticity/elasticity_impl.hpp: 43, 49-62, 64-67, 66-67, 73-76, 110-187; src/base/coarsening/base_coarse.cpp: 16-29 |
| MapEdges | src/base/coarsening/agglomerate_map.cpp: 470-982, 528-615, 534-546, 536-546, 553-571, 588-606, 610, 619-631, 633-636, 637-646, 648-731, 650-656, 665-683, 700-722, 704-717, 736-743, 748-945, 753-793, 759-793, 764-791, 767-770, 796-806, 824-848, 850-870, 879-895; src/base/coarsening/base_coarse.cpp: 16-29 |
| MergeArrays | src/base/utils/utils_arrays_tables.hpp: 700-803 |
| MergeArrays1 | src/base/utils/utils_arrays_tables.hpp: 661-698 |
| ModDiag | src/base/smoothers/hybrid_smoother_utils.hpp: 11-174, 28-32, 37-42, 45-99, 47-62, 65-99, 76-98, 100-140, 110-140, 123; src/base/smoothers/hybrid_smoother.cpp: 70-98, 87; src/base/smoothers/gssmoother.cpp: 143-170 |
| NCProl | src/stokes/ncfes/nc_stokes_factory_impl.hpp: 31-796, 70-110, 190-222, 190-228, 230-244, 232-244, 241-242, 256-331, 291-312, 313-322, 324-724, 333-355, 334-355, 360-378, 384-393, 396-397, 398-399, 399-406, 404, 413-441, 421-441, 433-436, 459-462, 465-501, 468-493, 488, 500, 504-518, 525-527, 528-537, 541-549, 564-569, 577-583, 590-603, 597-600, 646, 709-724, 717-723, 717-718; src/stokes/ncfes/nc_stokes_mesh_impl.hpp: 13-103, 59-87, 69-77, 97-103; src/h1/h1_energy_impl.hpp: 24-28; src/stokes/common/stokes_mesh_impl.hpp: 396-409 |
| NodalData | src/base/mesh/base_mesh.hpp: 101-112, 218-306, 221-223, 224-249, 236-252, 269-270, 271-292, 288-291, 294, 296-302; src/base/utils/utils_arrays_tables.hpp: 377-436; src/base/mesh/alg_mesh.hpp: 17-64, 46-63 |
| Options | src/base/utils/SpecOpt.hpp: 15-20, 26, 27, 34-38, 40-45, 47-59, 49-53, 64, 66-76, 88-97, 109-139, 141-148, 150-158 |
| Orders | src/base/utils/utils_arrays_tables.hpp: 9-21, 13-19; src/base/utils/utils.hpp: 38-41, 42-46, 47-52, 53-59 |
| P2Emb | src/base/precond/amg_pc_vertex_impl.hpp: 267-396, 285-308, 293-304, 351-382, 354-361, 374-382, 386-394, 1079-1087; src/elasticity/elasticity_pc_impl.hpp: 563-667, 570-666, 572-585, 589-604, 600, 607-661; src/base/utils/amg_solver_settings.hpp: 47-52 |
| Permutation | src/base/utils/utils_arrays_tables.hpp: 159-226 |
| PresVec | src/stokes/hdiv/preserved_vectors_impl.hpp: 174-345, 174-738, 197-204, 209, 210, 213-336, 216-251, 227-245, 229-232, 275-281, 287-333, 350-440, 393-406, 478-500, 484-503, 508-670, 541-623, 541-669, 559-584, 604-617, 651-667, 691-715, 723-735; src/stokes/hdiv/mesh_dofs.hpp: 57-63, 71-74, 82-85; src/stokes/hdiv/hdiv_stokes_factory_impl.hpp: 240-262, 267, 284-299 |
| RedTab | src/base/distributed/reducetable.hpp: 21-576, 64-90, 94-126, 102-107, 202-220, 236-258, 272-363, 297-334, 371-402, 417-445, 457-494, 499-531, 536-565, 541-562; src/base/distributed/eqchierarchy.hpp: 147-205, 147-174, 158-169, 166-167 |
| SPW | src/base/coarsening/spw_agg_impl.hpp: 26-378, 52-245, 70-95, 101-161, 163-214, 186-214, 219-236, 247-305, 274-293, 307-373, 632-776, 669-711, 669-685, 728-772, 768-849, 936-1014, 1000-1002, 1069-1263, 1094-1120, 1148-1253, 1266-1355, 1284-1290, 1292-1323, 1325-1351, 1372-1406, 1430-1817, 1470-1738, 1479-1628, 1488-1605, 1489, 1541-1586, 1641-1738, 1753-1784, 1768; src/base/distributed/eqchierarchy.hpp: 59-112; src/base/coarsening/base_coarse.cpp: 16-30, 63-83; src/base/coarsening/agglomerator.hpp: 94-117 |
| SProl | src/base/factory/vertex_factory_impl.hpp: 2437-2745; src/base/mesh/base_mesh.cpp: 35-76, 53-57, 62 |
| SetupLog | src/base/factory/base_factory.cpp: 67-199, 83-107, 91-101, 102-106, 110-161, 119-128, 121-127, 133-148, 152-160, 164-190, 172-188, 193-199, 220-255, 250-255, 281; src/base/factory/base_factory.hpp: 135-140, 141-143, 220-241; src/base/utils/utils.hpp: 94 |
| Smoother | src/base/smoothers/base_smoother.hpp: 73-78, 79-85, 87-94, 92-93, 132-142, 180-188, 189-197, 296-300; src/base/smoothers/base_smoother.cpp: 61-74, 159-193, 196-224, 227-273, 276-313 |
| SortedArray | src/base/utils/utils_arrays_tables.hpp: 23-43, 26-36, 37-42, 67-92, 78-86, 87-91, 94-102, 104-108, 110-118, 129-146, 148-157, 152-155 |
| SparseLA | src/base/linalg/utils_sparseLA.cpp: 151-211, 164-195, 189-192, 213-244, 438-443, 518-519, 782-825, 837-867, 955-966, 968-1006, 1008-1021, 1041-1065, 1049-1062, 1053-1061, 1060, 1154-1313, 1200-1256, 1258-1280; src/base/linalg/utils_sparseLA.hpp: 374-388 |
| SparseMM | src/base/linalg/utils_sparseMM.cpp: 54-93, 55, 59-66, 76-79, 107-238, 124-142, 124, 189-222, 195-200, 201-210, 209-220, 245-328; src/base/linalg/utils_sparseMM.hpp: 93-109 |
| Traversal | src/base/utils/utils_arrays_tables.hpp: 229-285, 245-248, 254-284, 255-266, 267-273, 307-349, 351-357, 360-375, 470-485, 487-506, 508-512, 536-554, 555-588, 571-577, 571-586, 578-584, 590-604, 606-621, 623-638, 640-649 |

## Axioms
Output of `#print axioms` for every theorem named in MANIFEST.json, grouped by the set of axioms.

**propext, Classical.choice, Quot.sound** (635): `SortedArray.find_correct`, `SortedArray.mergePos_correct`, `SortedArray.insertSorted_correct`, `SortedArray.insertUnique_correct`, `SortedArray.insertNodups_correct`, `SortedArray.insertAll_correct`, `SortedArray.insertAllMulti_correct`, `Traversal.merge2_correct`, `Traversal.mergeAIntoB_correct`, `Traversal.mergeTable_correct`, `MergeArrays1.run_correct`, `MergeArrays1.run_sentinel_entry_ub`, `MergeArrays.run_correct`, `MergeArrays.run_overflow`, `Traversal.iterABC_correct`, `Traversal.iterInter_correct`, `Traversal.iterAC_correct`, `Traversal.iterANotB_correct`, `Traversal.setMinus_correct`, `Traversal.partitionAB_correct`, `Traversal.posSorted_correct`, `Permutation.applyInPlace_correct`, `Permutation.applyAndKeep_correct`, `Orders.lexSmaller_iff`, `Orders.lexSmaller_strictTotal`, `Options.setFromFlagsEnum_correct`, `Options.setEnumOpt_correct`, `SparseMM.transpose_correct`, `SparseMM.transpose_transpose`, `Curl.dofed_correct`, `Curl.ncDiv_correct`, `Curl.curlT_wf`, `Curl.unit_flow`, `Curl.div_curl_local`, `Curl.div_curl_zero`, `Curl.div_curl_product`, `Curl.convert_once`, `Curl.dofToEdge_correct`, `Curl.dofToEdge_total`, `Curl.hDiv_correct`, `Curl.hdiv_curl_local`, `Curl.hdiv_curl_zero`, `Curl.curl_twice`, `Curl.curl_twice_div`, `Curl.hdiv_shared`, `NCProl.div_const`, `NCProl.div_free`, `NCProl.div_outflow`, `NCProl.exterior_val`, `NCProl.const_preserved`, `NCProl.prol_total`, `NCProl.flow_ok`, `NCProl.vol_sum`, `NCProl.div_shift`, `NCProl.zero_vol_not_const`, `NCProl.zero_vol_singular`, `NCProl.single_real`, `NCProl.single_real_wrong`, `NCProl.diri_mapped`, `Pres.computePW_rep`, `Pres.computePW_orth`, `Pres.computePW_exact`, `Pres.computePWZF_rep`, `Pres.computePWZF_flow`, `Pres.special_flow`, `Pres.block_spec`, `Pres.fill_total`, `Pres.preserved`, `Pres.flows`, `Pres.no_flow`, `Pres.dofToEdge_correct`, `HProl.edge_flow`, `HProl.agg_flow`, `HProl.div_eq`, `HProl.div_const`, `HProl.div_map_data`, `HProl.div_wrong`, `HProl.zero_vol_last`, `HProl.orthogonal`, `HProl.minimal`, `HProl.reproduces`, `HProl.reproduces_const`, `HProl.preserved_cross`, `HProl.preserved_exact`, `HProl.prol_total`, `SLog.summary_written`, `SLog.local_partial`, `SLog.file_hang`, `SLog.local_wrong`, `SLog.file_incomplete`, `LSort.sort_total`, `LSort.one_boundary`, `LSort.closed_walk`, `LSort.connected_one`, `LSort.cycle_sorted`, `LSort.localLoop_closed`, `LSort.localLoop_even`, `LSort.reduceLoops_closed`, `LSort.decode_boundary`, `LSort.shared_divergence_free`, `LSort.eight_exception`, `LSort.open_unsorted`, `LSort.facetLoops_correct`, `LSort.facetLoops_no_deadlock`, `LSort.facetLoops_terminates`, `LSort.decoded_divergence_free`, `FAux.maps_definedon`, `FAux.maps_everywhere`, `FAux.maps_facets`, `FAux.facets_agree`, `FAux.isFacetRel_iff_first_partial`, `FAux.isFacetRel_all_partial`, `FAux.isFacetRel_local_partial`, `FLoop.produceLoop_correct`, `FLoop.master_exists`, `FLoop.facet_once`, `FLoop.facet_only`, `FLoop.facet_once_partial`, `FLoop.facet_lost`, `FreeN.freeLoops_iff`, `FreeN.freeLoops_agree`, `FreeN.freeVerts_iff`, `FreeN.freeVerts_agree`, `FreeN.freeVerts_small_partial`, `FreeN.freeEdges_iff`, `SparseMM.matMultAB_correct`, `GSB.loopBlocks_correct`, `GSB.loopBlocks_together`, `GSB.cover_partial`, `GSB.inner_loops_lost`, `GSB.no_blocks_no_smoothing`, `GSB.gsBlocks_partition`, `GSB.edgeBlocks_correct`, `GSB.finestBlocks_correct`, `GSB.finestBlocks_cover`, `BS3.convRow_correct`, `BS3.convert_wf`, `BS3.convert_entries`, `BS3.convert_mult`, `BS3.convert_inverse`, `P2E.algMaps_correct`, `P2E.algParents_correct`, `P2E.p2Maps_partial`, `P2E.buildED_rows`, `P2E.p2Embedding_result`, `P2E.p2Embedding_partial`, `P2E.p2Embedding_refuted`, `LCtr.allGnums_correct`, `LCtr.loopMap_correct`, `LCtr.contract_correct`, `LCtr.contract_once`, `EDofs.sendData_spec`, `EDofs.dofDps_correct`, `EDofs.exchange_matches`, `SparseMM.matMultABUpdate_correct`, `SparseMM.matMultABUpdate_missing`, `SparseMM.restrictMatrix_correct`, `SparseMM.restrictMatrix_bilin`, `SparseMM.restrictMatrix_symm`, `SparseMM.restrictMatrix_psd`, `SparseLA.sparseIdentity_wrong`, `SparseLA.sparseIdentity_not_wf`, `SparseLA.sparseIdentity_action`, `SparseLA.addMerge_same_graph`, `SparseLA.addMerge_wrong`, `SparseLA.addMerge_graph_partial`, `SparseLA.addSPM_correct`, `SparseLA.compress_correct_partial`, `SparseLA.compress_error_partial`, `SparseLA.compress_drops_negative`, `DynBlock.multiply_correct`, `DynBlock.mult_correct`, `DynBlock.multAdd_correct`, `DynBlock.default_correct`, `DynBlock.default_needs_symmetric`, `DynBlock.sortedBy_exists`, `DCC.gather`, `DCC.scatter`, `DCC.gather_scatter`, `DCC.gather_scatter_progress`, `Exch.final_state`, `Exch.no_deadlock`, `Exch.terminates`, `Exch.exists_final`, `Hybrid.decompose_spec`, `Hybrid.decompose_correct`, `Hybrid.decompose_pattern`, `Hybrid.decompose_run_pattern`, `Hybrid.split_exists`, `AMG.mult_correct`, `AMG.mult_history`, `AMG.cinv_correct`, `AMG.emb_mult_correct`, `AMG.mult_one_level_wrong`, `AMG.mult_one_level_W_ub`, `AMG.history_independent`, `AMG.smoothV_correct`, `AMG.smoothVFrom_correct`, `AMG.smoothW_correct`, `AMG.smoothBS_correct`, `AMG.cycles_linear`, `AMG.mult_spd`, `AMG.cycles_symmetric`, `AMG.vcycleFrom_energy`, `AMG.cycles_energy`, `AMG.good_of_exact`, `AMG.good_of_pinv`, `AMG.multAdd_correct`, `AMG.emb_multAdd_correct`, `AMG.multAdd_one_level_wrong`, `DM.makeSingleStep2_behaves`, `DM.makeSingleStep3_behaves`, `DM.grouping_spec`, `DM.mapLevel_spec`, `DM.mapLevel_embDone_spec`, `DM.concStep_spec`, `DM.makeSingleStep2_not_finalized`, `DM.makeSingleStep2_no_vecs`, `DM.transferAtoB_down`, `DM.transferAtoB_up`, `DM.transferAtoB_via`, `DM.assembleMatrices_spec`, `DM.concStep_merged_spec`, `Sm.richardson_contract`, `Sm.proxy_contract`, `GS.smooth_contract`, `AMG.amgSmooth_contract`, `AMG.amgSmooth_single_ub`, `Sm.smoothK_contract`, `Sm.smoothSymm_contract`, `Sm.iterK_adjoint`, `Sm.iterK_symm_selfadjoint`, `Sm.hmSmooth_contract`, `Sm.hmSmoothBack_contract_partial`, `Sm.hmSmoothBack_wrong`, `Sm.hmSmoothBack_not_contract`, `Sm.hm_adjoint`, `GS.smoothRES_eq_smoothRHS`, `GS.smoothRHS_correct`, `GS.smooth_frame`, `GS.smooth_energy`, `GS.smooth_fixed`, `GS.diagOK_inv`, `GS.diagOK_of_pinv`, `GS.smoothBack_adjoint`, `GS.smoothSymm_symmetric`, `GS.gss4_eq_gss3_repl`, `GS.gss4_eq_gss3_own_partial`, `GS.gss4_own_diag_wrong`, `LS.solve_correct_partial`, `LS.solve_total`, `LS.neededSteps_wrong`, `LS.false_convergence`, `LS.solve_ub`, `LS.zero_error_not_converged`, `LS.mult_pure`, `LS.multAdd_correct`, `LS.amgSolver_pure`, `BG.executed_exactly_once`, `BG.executed_prefix`, `BG.no_deadlock`, `BG.runs_terminate`, `BG.destroy_terminates_partial`, `HybSm.smooth_correct`, `HybSm.smooth_progress`, `HybSm.hybridGS_correct`, `HybSm.newX_gs`, `HybSm.gs_kernelsOK`, `AMG.cycles_posdef`, `SparseLA.toSparse_correct_partial`, `SparseLA.toSparse_sum_wrong`, `SparseLA.toSparse_scale`, `SparseLA.toSparse_sum_ident_not_square`, `SparseLA.toSparse_sum_ident_square`, `SparseLA.permutationMatrix_action`, `SparseLA.permutationMatrix_orthogonal`, `SparseLA.zeroBlocks_correct`, `SparseLA.restrictToBlocks_correct_partial`, `DCC.gather_cumulated_wrong`, `DCC.gather_cumulated_partial`, `HybSm.residual_cumulated_wrong`, `HybSm.smooth_cumulated`, `HybMat.multAdd_correct`, `HybMat.multTransAdd_correct`, `HybMat.mult_correct`, `HybMat.constructed_mult`, `HybMat.gZero_agrees`, `HybMat.hybridGS_result_ignores_steps`, `AR.allReduce_correct`, `AR.allReduce_same`, `AR.allReduce_sum`, `AR.allReduce_progress`, `HybSm.hybridGS_adjoint`, `HybSm.hybridGS_symmLoc_selfadjoint`, `HybSm.hybridGS_symmLoc_not_adjoint`, `ModDiag.calcModDiag_correct`, `ModDiag.calcModDiag_progress`, `ModDiag.hybridGS_energy_scalar`, `ModDiag.energy_le`, `ModDiag.hybridGS_energy_blocks_wrong`, `SPW.aggregates_partition`, `SPW.pairing_spec`, `SPW.joining_spec`, `SPW.findNeib_spec`, `SPW.coarse_adjacency`, `SPW.edgeMap_spec`, `SPW.coarseEdges_nodup`, `SPW.coarse_edge_duplicated`, `SPW.aggregates_connected`, `SPW.locked_edges_ignored`, `SPW.aggregates_eqc`, `SPW.orphan_round_breaks_eqc`, `EQC.closedTable_spec`, `EQC.unionLoop_spec`, `EQC.interLoop_spec`, `EQC.exchange_spec`, `EQC.famOK_length`, `EQC.setup_closed`, `EQC.setup_plain`, `EQC.gid_inj`, `EQC.assign_spec`, `EQC.order_agrees`, `EQC.isLEQ_iff`, `EQC.leqOK_of_table`, `EQC.mergedEQC_iff`, `EQC.commonEQC_iff`, `EQC.commonEQC_closed`, `EQC.masters`, `EQC.setup_from_dofs`, `EQC.setup_members`, `EQC.unions_not_closed`, `EQC.plain_common_missing`, `EQC.shared_count`, `EQC.neqcsGlob_wrong`, `Elast.transport_rigid3`, `Elast.transport_rigid2`, `Elast.edge_transport`, `Elast.transport_motion`, `Elast.transport_comp`, `Elast.transports3`, `Elast.transports2`, `Elast.mq_correct`, `Elast.qtm_correct`, `Elast.qtmq_correct`, `Elast.qmqt_correct2`, `Elast.addQtMQ_correct`, `Elast.qtMQ_correct`, `Elast.calcMQ_correct`, `Elast.setQtMQ_partial`, `Elast.calcMPDataWW_partial`, `Elast.setQ_scaled`, `Elast.qmqt_wrong3`, `Elast.qmqt_undefined3`, `Elast.setQ_scaled_wrong`, `Elast.setQtMQ_wrong`, `Elast.products3`, `Elast.products2`, `Elast.rmBlock_symm`, `Elast.rmBlock_energy`, `Elast.rmBlock_spec`, `Elast.rmBlock_rigid3`, `Elast.rmBlock_rigid2`, `Elast.rmBlock_energy3`, `Elast.rmBlock_energy2`, `MapData.h1Map_galerkin`, `MapData.elMap_galerkin_partial`, `MapData.elMap_center_wrong`, `MapData.elMap_ground_wrong`, `MapData.elMap_galerkin3_partial`, `MapData.elMap_galerkin2_partial`, `SProl.edgeCM_spec`, `SProl.sprol_graph`, `SProl.finRow_spec`, `SProl.finRow_threshold`, `SProl.graphRow_spec`, `SProl.collectRow_spec`, `SProl.dgWt_spec`, `SProl.sprol_preserves`, `SProl.sprol_constants`, `SProl.sprol_rigid3`, `SProl.sprol_rigid2`, `RedTab.reduceTable_correct`, `RedTab.reduceTable_no_deadlock`, `RedTab.reduceTable_terminates`, `RedTab.reduceTable_eqc`, `RedTab.rows_agree`, `RedTab.reduceRows_spec`, `RedTab.unpack_flatten`, `RedTab.scatter_correct`, `RedTab.scatter_no_deadlock`, `RedTab.scattered_agree`, `RedTab.rows_of_tables`, `Exch.dfinal_state`, `Exch.dno_deadlock`, `Exch.dterminates`, `Exch.dexists_final`, `BTM.setVs_correct`, `BTM.setVs_numbered`, `BTM.setVs_dummy`, `BTM.copies_agree`, `BTM.class_sizes`, `BTM.global_count`, `BTM.glob_eq_iff`, `BTM.setUp_exists`, `BTM.setEdges_correct`, `BTM.edgesNumbered`, `BTM.edges_agree`, `BTM.global_edges`, `BTM.classify_total`, `BTM.built_mesh`, `BTM.mesh_of_setup`, `BTM.vname_iff`, `BTM.mergeBy_correct`, `BTM.setEdgesDummy_correct`, `Nodal.allreduce_correct`, `Nodal.scatterNodal_correct`, `Nodal.nodes_verts`, `Nodal.nodes_edges`, `Nodal.nodes_edges_run`, `Nodal.attached_history`, `Nodal.attached_status`, `Nodal.attached_total`, `CMap.mapVerts_correct`, `CMap.mapVerts_total`, `CMap.mapVerts_some`, `CMap.mapVerts_same`, `CMap.mapVerts_copies`, `CMap.mapVerts_onto`, `CMap.mapVerts_count`, `CMap.mapVerts_count_global`, `CMap.mapEdges_correct`, `CMap.mapEdges_tent`, `CMap.mapEdges_total`, `CMap.finish_ce`, `CMap.merged_ce`, `CMap.coarse_emesh`, `CMap.vmaps_of`, `CMap.setEdges_emesh`, `CMap.emesh_of_built`, `CMap.coarse_again`, `BlkGS.smoothImpl_correct`, `BlkGS.smoothRES_correct`, `BlkGS.smooth_correct`, `BlkGS.smoothImpl_frame`, `BlkGS.smoothImpl_fixed`, `BlkGS.smoothBack_adjoint`, `BlkGS.smooth_energy`, `BlkGS.smooth_energy_spd`, `BlkGS.smooth_energy_lt`, `BlkGS.mk_blocks`, `BlkGS.mk_seq`, `BlkGS.diagOf_none`, `BlkGS.diagOf_some`, `BlkGS.invOK_inv`, `BlkGS.invOK_pinv`, `BlkGS.mk_par`, `BlkGS.extBlock_spec`, `BlkGS.run_progRHS`, `BlkGS.run_progRES`, `BlkGS.parSmooth_correct`, `BlkGS.parSmoothRES_correct`, `BlkGS.parSmooth_exists`, `BlkGS.parSmoothRES_exists`, `BlkGS.order_perm`, `BlkGS.back_order`, `BlkGS.parBack_adjoint`, `BlkGS.parSmooth_energy`, `Par.interleave_seq`, `Par.seq_perm`, `Par.exists_run`, `BlkGS.parMultAdd_partial`, `BlkGS.multAdd_spec`, `BlkGS.multAdd_race`, `BlkGS.smooth2_correct_partial`, `BlkGS.smoothSimple_correct`, `BlkGS.smoothRESSimple_correct`, `BlkGS.smooth2_adjoint`, `BlkGS.smooth2_energy`, `BlkGS.setFrom_repr`, `BlkGS.mkLSm_grouped`, `BlkGS.pass_forward`, `BlkGS.pass_backward`, `BlkGS.multAddSys_apply`, `BlkGS.anotb_le`, `BlkGS.anotb_eq`, `BlkGS.alloc_enough`, `BlkGS.smooth2_res_wrong`, `BlkGS.smooth2_res_refuted`, `BlkGS.smoothGroups_backward`, `BlkGS.smoothGroups_refuted`, `BlkGS.smoothNO_correct_partial`, `BlkGS.smoothFB_eq`, `BlkGS.smoothSYMM_eq`, `BlkGS.smoothSYMMCR_eq`, `BlkGS.smoothCR_eq`, `BlkGS.mkLSm_no`, `BlkGS.mkLSm_no_md`, `BlkGS.smoothNO_zero_jacobi`, `BlkGS.smoothNO_zero_refuted`, `BlkGS.smoothNO_stale`, `BlkGS.smoothNO_back_refuted`, `BlkGS.smoothNO_trans_refuted`, `HybSm.hybridBS_correct_partial`, `HybSm.filterBlocks_eq`, `HybSm.fblocks_eq`, `HybSm.stageGroup_dofs`, `HybSm.mkHBS_ok`, `HybSm.hybridBS_adjoint`, `HybSm.hybridBS_symmLoc_selfadjoint`, `HybSm.hybridBS_not_adjoint`, `HybSm.hybridBS_refuted`, `DynBlock.dynSmooth_correct_partial`, `DynBlock.dynSmooth_order_irrelevant`, `DynBlock.dynSmooth_adjoint`, `DynBlock.dynSmooth_fixed`, `DynBlock.dynSmooth_frame`, `DynBlock.dynSmooth_energy`, `DynBlock.detOK_of_spd`, `DynBlock.rowClasses_unique`, `DynBlock.finalize_ok`, `DynBlock.mkDSm_ok`, `DynBlock.dynSmooth_empty_undefined`, `HybDyn.hybridDyn_posDef_partial`, `HybDyn.hybridDyn_correct_partial`, `HybDyn.calcScalModDiag_correct`, `HybDyn.hybridDyn_adjoint`, `HybDyn.bsX_fixed`, `HybDyn.hybridDyn_convergence_refuted`, `Ctr.addF2C_correct`, `Ctr.transferF2C_correct`, `Ctr.transferC2F_correct`, `Ctr.addC2F_correct`, `Ctr.transfer_progress`, `Ctr.f2c_spec`, `Ctr.c2f_spec`, `Ctr.assemble_correct`, `Ctr.assembleMat_spec`, `Ctr.asmRow_spec`, `Ctr.swap_correct`, `Ctr.swapped_ok`, `Ctr.mid_WF`, `Ctr.prol_commutes`, `Ctr.restr_commutes`, `Ctr.galerkin_commutes`, `Ctr.swap_stale`, `GCtr.contract_correct`, `GCtr.contracted_of`, `GCtr.classes_eq`, `GCtr.buildCEQCH_spec`, `GCtr.buildVerts_spec`, `GCtr.names_exist`, `GCtr.contract_not_closed`, `GCtr.partition_correct`, `GCtr.procMap_spec`, `GCtr.udofs_correct`, `GCtr.udofs_order`, `GCtr.namesVerts_wf`, `GCtr.ctr_dofs_correct`, `GCtr.mapNodeData_cumulated`, `GCtr.mapNodeData_distributed`, `MIS.form_correct_partial`, `MIS.aggs_ok`, `MIS.dirichlet_taken`, `MIS.fixed_twice`, `MIS.form_not_always`, `PC.pc_spd_partial`, `PC.pc_all_smoothers`, `PC.pc_w_refuted`, `PC.pc_jacobi_refuted`, `CMap.mapVertsSV_correct`, `CMap.mapVertsSV_total`, `CMap.mapVertsSV_some`, `CMap.mapVertsSV_same`, `CMap.mapVertsSV_copies`, `CMap.mapVertsSV_onto`, `CMap.mapVertsSV_count`, `CMap.vmaps_of_sv`, `DofM.numbering_inverse`, `DofM.maps_range_single`, `DofM.maps_select_one`, `DofM.maps_range_multi_partial`, `DofM.maps_select_multi_partial`, `DofM.maps_renumbered`, `DofM.maps_renumbered_arr`, `DofM.free_verts_correct`, `DofM.edges_correct`, `DofM.vert_dps_correct`, `DofM.setUp_of_dofs`, `DofM.edges_total`, `DofM.alg_mesh_correct`, `DofM.eqch_select`, `DofM.eqch_range_partial`, `DofM.edges_none`, `DofM.embedding_scal`, `DofM.embedding_disp`, `DofM.embedding_block`, `DofM.embedding_all`, `DofM.embedding_maps`, `DofM.embedding_galerkin`, `DofM.project_partial`, `DofM.project_subset_wrong`, `DofM.p2_sequential`, `DofM.p2_parallel_wrong`, `DofM.p2_refuted`, `LC.setUp_total`, `LC.setUp_unique`, `LC.levels_ok`, `LC.levels_from`, `LC.level_limit`, `LC.same_levels`, `LC.why_end`, `LC.LevelsOK.length_le`, `LC.fac_values`, `LC.groups_fewer`, `LC.seq_reached`, `LC.slow_gives_up`, `LC.limit_ignored`, `LC.slow_not_redistributed`, `LC.two_stay_two`, `LC.seq_ignored`, `Loop.split_closed`, `Loop.split_total`, `Loop.simpleLoops_ends`, `Loop.simpleLoops_correct`, `Loop.rotate_correct`, `Loop.rotate_unique_partial`, `Loop.coarseLoops_correct_partial`, `Loop.buckets_correct`, `Loop.split_overruns`, `Loop.open_loses`, `LTab.addLoops_correct`, `LTab.gather_correct`, `LTab.coarse_tables_partial`, `LTab.tables_break`, `LTab.tables_hang`

**propext, Quot.sound** (59): `SortedArray.indOfMax_correct`, `Traversal.isIntersectEmpty_correct`, `Traversal.intersectSorted_correct`, `Traversal.partitionAB_needs_subset`, `Traversal.posSorted_needs_subset`, `Permutation.applyBuffered_correct`, `Permutation.invertPermutation_correct`, `Options.getOpt_correct`, `Options.copy_getOpt_wrong`, `NCProl.vol_reset`, `FAux.isFacetRel_irrelevant`, `FAux.isFacetRel_disagree`, `FAux.isFacetRel_refuted`, `FLoop.test_out_of_range`, `FreeN.freeLoops_small_partial`, `FreeN.open_loop_free`, `FreeN.touching_loops_refuted`, `SparseMM.bucket_in_range`, `GSB.cover_refuted`, `GSB.gsBlocks_correct`, `BS3.convFree_correct`, `BS3.convDps_correct`, `P2E.p2Maps_result`, `LCtr.removeDups_correct`, `LCtr.mapEntry_iff`, `LCtr.ghosts_correct`, `SparseLA.addMerge_ub`, `SparseLA.addMerge_disjoint_partial`, `DynBlock.lexiLess_order`, `Hybrid.PatternSpec.symm`, `Hybrid.PatternSpec.diag`, `BG.start_start_drops`, `BG.destroy_deadlock`, `SparseLA.block2Sparse_wrong`, `SparseLA.permutationMatrix_wf`, `SparseLA.permutationMatrix_entry`, `SparseLA.embed_correct`, `SparseLA.embed_ub`, `HybMat.serial_constructor_undefined`, `HybMat.count_allRows`, `HybMat.hybridGS_steps_ignored`, `HybMat.hybridGS_steps_wrong`, `SPW.findNeib_strongest`, `SPW.locked_edges_no_effect`, `EQC.findEQC_iff`, `EQC.classesOfNodes_one`, `EQC.classesOfNodes_missed`, `EQC.neqcsGlob_eq`, `Nodal.combine_spec`, `Nodal.reduceVals_sum`, `Nodal.reduceVals_max`, `Nodal.reduceVals_min`, `HybSm.stageGroup_covers`, `MIS.grow_common`, `DofM.eqch_range_hangs`, `DofM.edges_twice`, `Loop.gathered`, `Loop.convert_correct`, `Loop.open_invents`

**propext** (26): `SortedArray.removeEntry_correct`, `Permutation.applyInPlace_needs_perm`, `Orders.lt2_strictTotal`, `Orders.lt3_strictTotal`, `Orders.lt4_undefined`, `Orders.lt5_partial`, `Options.move_assign_getOpt`, `Options.copy_getOpt_partial`, `Options.copy_not_correct`, `Options.orAssign_getOpt_partial`, `Options.orAssign_not_correct`, `Options.orAssign_getOpt_neg`, `FreeN.two_disagree`, `FreeN.interior_vertex_dropped`, `P2E.p2Maps_refuted`, `LCtr.null_all_ghosts`, `DM.canConc_false`, `DM.finalize_rejects`, `DM.finalize_empty_accepts`, `HybMat.hybridDI_overlap_ignored`, `Par.interleave`, `BlkGS.iterGroups_refuted`, `DofM.range_multi_hangs`, `DofM.select_multi_wrong`, `Loop.rotate_not_unique`, `Loop.duplicate_stays`

**none** (7): `Orders.lt5_not_antisymm`, `Orders.lt5_not_strictTotal`, `Options.setFromFlagsBool_correct`, `DM.wf_finalize`, `HybMat.hybridBS_settings`, `EQC.classesOfNodes_twice`, `EQC.classesOfNodes_out_of_range`
