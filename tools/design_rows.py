def r(i,a,b): rows[i]=(a,b)
r("C01","bisection loop and linear tail of `find_in_sorted_array` with explicit bounds","loop invariant by well-founded induction")
r("C02","`merge_pos_in_sorted_array`, inserts","loop invariant; induction over the history of inserts")
r("C03","two-way merge, k-way merges (counter based, sentinel based)","induction on remaining elements; spec = strictly sorted list with given membership (unique)")
r("C04","two-pointer traversals producing the list of callback invocations","induction; spec = filter of the input")
r("C05","`posSortedInSorted`","induction; witness that the subset condition is needed")
r("C06","in-place cycle following on functions/lists","invariant on visited cycles")
r("C07","`lex_smaller`, `IVec::operator<`","order laws; witness against the 4- and 5-tuple operator")
r("C08","`SpecOpt` lookup, copy, move, flags","case analysis; uninitialised memory quantified; witnesses")
r("C09","`SpecOpt` combining assignment (or)","case analysis; witnesses")
r("C10","CSR matrices as list of rows; transposition","refinement to `Matrix`")
r("C11","sparse product with hash scratch memory and `merge_arrays` graph","refinement to `Matrix`; invariant of the scratch memory; `int` overflow explicit")
r("C12","value update of a product with fixed graph","refinement to `Matrix`; witness")
r("C13","`RestrictMatrix` on top of C10/C11","matrix algebra")
for i in ("C14","C15","C16"): r(i,"CSR routines of `utils_sparseLA`","witnesses for the defects, partial theorems for the rest")
r("C17","dyn-block matrix: Finalize, Mult, MultAdd","refinement to `Matrix.mulVec` for every outcome of the sort")
r("C18","`DCCMap` start/apply/finish of both directions as phases of the transition system","confluence of the transition system (Exchange), finite-sum algebra")
r("C19","`HybridMatrix` splitting, incl. exchange of matrix rows","entrywise refinement: M + G = sum of local matrices")
for i,t in (("C20","cycle of `AMGMatrix` as state machine with work vectors"),("C21","V, W, BS loops"),("C22","same"),("C23","same"),("C24","same"),("C25","`AMGMatrix` as preconditioner (embedding)")): r(i,t,"induction on the number of levels; refinement to the recursive cycle of Spec/Multigrid; adjointness / energy by operator algebra")
for i in ("C26","C27"): r(i,"`DOFMap` steps as linear maps with CanConcatenate flags","induction over the chain")
for i in ("C28","C29","C30"): r(i,"`BaseSmoother` family as state transformers (x,res)","algebra against Spec/SmootherContract, witnesses")
for i in ("C31","C32","C33","C34","C35"): r(i,"`GSS3`, `GSS4` row loops","induction over the row list; refinement to Spec/DenseGS; energy identities of Lib/Sweep")
for i in ("C36","C37"): r(i,"`LinearSolver::Solve` loop","induction on steps; witnesses")
for i in ("C38","C39"): r(i,"mutex/condvar transition system of `BackgroundMPIThread`","inductive invariant over all reachable states; witness trace for the lost wakeup")
r("C40","`HybridBaseSmoother::SmoothImpl` as program of exchange and kernel phases","symbolic state after every phase, arbitrary kernels meeting a stage contract; then the Gauss-Seidel kernels")
r("C41","theory of the cycle: energy contraction","operator algebra on the recursion")
for i in ("C42","C43","C44","C45"): r(i,"sparse matrix conversion and sum/product routines","refinement to `Matrix`, witnesses")
r("C46","status handling of `DCCMap`","witness run; exact condition under which it is right")
r("C47","residual in `SmoothImpl`, copies on other processes","exact error for all runs; witness")
r("C48","`HybridMatrix` Mult / MultAdd as exchange program","C18, C19")
r("C49","constructors of hybrid smoothers (argument order, steps)","evaluation of the model of the constructors; negations")
r("C50","reduction of DOF values over sharing processes (`mpiwrap_extension.hpp`)","induction over ranks")
r("C51","energy and adjointness of the hybrid smoother","blockwise energy identities; witness with symm_loc")
r("C52","`CalcModDiag` (l1 type diagonals)","row-sum dominance; SPD witness for blocks")
r("C53","successive pairwise aggregation: pairing rounds on lists","invariant: partition")
r("C54","coarse graph between rounds","refinement to quotient graph; witness")
r("C55","connectedness, size of aggregates","induction over rounds; witness for locked edges")
r("C56","orphan treatment","case analysis; witness")
for i in ("C57","C58","C59","C60","C61"): r(i,"`EQCHierarchy` constructors and queries as exchange programs","refinement to sets of processes; witnesses")
for i in ("C62","C63","C64"): r(i,"elasticity vertex / edge data, transformation matrices Q","matrix identities entry by entry in 2D/3D against Spec/RigidMotion; witnesses")
r("C65","`AttachedVertexData/EdgeData` map to the coarse mesh, H1 and elasticity","energy of coarse data = energy of prolongated (Spec/AuxEnergy)")
r("C66","edge connectivity matrix of the mesh (`base_mesh.cpp`)","refinement to the adjacency of the mesh")
r("C67","graph of the smoothed prolongation","list invariants of the row construction")
r("C68","piecewise and smoothed prolongation values","row identity: rows applied to rigid motions of the coarse centers")
r("C69","`ReduceTable` as exchange program","confluence of Exchange2 and row-wise refinement")
r("C70","`ScatterEQCData`","same")
r("C71","`BlockTM::SetVs`","refinement: order by class, bijection")
r("C72","`BlockTM::SetNodes<NT_EDGE>`","refinement over C69, C03; long invariant chain (BTM 1-10)")
r("C73","`AllreduceNodalData`, `ScatterNodalData`","C69, C70 on tables of node values")
r("C74","`Cumulate`, `Distribute`","induction over the history of calls")
r("C75","`BaseAgglomerateCoarseMap::MapVerts`","refinement over C69/C70; injectivity of the coarse numbering")
r("C76","`BaseAgglomerateCoarseMap::MapEdges`","refinement over C69/C70, re-established hypotheses of the next level")
r("C77","`BSmoother` sequential loops, construction of blocks","refinement to Spec/BlockGS; Lib/Sweep")
r("C78","`BSmoother` parallel loops over colours","independence of tasks, Lib/Interleave")
r("C79","`BSmoother::MultAdd`","same; witness of a lost update")
r("C80","`BSmoother2` with overlapping blocks: block storage, sweeps, residual","representation invariant of block rows; refinement to Spec/BlockGS; witnesses")
r("C81","`BSmoother2` without overlap (L/U split)","zig-zag invariants; refinement to Spec/BlockGS; witnesses")
r("C82","`HybridBS`: block filter, constructor, kernels in `SmoothImpl`","C40 with kernels of C77/C80; witnesses")
r("C83","`DynBlockSmoother`: diagonal blocks, sweeps with and without residual","refinement to Spec/BlockGS with blocks of Spec/RowClasses; witness")
r("C84","`HybridDynBlockSmoother`: `CalcScalModDiag`, constructor, stages in `SmoothImpl`","C40 with kernels of C83; pattern of the split matrix (C19); C52 for the diagonal; witness")
r("C85","`CtrMap` transfers (`AddF2C`, `TransferF2C`, `TransferC2F`, `AddC2F`), MPI types","Exch phases; sums over members")
r("C86","`CtrMap::DoAssembleMatrix`: reverse map, sorting, merging of rows","row refinement with C03/C04/C02; sums over members")
r("C87","`CtrMap::SwapWithProl`, `SetUpMPIStuff`","rows of the prolongation; commuting diagrams; witness for stale MPI types")
r("C88","`GridContractMap`: `BuildCEQCH`, vertices of `BuildNodeMaps`; C58 for the set-up of the contracted hierarchy","names of classes (identifier, members, size); invariants of the loops; sums over identifiers; witness for the missing closure")
r("C89","`PartitionProcsMETIS`","refinement: lowest ranks, places, rows of the table")
r("C90","`BuildUDofs`, `BuildContractDOFMap`, `MapNodeData`","names of vertices (C88) give the hypotheses of C85-C87; sums over members")
r("C91","`MISAgglomerator::FormAgglomerates_impl`: both loops, `init_agglomerate` with the greedy loop and its undoing, fixed agglomerates; strengths of connection are arbitrary outcomes of tests","invariant of the state (disjointness, marks, walks to the centre with the stored distance); refinement of one agglomerate (`Grown`); witnesses for the two violations; link to C75")
r("C92","`BuildAMGMat`, `BuildSmoother`, `SelectSmoother` for one process: composition of C10-C13 (level matrices), C31-C35 (Gauss-Seidel), C80 (block Gauss-Seidel), Jacobi, C28-C30 (proxy), C20-C25 and C41 (cycles)","all smoothers are sweeps of self-adjoint corrections; induction over levels for the matrices; composition with C22-C25, C41; concrete evaluation for the two violations")
r("C93","`MapVerts_sv`: counts, first `ReduceTable`, prefix sums, loop over the agglomerates, second `ReduceTable`, loop over the shared vertices","C69 for both exchanges; numbers of a class as concatenated blocks of its processes (injective and onto); invariant of the loop over the agglomerates; composition with C71 and C76")
r("C94","`SetUpMaps`: the loops for `RANGE_SUBSET` and `SELECTED_SUBSET` with regular ordering, one or several block sizes; rows of the table are stored one after the other, so that a write behind the end of a row is a write into the next","specification `slot` of the place of a degree of freedom (bijective); invariants of the loops (position = finished blocks); witnesses for the two violations, one of them an infinite loop (for all numbers of rounds)")
r("C95","`BuildEQCH`, `BTM_Alg` (vertices, renumbering of the maps, free vertices, edges from the rows of the matrix); composition with C58 (classes), C71, C72 (vertices and edges of the mesh) and C94 (maps)","refinement of the loops over vertices; names of vertices as first degrees of freedom; composition over all schedules; witnesses for the violations, one of them a deadlock in all schedules")
r("C96","`BuildES`, `BuildED` (scalar, displacements, quadratic elements), `BuildPermutationMatrix`, `BuildEmbedding_impl` with the rows set to zero and the identity for processes without embedding","products of matrices with at most one entry per row (C10); order of the loops is the specification `slot`; entries of the triple product (C13); witnesses for the violations")

r("C97","`InitState`, `RSU`, `DoStep`, `TryCoarseStep`, `TryContractStep`, `FindRDFac`, `ComputeGoal`, `ComputeLocFrac`, the number of groups: one program per process that stops at collective operations; coarsening and contraction are an arbitrary `World`","lock-step relation `Runs` (no rule if processes disagree), determinism; invariant that all states agree; induction over the number of nodes for termination and over the run for the levels; witnesses")

r("C98","`SplitChunk`, `SimpleLoopsFromChunks` (marks in the data included), `rotateVLoop`, phases I to III of the mapping of loops, `convert_loop`, the buckets; vertices are an arbitrary linear order","measure for the nested calls (length, open or closed); permutation of the steps under splitting; maximal trails in balanced sets of edges are closed; sums of oriented edges (`net`) under rotation and reversal; witnesses for the violations")

r("C99","`ShrinkDPTable`, `AddOrientedLoops`, packing and unpacking of the coarse edges (PHASE II), removal of duplicates with their loopers, as phases of message exchange over the loops of C98","a row is identified by a name; reading with counters gives back what was packed (induction over the rows, using that shared rows have the same order); stability of the specification `Shared` under filtering; invariant of a deadlocked execution for the violation")

r("C100","`SetUpDOFedEdges`, `MeshDOFs` (offsets, both directions), `BuildDivMat` and `BuildCurlMat` of both Stokes discretizations, as CSR matrices (a value never written is arbitrary)","rows as tabulated lists, entry formulas; the product of a row with a loop is a sum over the entries of the loop; closed walks are balanced (C98); transposition and product by C10, C11; witnesses for what is not covered")

r("C101","`BuildPrimarySpaceProlongation` of the nonconforming Stokes discretization: allocation, facet rows, local saddle point problems with all index tables, writing of the rows; `map_data` for flows and volumes; energy blocks and norm are arbitrary","the rows of the local system give net flow plus weight times multiplier equals zero; flows over interior edges cancel (involution), so the multiplier is fixed by the sum; frame lemmas for the rows written by different agglomerates; explicit inverses for the concrete meshes")

r("C102","`computePW`, `computePWZF` with both thresholds and the second orthogonalization, special vectors, flows, buffer layout, offsets, reading of blocks and coarse vectors, `MeshDOFs`","the loop keeps `V = P W + rest` for any inner product; exact orthogonality by induction over the columns, so rests are orthogonal to the span before and the retry changes nothing; the change to zero flow is a change of basis; `writeAt` frame lemmas with disjoint ranges for the buffer")

r("C103","`BuildPrimarySpaceProlongation` of the H(div) Stokes discretization: allocation, rows from the packed blocks, coarse flows, local saddle point problems with the index searches, writing of the rows; composed with the model of C102 for the blocks and of C101 for the volumes","frame lemmas for rows written by different agglomerates (an edge is inside at most one); the rows of the local system give flow plus multiplier, and summation over the agglomerate (flows inside cancel) gives the multiplier; first block row tested with divergence-free fields gives orthogonality and by expansion of the square minimality; uniqueness by regularity of the local matrix gives reproduction; example with three vertices by an explicit inverse")

r("C104","`Logger::LogLevel`, `Finalize` with `alam`, `PrintLog`, `PrintToFile`, and the call in `SetUpLevels` as programs of the processes with reductions and blocking messages; levels with their processes are given","operations that are possible at the same time are the same or commute (diamond), so one execution that ends decides for all; induction over the levels with processes that drop out; for the deadlock the final state is one where nothing is possible and process zero is not finished")

r("C105","`SortAndOrientLoop` with both extensions, the orientation marks and `ApplyPermutation` (model of C06); `sortTup4Loop`, the functions `encodeLoop`, `reduceLoops`, `decodeLoop`, `localTransformLoop` of `CalcFacetLoops`","invariant of the search (marks and list agree), induction over the rounds: the new edges are a walk from the end, no unused edge is at its end; chunks as walks `front.reverse ++ start :: back`; parity of degrees shows that the back extension of a closed loop comes back, so the front is empty; degree at most two and connectedness leave no second chunk; boundary of a walk telescopes")

r("C106","`ProduceReducedTable` with its counters, sizes of rows, shift of the sizes of `dps_table`, both decodings and the interleaved last loop; composed with the model of `ReduceTable` (C69) and the sorting of loops (C105)","invariants of the counting loop and of the last loop: the `i`-th row with (without) distant processes is where the counter says, the exchanged rows are recognized because their numbers are increasing; sizes agree with what is written; then `reduceTable_correct` gives the input of the reduction on the master, and it does not depend on the process because keys are injective")

r("C107","`markToSubsetMappings` with its writes, the marking loops (the bits of the facets set in any order), the reductions as logical or over the copies of a node, the update of the bits, the accessors","the number written is `Nat.count` of the marks (invariant of the loop), which is strictly increasing on marked indices; bits are membership in the list of operations, so any permutation gives the same; counting (a surjection of `0..n-1` onto itself leaves no room) shows that the marks are right only if the relevant facets are the first")

r("C108","`masterOfFacet`, `makeFacetLoop2D`, `makeFacetLoop3D`, `isFacetFree` with its access to the bits, `produceLoop`; the sorted insertion is the model of C02, the marks are those of C107","membership in the result of the nested loops by induction with the correctness of the sorted insertion; the master is the least rank with the facet, as the distant processes are sorted and the first is compared; the lost facet is a concrete mesh of two triangles on two processes")

r("C109","`BuildFreeNodes`: bits of the empty loops, of the far ends of Dirichlet facets, of the edges; the reductions for more than two processes; composed with `makeFacetLoop2D` (C108) and `localTransformLoop` (C105) for the counterexample","membership by induction over the loops that set bits; the reduced value is not zero iff some copy is marked; the square of two triangles with Dirichlet conditions all around is computed with the models of C105 and C108")

r("C110","`LoopBlocks` with the sorted insertion (model of C02), the counter, `ce2block` and the list of additions to the table; `GetGSBlocks` of the vertex-based and the HDiv preconditioners; composed with the block smoother (C80) for the empty table","an invariant of the additions (numbers of coarse edges are different, an entry comes from a coarse edge or is alone in its row, rows increase, no row is empty) is kept by each assignment; tables are read off from the additions")

r("C111","the sizes of the new rows, every write of an index and a block into them, the writes of the bits, the additions to the table of distant processes","the writes are consecutive and fill the row (induction over the old entries); entries and products agree row by row, as a sum over six is one over three plus one over three")

r("C112","the maps of both P2 orderings, the parents of the middles, the renumbering (model of C95), the numbers of entries per row and all writes of `BuildED`; entries of the matrix abstract","the loop is one over the proper degrees of freedom, then as in C94; folds of writes at different places give a table that has exactly these values; concrete counterexamples for the two violations")

r("C113","`RemoveDuplicates` with all writes; the sorted insertion of the global numbers and the search for them (models of C01, C02), the map of the entries of loops with signs and flips, both tables, the bits of the ghost vertices","the writing loop keeps a written prefix that ends with the entry compared to (induction over the row); entries of the tables are read off from the additions; sorted insertion and search are correct by C01, C02")

r("C114","the order in which the loops visit pairs of process and edge, the flags that are sent, the counters and additions to the table; e2dof and dof2e from the model of C100","invariant of the visits: the counter of a process is the number of its edges visited so far; the rows are read off; the exchanged edges of both sides are the same filter of the same list of global edges, as sorted lists with the same entries are equal")
