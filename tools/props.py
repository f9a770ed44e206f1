#!/usr/bin/env python3
# Source of /verif/properties.jsonl : run `python3 tools/props.py` in /verif.
import json, os
P = []
def p(id, title, statement, quantifier, why, anchors):
    P.append(dict(id=id, title=title, statement=statement, quantifier=quantifier, why_tests_cant=why, anchors=anchors))
UA = "src/base/utils/utils_arrays_tables.hpp"
p("C01","Searching a sorted array is exact",
  "Searching a strictly increasing array for a value returns a position that holds this value if the value occurs, and the 'not found' sentinel otherwise; no access outside the array is ever made.",
  "every strictly increasing array of any length, every searched value",
  "bisection with a linear tail has boundary cases for every length; tests sample lengths",
  [UA+":find_in_sorted_array"])
p("C02","Insertion into a sorted array keeps it sorted",
  "Inserting a value into a sorted array gives a sorted array with exactly the old elements plus the value; the duplicate-free variants leave an array that already holds the value unchanged, and a sequence of insertions into an empty array yields precisely the sorted set (respectively multiset) of the inserted values.",
  "every sorted array, every value, every history of insertions",
  "correctness is over all insertion histories",
  [UA+":merge_pos_in_sorted_array", UA+":insert_into_sorted_array", UA+":insert_into_sorted_array_nodups", UA+":sorted_insert_unique"])
p("C03","Merging sorted arrays is the sorted union",
  "Merging any number of strictly increasing index arrays (two-way, k-way and table merges) gives a strictly increasing array whose elements are exactly those occurring in some input.",
  "every family of strictly increasing arrays, any number of rows",
  "quantifies over all families of arrays; sentinel- and counter-based k-way merging has input-dependent corner cases",
  [UA+":merge_arrays", UA+":merge_arrays_lh", UA+":MergeArrays", UA+":MergeArrays1"])
p("C04","Sorted-set traversals visit the right elements once",
  "Traversing the intersection, difference or three-way partition of two sorted index arrays calls the callback exactly once for each element of the respective set, in increasing order, together with the positions of the element in the arrays; the intersection-is-empty query agrees with the sets.",
  "every pair of strictly increasing arrays",
  "all relative interleavings of two arrays",
  [UA+":iterate_intersection", UA+":iterate_ABC", UA+":iterate_anotb", UA+":setMinus", UA+":is_intersect_empty", UA+":intersect_sorted_arrays"])
p("C05","Positions of a sorted subset",
  "For sorted arrays a contained in b the computed position array satisfies b[pos[i]] = a[i] for each i.",
  "every pair of strictly increasing arrays a, b with a contained in b",
  "all subset positions",
  [UA+":posSortedInSorted"])
p("C06","Permutations are applied exactly",
  "Applying a permutation in place, in place while keeping the permutation, and through a buffer all give new[k] = old[perm[k]]; the keeping variant leaves the permutation unchanged, and inverting gives inv[perm[k]] = k.",
  "every permutation of every length and every payload",
  "cycle structure of arbitrary permutations; in-place cycle following marks entries destructively",
  [UA+":ApplyPermutation", UA+":ApplyAndKeepPermutation", UA+":InvertPermutation"])
p("C07","Key orderings are strict weak orders",
  "The comparison operators used for sorting keys (short-lex order of index arrays and the lexicographic order of fixed-size integer tuples) are strict weak orders, as std-style sorting requires.",
  "all pairs and triples of keys",
  "transitivity and incomparability range over all triples",
  [UA+":lex_smaller","src/base/utils/utils.hpp:operator<(IVec)"])
p("C08","Per-level options resolve to the specific or default value",
  "Asking for an option at a level returns the value listed for this level if there is one, and the default otherwise, and copying or moving an option object does not change the answer at any level.",
  "every default, every list of per-level values, every level",
  "all levels, all lists; copy semantics depend on uninitialised memory",
  ["src/base/utils/SpecOpt.hpp:SpecOpt"])
p("C09","Combining boolean per-level options is level-wise or",
  "Combining two boolean per-level options with |= gives at each level the disjunction of the two.",
  "every pair of options and every level",
  "lists of different length interact with the defaults",
  ["src/base/utils/SpecOpt.hpp:operator|="])
p("C10","Sparse transposition is exact",
  "Transposing a sparse matrix yields a matrix with strictly increasing column indices per row that represents exactly the transposed (block-transposed) matrix; transposing twice gives the same matrix back, structure included.",
  "every sparse matrix of any size and sparsity, every block entry type",
  "all sparsity patterns",
  ["src/base/linalg/utils_sparseMM.cpp:TransposeSPMImpl"])
p("C11","Sparse matrix products are exact, whatever memory held before",
  "The sparse product A*B represents exactly the matrix product with strictly increasing column indices per row, for every initial content of the internal scratch (hash) memory.",
  "all conforming sparse matrices, all contents of uninitialised scratch memory",
  "result must not depend on uninitialised memory",
  ["src/base/linalg/utils_sparseMM.cpp:MatMultABImpl"])
p("C12","Updating product values in place",
  "Re-computing the values of a product whose sparsity graph contains the graph of A*B gives the matrix product again, whatever values were stored before.",
  "all conforming matrices, all previous values, all product graphs that contain the needed entries",
  "history independence",
  ["src/base/linalg/utils_sparseMM.cpp:MatMultABUpdateValsImpl"])
p("C13","Coarse matrices are Galerkin projections",
  "The restriction of a matrix with a prolongation P is P^T A P; it is symmetric if A is, and positive semi-definite if A is.",
  "every A, P",
  "algebraic identity for all matrices",
  ["src/base/linalg/utils_sparseMM.hpp:RestrictMatrix","src/base/coarsening/dof_map.cpp:ProlMap::AssembleMatrix"])
p("C14","Sparse identity is the identity",
  "The sparse identity matrix that is created for a given size acts as identity on every vector.",
  "every size and vector",
  "all sizes",
  ["src/base/linalg/utils_sparseLA.cpp:createSparseIdentityImpl"])
p("C15","Adding sparse matrices is exact",
  "Adding sparse matrices with scaling factors yields exactly alpha A + beta B.",
  "all pairs of sparse matrices of equal dimensions and all factors",
  "all patterns and coefficients",
  ["src/base/linalg/utils_sparseLA.cpp:AddMergeSPM"])
p("C16","Dropping small entries keeps the large ones",
  "Compressing a sparse matrix with threshold t keeps exactly the entries whose magnitude exceeds the threshold; kept entries keep their values.",
  "every matrix and threshold",
  "all patterns, all values including negative ones",
  ["src/base/linalg/utils_sparseLA.cpp:CompressA_impl","src/base/linalg/utils_sparseLA.hpp:abssum_tm"])
p("C17","The dynamic block format represents the same matrix",
  "Converting a sparse matrix to the dynamic-block format and multiplying a vector gives the same result as multiplying with the original matrix.",
  "every sparse matrix whose pattern is structurally symmetric, every vector",
  "all patterns; block detection and sorting depend on all rows",
  ["src/base/linalg/dyn_block.cpp:DynBlockSparseMatrix"])
p("C18","Vector status conversion preserves the represented global vector",
  "Gathering a distributed vector on the masters preserves the global sum of every degree of freedom and zeroes all non-master copies; scattering from the masters makes all copies equal to the master's value.",
  "every number of processes, every sharing pattern, every vector",
  "all decompositions over processes",
  ["src/base/linalg/dcc_map.cpp:DCCMap","src/base/linalg/dcc_map.cpp:BasicDCCMap::CalcDOFMasters"])
p("C19","The hybrid splitting represents the same operator",
  "Splitting the per-process matrices into a master-master part and a remainder leaves the global operator (the sum of all local contributions) unchanged, and the master-master parts couple only masters of the same process.",
  "every number of processes, sharing pattern, and matrices",
  "all decompositions over processes",
  ["src/base/linalg/hybrid_matrix.cpp:DecomposeSparseMatrixHybrid"])
p("C20","Applying the preconditioner is a pure function of the right hand side",
  "The result of applying the multigrid operator depends only on the right hand side: not on the previous content of the output vector, and not on earlier applications (stale work vectors).",
  "every hierarchy (any number of levels >= 2), cycle type, right hand side, and every history of earlier applications",
  "history independence over all call sequences",
  ["src/base/solve/amg_matrix.cpp:AMGMatrix::SmoothV","src/base/solve/amg_matrix.cpp:AMGMatrix::Mult","src/base/solve/amg_matrix.cpp:AMGMatrix::SmoothBS","src/base/solve/amg_matrix.cpp:AMGMatrix::SmoothW"])
p("C21","The V-cycle is the recursive multigrid algorithm",
  "The iterative level loops compute on each level: forward smoothing from zero, restriction of the residual, recursion, prolongation of the correction, backward smoothing.",
  "any number of levels, all smoothers and transfer operators",
  "all depths",
  ["src/base/solve/amg_matrix.cpp:AMGMatrix::SmoothV"])
p("C22","The multigrid operator is linear",
  "With linear smoothers and transfers the multigrid operator is a linear map of the right hand side.",
  "all right hand sides and scalars, any depth",
  "algebraic law",
  ["src/base/solve/amg_matrix.cpp:AMGMatrix::Mult"])
p("C23","The V-cycle preconditioner is symmetric",
  "If on each level the backward smoother is the adjoint of the forward one, the prolongation is the adjoint of the restriction, and the coarse solver is symmetric, then the V-cycle operator is symmetric, as needed by conjugate gradients.",
  "all pairs of vectors, any depth",
  "algebraic law over all vectors",
  ["src/base/solve/amg_matrix.cpp:AMGMatrix::SmoothV"])
p("C24","A V-cycle never increases the energy error",
  "For symmetric positive (semi-)definite level matrices that are Galerkin projections of each other, with smoothers that do not increase the energy of the error, and an exact coarse solve, one V-cycle does not increase the energy norm of the error.",
  "any depth, all matrices and right hand sides",
  "analytic estimate for all vectors",
  ["src/base/solve/amg_matrix.cpp:AMGMatrix::SmoothV"])
p("C25","Operator-style application agrees with the cycle",
  "MultAdd adds s times the cycle result, MultTrans is the same as Mult (symmetric preconditioner), Mult overwrites the output.",
  "all scalars, vectors and histories",
  "history independence",
  ["src/base/solve/amg_matrix.cpp:AMGMatrix::MultAdd","src/base/solve/amg_matrix.cpp:EmbeddedAMGMatrix::Mult"])
p("C26","Concatenated level steps act like the original chain",
  "Merging consecutive grid-transfer steps into a single step, or into groups, does not change the overall restriction, prolongation, or the assembled coarse matrix.",
  "every chain of steps of any length and mixture of types",
  "all chains",
  ["src/base/coarsening/dof_map.cpp:MakeSingleStep2","src/base/coarsening/dof_map.cpp:ProlMap::Concatenate","src/base/coarsening/dof_map.cpp:DOFMap::ConcStep"])
p("C27","Transferring across several levels composes the steps",
  "Transferring a vector from level a to level b equals applying the single-level transfers one after the other, downwards or upwards, and a finalized map rejects further steps.",
  "all levels a, b, all chains",
  "all level pairs",
  ["src/base/coarsening/dof_map.cpp:DOFMap::TransferAtoB","src/base/coarsening/dof_map.cpp:DOFMap::AddStep"])
p("C28","The smoother contract holds: flags are only hints",
  "When the flags handed to a smoother are truthful (residual up to date, start vector zero), all flag combinations compute the same new iterate, and if the caller asks for an updated residual, it equals b - A x afterwards.",
  "every matrix, iterate, right hand side and every truthful flag combination",
  "all vectors and combinations",
  ["src/base/smoothers/base_smoother.cpp:BaseSmoother","src/base/smoothers/base_smoother.cpp:RichardsonSmoother","src/base/smoothers/gssmoother.cpp:GSS3::Smooth"])
p("C29","Multi-step smoothing keeps the contract",
  "k-fold and symmetrized smoothing perform exactly the announced sequence of forward and backward sweeps, and preserve the residual contract.",
  "every step count k, all smoothers satisfying the contract",
  "all k",
  ["src/base/smoothers/base_smoother.cpp:BaseSmoother::SmoothK","src/base/smoothers/base_smoother.hpp:ProxySmoother"])
p("C30","The auxiliary-space (Hiptmair) smoother keeps the contract in both directions",
  "The combined range/potential space smoother meets the smoother contract forwards and backwards, and the backward sweep is the reverse order of the forward sweep.",
  "all matrices, both orders, all truthful flags",
  "all vectors and flag combinations",
  ["src/base/smoothers/base_smoother.cpp:HiptMairSmoother"])
p("C31","Residual-based and right-hand-side-based Gauss-Seidel agree",
  "For symmetric matrices, a Gauss-Seidel sweep that updates the residual on the fly gives the same iterate as the sweep that recomputes row residuals from the right hand side, and it keeps the residual equal to b - A x.",
  "every symmetric (block) matrix, free-dof set, row range, direction, iterate",
  "all matrices",
  ["src/base/smoothers/gssmoother.cpp:GSS3::SmoothRESInternal","src/base/smoothers/gssmoother.cpp:GSS3::SmoothRHSInternal"])
p("C32","Gauss-Seidel only changes free degrees of freedom",
  "A sweep never changes entries outside of the free set or outside of the requested range, visits each free row in the range exactly once, in increasing order forwards and in decreasing order backwards.",
  "every matrix, free set, and range (including empty and out-of-range splits)",
  "all subsets and ranges",
  ["src/base/smoothers/gssmoother.cpp:GSS3::SetUp","src/base/smoothers/gssmoother.cpp:GSS3::SmoothRHSInternal"])
p("C33","Gauss-Seidel does not increase the energy error",
  "For a symmetric matrix with positive diagonal a Gauss-Seidel sweep with exact inverse diagonal never increases the energy of the error; a solution of the system is a fixed point.",
  "every symmetric matrix with positive diagonal on the free set, every iterate",
  "estimate for all vectors",
  ["src/base/smoothers/gssmoother.cpp:GSS3"])
p("C34","Backward Gauss-Seidel is the adjoint of forward Gauss-Seidel",
  "As maps from right hand side to update starting from zero, the backward sweep is the transpose of the forward sweep for symmetric matrices, so forward-then-backward smoothing is symmetric.",
  "all symmetric matrices, all vectors",
  "algebraic law",
  ["src/base/smoothers/gssmoother.cpp:GSS3"])
p("C35","The compressed Gauss-Seidel smoother agrees with the full one",
  "The Gauss-Seidel variant that stores only rows of a subset of the dofs performs the same update as the full variant restricted to the subset, including when it computes the diagonals itself.",
  "every matrix and subset",
  "all subsets",
  ["src/base/smoothers/gssmoother.cpp:GSS4"])
p("C36","Iterative solver bookkeeping",
  "The stand-alone solver stops as soon as the error criterion is met or the maximal number of steps is reached, reports convergence only if the last error is below rtol times the initial one, and reports the number of steps performed.",
  "every iteration, tolerance, and step limit",
  "all error sequences",
  ["src/base/solve/LinearSolver.cpp:LinearSolver::Solve"])
p("C37","Solving is independent of the initial output vector",
  "Applying the stand-alone solver as an operator starts from zero and so depends only on the right hand side.",
  "all right hand sides, all previous output contents",
  "history independence",
  ["src/base/solve/LinearSolver.cpp:LinearSolver::Mult"])
p("C38","Background communication is executed exactly once before it is awaited",
  "For each start/wait pair of the background communication thread the submitted work has been executed exactly once when the wait returns, under every interleaving of the threads and spurious wakeups, and start/wait never deadlock.",
  "all interleavings, any number of start/wait rounds",
  "all schedules",
  ["src/base/smoothers/hybrid_base_smoother.cpp:BackgroundMPIThread"])
p("C39","The background thread can be shut down",
  "Destroying the background thread object always terminates (the worker is woken up and joined).",
  "all interleavings",
  "a lost wakeup needs a specific interleaving",
  ["src/base/smoothers/hybrid_base_smoother.cpp:BackgroundMPIThread::~BackgroundMPIThread"])
p("C40","The parallel hybrid smoother keeps the residual contract",
  "After a hybrid smoothing step on a distributed system the iterate is consistent on all processes, it does not depend on the flags, and the updated residual is globally b - A x, with and without truthful zero-start and residual flags, for any number of local steps, when the vector in which the residual is computed is a distributed one; no process hangs.",
  "every number of processes, sharing pattern, matrix, and local smoother kernels",
  "all decompositions",
  ["src/base/smoothers/hybrid_base_smoother.cpp:HybridBaseSmoother::SmoothImplRES","src/base/smoothers/hybrid_base_smoother.cpp:HybridBaseSmoother::SmoothImplRHS"])
exec(open(os.path.join(os.path.dirname(__file__),"props_more.py")).read()) if os.path.exists(os.path.join(os.path.dirname(__file__),"props_more.py")) else None
ids=[q["id"] for q in P]; assert len(set(ids))==len(ids)
with open(os.path.join(os.path.dirname(__file__),"..","properties.jsonl"),"w") as f:
    for q in P: f.write(json.dumps(q)+"\n")
print(len(P))
