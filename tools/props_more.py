p("C41","The preconditioner is positive definite","If additionally the pre-smoother on the finest level strictly decreases the energy for every non-zero right hand side, the multigrid operator (any cycle) is positive definite, so it is a legal preconditioner for conjugate gradients.","all hierarchies with Galerkin level matrices, any number of levels, any non-zero right hand side","universal over all hierarchies and vectors",["src/base/solve/amg_matrix.cpp: AMGMatrix::SmoothV, SmoothW, SmoothBS"])

p("C42","Converting a symbolic matrix expression keeps the operator",
  "Turning a symbolic expression (products, sums, transposes, scaled, block and embedded matrices, identities) into one sparse matrix gives a matrix that represents the same operator.",
  "every expression of any depth over all sparse matrices",
  "structural induction over unbounded expressions",
  ["src/base/linalg/utils_sparseLA.cpp:BaseMatrixToSparse","src/base/linalg/utils_sparseLA.cpp:Block2SparseMatrix_impl"])
p("C43","Permutation matrices",
  "The matrix built from an index array maps x to y with y_k = x_sort[k]; for a permutation it is orthogonal.",
  "every index array and vector",
  "all permutations",
  ["src/base/linalg/utils_sparseLA.hpp:BuildPermutationMatrix"])
p("C44","Embedding rows",
  "Embedding a sparse matrix into a row range of a taller matrix shifts its entries and leaves all other rows zero.",
  "every matrix and admissible range",
  "all patterns",
  ["src/base/linalg/utils_sparseLA.cpp:EmbedSparseMatrix_impl"])
p("C45","Restricting a matrix to blocks",
  "Restricting a matrix to blocks keeps exactly the entries whose column belongs to every block that contains their row (and that exceed the tolerance), with unchanged values.",
  "every matrix, every (overlapping) family of blocks",
  "all patterns and families",
  ["src/base/linalg/utils_sparseLA.cpp:restrictMatrixToBlocksImpl"])

p("C46","Gathering a cumulated vector keeps its values","Gathering a vector whose copies all agree (status cumulated) leaves the master copies as they are and zeroes the other copies, independent of what was communicated before.","every number of processes, every sharing pattern, every vector, every earlier communication","all decompositions and histories",["src/base/linalg/dcc_map.cpp:DCCMap::StartDIS2CO","src/base/linalg/dcc_map.cpp:DCCMap::ApplyDIS2CO"])

p("C47","The residual contract of the hybrid smoother does not depend on the status of the right hand side",
  "Also when the right hand side is a cumulated vector (all processes have the full values), a hybrid smoothing step from zero leaves a residual that is globally b - A x.",
  "every number of processes, sharing pattern, matrix and right hand side","the status of a vector is a property of the caller",
  ["src/base/smoothers/hybrid_base_smoother.cpp:HybridBaseSmoother::SmoothImplRES"])

p("C48","Applying the parallel hybrid matrix is applying the global operator",
  "Mult, MultAdd, MultTransAdd of the hybrid matrix (built from process-local matrices) give, for distributed and cumulated vectors, the global operator (or its transpose) applied to the global vector.",
  "every number of processes, sharing pattern, matrix, vector, scaling and schedule","unbounded families of decompositions and interleavings",
  ["src/base/linalg/hybrid_matrix.cpp:HybridMatrix::MultAdd","src/base/linalg/hybrid_matrix.cpp:HybridMatrix::MultTransAdd"])
p("C49","Settings reach the hybrid smoothers",
  "The settings given to the constructors of the hybrid smoothers (overlap communication, use a thread, number of local steps) are the settings the smoother runs with.",
  "every combination of settings, process counts and matrices","holds or fails for all values of integer settings",
  ["src/base/smoothers/hybrid_smoother.cpp:HybridSmoother","src/base/smoothers/gssmoother.cpp:HybridGSSmoother","src/base/smoothers/block_gssmoother.cpp:HybridBS"])
p("C50","Reducing DOF values gives the same result everywhere",
  "Reducing a value per DOF over all processes sharing it gives every process the values of all copies combined in order of the ranks, hence bit-identical results on all processes also for non-associative operations; no access leaves a buffer and no process hangs.",
  "every number of processes, sharing pattern, reduction function, values and schedule","all decompositions and schedules",
  ["src/base/distributed/mpiwrap_extension.hpp:MyAllReduceDofData"])
p("C51","Backward hybrid smoothing is the adjoint of forward smoothing",
  "For a symmetric global matrix SmoothBack of the hybrid Gauss-Seidel smoother is the adjoint of Smooth, as needed for a symmetric multigrid cycle, for all settings.",
  "every number of processes, sharing pattern, symmetric matrix, subset, settings, right hand sides","quantifies over all vectors and decompositions",
  ["src/base/smoothers/gssmoother.cpp:HybridGSSmoother::SmoothStageRHS","src/base/smoothers/hybrid_base_smoother.cpp:CallStageKernelsImpl"])
p("C52","Hybrid Gauss-Seidel does not increase the energy of the error",
  "With the modified diagonal that the processes compute together, one call of the hybrid Gauss-Seidel smoother does not increase the energy norm of the error for a symmetric positive definite matrix, and decreases it strictly if the error is not zero.",
  "every number of processes, sharing pattern, SPD matrix (scalar or block), start, right hand side, direction, schedule of the set-up","all matrices and decompositions",
  ["src/base/smoothers/hybrid_smoother_utils.hpp:CalcHybridSmootherRDGItGeneric","src/base/smoothers/hybrid_smoother.cpp:HybridSmoother::CalcModDiag","src/base/smoothers/gssmoother.cpp:HybridGSSmoother::Finalize"])
p("C53","Aggregates are a partition",
  "The default (pairwise) coarsening algorithm always returns aggregates; every vertex the process has to coarsen (free, owned, not fixed, not isolated) is in exactly one of them, Dirichlet vertices and vertices of other processes are in none, the given fixed aggregates are kept, aggregates are not empty, contain their center, and the vertex-to-aggregate table is the inverse of the list.",
  "every mesh graph, set of free vertices, fixed aggregates, strength computation, options, number of rounds","all graphs and weights",
  ["src/base/coarsening/spw_agg_impl.hpp:FormAgglomerates_impl","src/base/coarsening/spw_agg_impl.hpp:PairingIteration","src/base/coarsening/spw_agg_impl.hpp:JoiningIteration"])
p("C54","The intermediate coarse graphs of the pairwise algorithm are quotient graphs",
  "Two coarse vertices are connected iff a fine edge connects their aggregates; fine edges are mapped to the coarse edge between the aggregates of their ends, exactly those inside aggregates or at dropped vertices to none; every coarse edge exists once.",
  "every graph and every vertex map","all graphs",
  ["src/base/coarsening/spw_agg_impl.hpp:LocCoarseMap::FinishUp"])
p("C55","Aggregates are connected and of bounded size",
  "Every aggregate found by the pairwise algorithm is connected in the mesh, lists its members in ascending order and has at most 2^r members after r rounds without orphan round; edges that were locked by the caller are not used.",
  "every mesh graph, options and strength computation","all graphs and weights",
  ["src/base/coarsening/spw_agg_impl.hpp:FormAgglomerates_impl","src/base/coarsening/agglomerator.hpp:SetAllowedEdges"])
p("C56","Every process that shares a member of an aggregate shares its center",
  "In a parallel run the set of processes sharing the center of an aggregate contains the set of processes sharing any member (so the coarse vertex can be represented on all of them).",
  "every mesh, sharing pattern, options","all graphs and decompositions",
  ["src/base/coarsening/spw_agg_impl.hpp:FormAgglomerates_impl","src/base/distributed/eqchierarchy.hpp:IsLEQ"])
p("C57","The hierarchy of sharing classes is closed and consistent",
  "Setting up the hierarchy of classes (sets of processes that share DOFs) with cuts and unions never fails and never leaves an array; the result on every process contains its given classes, no class twice, with any two classes their intersection, with two given classes their union if it is below a given one, nothing that is not below a given class, and a class known to one process is known to all its members.",
  "every number of processes, every consistent choice of given classes (at most 2^np per process)","all families of process sets and their exchange",
  ["src/base/distributed/eqchierarchy.cpp:SetupFromInitialDPs"])
p("C58","Class identifiers are globally unique and agreed",
  "After the set-up, in every schedule, without deadlock: two classes, on the same or on different processes, have the same identifier exactly if they consist of the same processes; looking up an identifier received from another process finds the own class with the same members, or reports that there is none; the look-up table is written in range.",
  "every number of processes, consistent families, schedules","all families and interleavings",
  ["src/base/distributed/eqchierarchy.cpp:SetupFromDPs","src/base/distributed/eqchierarchy.hpp:GetEQCID","src/base/distributed/eqchierarchy.hpp:GetEQCOfID"])
p("C59","Queries of the class hierarchy are set operations",
  "IsLEQ is inclusion of the sets of processes and an order with the local class at the bottom; GetMergedEQC/GetCommonEQC return the class of the union/intersection and NO_EQC exactly if there is none, GetCommonEQC never fails in a closed hierarchy; FindEQCWithDPs finds a class iff it exists; all members agree on the master of a class.",
  "every table of classes, every pair of classes","all families",
  ["src/base/distributed/eqchierarchy.hpp:IsLEQ","src/base/distributed/eqchierarchy.hpp:GetMergedEQC","src/base/distributed/eqchierarchy.hpp:GetCommonEQC","src/base/distributed/eqchierarchy.hpp:FindEQCWithDPs","src/base/distributed/eqchierarchy.hpp:IsMasterOfEQC"])
p("C60","Every constructor finds the classes of the shared objects",
  "The hierarchy built from parallel DOFs, from lists of members or from the nodes of a mesh has, on every process, a class for every (selected) object, the same identifier for all copies of an object, different identifiers for objects with different sets of processes; and it knows whether rank 0 is idle.",
  "every decomposition, selection, schedule","all decompositions",
  ["src/base/distributed/eqchierarchy.cpp:EQCHierarchy"])
p("C61","All cuts and unions, and the global number of classes",
  "With do_cutunion all possible cuts and unions (below an existing class) of classes are classes; GetCommonEQC can be used as an index; neqcs_glob is the number of classes of all processes, the same on all of them.",
  "every consistent family","all families",
  ["src/base/distributed/eqchierarchy.hpp:EQCHierarchy","src/base/distributed/eqchierarchy.cpp:SetupFromDPs","src/base/coarsening/grid_contract.cpp"])
p("C62","Vertex transports are rigid body motions",
  "In 2D and 3D elasticity the matrix that transports degrees of freedom (displacement, scaled rotation) from one vertex position to another represents the same rigid body motion at both positions; going to the middle of an edge and back is the identity, both halves of an edge meet at the same point, and transports compose.",
  "all positions, all positive rotation scalings, all motions, 2D and 3D","all real inputs",
  ["src/elasticity/elasticity_energy.hpp:TQ","src/elasticity/elasticity_energy_impl.hpp:CalcQHh","src/elasticity/elasticity_energy_impl.hpp:CalcQs"])
p("C63","Optimised products with transports equal the matrix products",
  "The specialised routines for M*Q, Q^T*M, Q^T*M*Q, Q*M*Q^T, and their scaled / adding versions compute these products (for symmetric M where they use symmetry), in 2D and 3D.",
  "all matrices, tangents, scalings","all real inputs",
  ["src/elasticity/elasticity_energy.hpp:TQ","src/elasticity/elasticity_energy.hpp:EpsEpsEnergy"])
p("C64","The edge matrix of the auxiliary problem has exactly the rigid body motions as kernel",
  "The block matrix an edge contributes to the replacement matrix is symmetric, its energy is the edge weight of the jump at the middle of the edge, it is non-negative for a positive semi-definite edge weight, zero for rigid body motions, and zero only for rigid body motions if the edge weight is positive definite.",
  "all positions, scalings, symmetric weights, 2D and 3D","all real inputs",
  ["src/elasticity/elasticity_energy.hpp:CalcRMBlockImpl"])
p("C65","Coarse mesh data represents the fine energy",
  "The weights attached to the coarse mesh define, for every coarse vector, exactly the energy that the fine mesh data assign to its piecewise prolongation (H1 and elasticity), including Dirichlet vertices.",
  "every mesh, coarse map, weights, coarse vector","all meshes and vectors",
  ["src/h1/h1_impl.hpp:H1VData::map_data_impl","src/h1/h1_impl.hpp:H1EData::map_data_impl","src/elasticity/elasticity_impl.hpp:AttachedEVD::map_data","src/elasticity/elasticity_impl.hpp:AttachedEED::map_data","src/base/factory/vertex_factory_impl.hpp:PWProlMap"])
p("C66","The edge connectivity matrix is the adjacency of the mesh",
  "For every mesh whose edges join distinct existing vertices and are listed once, the connectivity matrix is built without out-of-range access, row v holds exactly the neighbours of v in ascending order, each with the number of the joining edge.",
  "every simple mesh","all meshes",
  ["src/base/mesh/base_mesh.cpp:BlockTM::GetEdgeCM"])
p("C67","Rows of the smoothed prolongation are bounded and strong",
  "Smoothing the piecewise prolongation succeeds for every mesh and coarse map if sp_max_per_row >= 1; rows of Dirichlet vertices are empty; every other row has at most sp_max_per_row entries, always includes its own aggregate, and refers otherwise only to aggregates of allowed neighbours whose strength passes the sp_min_frac threshold.",
  "every mesh, coarse map, weights and options","all meshes, weights",
  ["src/base/factory/vertex_factory_impl.hpp:SmoothedProlMap"])
p("C68","The smoothed prolongation keeps constants and rigid body motions",
  "For H1 the smoothed prolongation maps constants to constants, for 2D/3D elasticity the coarse representation of a rigid body motion to the fine representation, on every vertex that is not Dirichlet - for every relaxation factor, edge weights, regularisation and (pseudo-)inverse.",
  "every mesh, coarse map, options, weights, motion","all meshes, weights, motions",
  ["src/base/factory/vertex_factory_impl.hpp:SmoothedProlMap","src/elasticity/elasticity_energy_impl.hpp:CalcQs"])
p("C69","Parallel table reduction",
  "ReduceTable calls the reduction once for every row, on the smallest process that has the row, with the rows of all processes of the row ordered by rank (empty rows included), and every process of the row gets the result - for every schedule, without deadlock, left-over message or access outside of a buffer; the reduction may return rows of any length and need not be deterministic.",
  "every number of processes, all consistent tables (rows shared by two processes in the same order), all contents, reductions and schedules","all schedules and tables",
  ["src/base/distributed/reducetable.hpp:ReduceTable"])
p("C70","Scatter of class-wise data",
  "After ScatterEQCData / ScatterEQCArray every process has, for each of its equivalence classes, the data of the smallest process of the class; two processes of a class have the same data; no deadlock and no left-over message, for every schedule.",
  "every number of processes, all hierarchies, all data with rows of matching size, all schedules","all schedules",
  ["src/base/distributed/eqchierarchy.hpp:ScatterEQCData","src/base/distributed/eqchierarchy.hpp:ScatterEQCArray"])
p("C71","Vertices of a distributed mesh are numbered by class, consistently",
  "SetVs numbers the vertices of a process without gaps and repetitions, ordered by equivalence class and within a class as before; for every vertex GetEQCOfNode / MapNodeToEQC return the class with exactly its distant processes and its number within the class, MapENodeFromEQC is the inverse; two vertices of two processes have the same class and the same number within the class exactly if they are copies of one vertex; a class has the same number of vertices on all its processes; the global number of vertices counts every vertex once.",
  "every number of processes, every distribution of vertices whose copies are ordered alike on all processes","all distributions",
  ["src/base/mesh/base_mesh_impl.hpp:BlockTM::SetVs","src/base/mesh/base_mesh.hpp:GetEQCOfNode","src/base/mesh/base_mesh.hpp:MapNodeToEQC"])
p("C72","Edges of a distributed mesh are numbered consistently",
  "SetNodes<NT_EDGE> ends on every process for every schedule, without deadlock, left-over message or access out of range. Afterwards each process has exactly the edges between its own vertices that any process was given, each once; the new number of a given edge is the position of that edge; GetEQCOfNode returns the class of the processes that have both end points, MapNodeToEQC the number within the class, with edges inside a class separated from those between classes; two edges of two processes have the same class and number exactly if they are copies; the global number of edges counts every edge once.",
  "every number of processes, every distribution of vertices, every list of edges per process without repetition, all schedules","all schedules and meshes",
  ["src/base/mesh/base_mesh_impl.hpp:BlockTM::SetNodes","src/base/utils/utils_arrays_tables.hpp:merge_arrays","src/base/distributed/reducetable.hpp:ReduceTable"])
p("C73","Nodal data of a distributed mesh is reduced and scattered to all copies",
  "AllreduceNodalData ends on every process for every schedule, without deadlock, left-over message or access out of range; afterwards every copy of a vertex or edge holds the sum / minimum / maximum of the values that all copies had, also for nodes of one process only. After ScatterNodalData every copy holds the value that the copy of the smallest process had.",
  "every number of processes, mesh, data and schedule; vertices and edges","all schedules and meshes",
  ["src/base/mesh/base_mesh.hpp:AllreduceNodalData","src/base/mesh/base_mesh.hpp:ScatterNodalData","src/base/utils/utils_arrays_tables.hpp:sum_table"])
p("C74","Cumulate and Distribute keep the meaning of attached data",
  "The value of a node that attached data stands for - the sum over all copies if distributed, the value of each copy if cumulated - is the same after any history of Cumulate and Distribute calls, under any schedule; after Cumulate the data is cumulated, after Distribute distributed.",
  "every mesh, data and finite history of calls, all schedules","unbounded histories and schedules",
  ["src/base/mesh/alg_mesh.hpp:AttachedNodeData"])
p("C75","The coarse vertices of a distributed mesh are its agglomerates",
  "If on every process the agglomerates, the center and the members fit together, the processes that have a member also have the center, and an agglomerate is kept by the smallest process of its center, then the coarse map ends on every process for every schedule, without deadlock, left-over message or access out of range. The coarse vertices then form a distributed mesh with one vertex per agglomerate, in the class of its center; a vertex has an image exactly if it is in an agglomerate (of its master), images are copies of one coarse vertex exactly if the vertices are in the same agglomerate, copies of a vertex have images that are copies, every coarse vertex is an image, and the global number of coarse vertices is the number of agglomerates.",
  "every number of processes, mesh, family of agglomerates meeting the stated conditions, all schedules","all schedules and meshes",
  ["src/base/coarsening/agglomerate_map.cpp:BaseAgglomerateCoarseMap::MapVerts"])
p("C76","The coarse edges of a distributed mesh are the pairs of coarse vertices that a fine edge joins",
  "With the map of the vertices of C75 and the edges of a distributed mesh, the map of the edges ends on every process for every schedule, without deadlock, left-over message or access out of range. A fine edge whose ends are mapped to two different coarse vertices is mapped to the coarse edge between these two, every other fine edge to none. The coarse edges of all processes form a distributed set of edges again: every pair of coarse vertices that a fine edge of some process joins is a coarse edge exactly once on all processes that have both coarse vertices, at the same place in its class, also on a process which has no fine edge between them, and there is no other coarse edge.",
  "every number of processes, mesh, set of edges, vertex map and all schedules","all schedules, meshes and coarsenings",
  ["src/base/coarsening/agglomerate_map.cpp:BaseAgglomerateCoarseMap::MapEdges"])
p("C77","Block Gauss-Seidel is multiplicative Schwarz",
  "BSmoother::Smooth / SmoothBack correct block after block, x_I += D_I (b - A x)_I, forwards in the order of the blocks and backwards in reversed order, also for overlapping blocks; the version that is given and updates a residual computes the same x and leaves res = b - A x; unknowns in no block are not touched and the exact solution is a fixed point; the backward sweep is the adjoint of the forward sweep; for a symmetric positive definite matrix no sweep increases the energy of the error, and if every unknown is in a block it decreases strictly unless the error is zero. D_I is the (pseudo-)inverse of the diagonal block of the matrix, with the diagonal given to the constructor if there is one.",
  "every matrix, every family of blocks (overlapping or not), all vectors, flags and numbers of steps, blocks visited one after the other","all real inputs",
  ["src/base/smoothers/block_gssmoother.cpp:BSmoother"])
p("C78","The parallel block Gauss-Seidel sweep has one result",
  "With shared-memory parallelisation (colours), however blocks are distributed to threads and however their reads and writes of single vector entries are interleaved, Smooth / SmoothBack of BSmoother have the same result: block Gauss-Seidel over the blocks in the order of the colours, every block once per sweep; also for the version that updates the residual. The constructor finishes and colours blocks so that this holds. The backward sweep is the adjoint of the forward sweep although blocks of a colour are not visited in reversed order, and for a symmetric positive definite matrix the energy of the error decreases.",
  "every matrix, family of blocks without repeated unknowns, colouring with the documented property, thread distribution and interleaving","all schedules",
  ["src/base/smoothers/block_gssmoother.cpp:BSmoother","src/base/smoothers/block_gssmoother.cpp:IterateBlocks"])
p("C79","MultAdd of the block smoother is the sum of the block corrections",
  "BSmoother::MultAdd adds s times the sum of all block corrections D_I b_I to x, whatever the number of threads and their interleaving.",
  "every family of blocks, all vectors and interleavings","all schedules",
  ["src/base/smoothers/block_gssmoother.cpp:BSmoother::MultAdd"])
p("C80","The second block smoother is multiplicative Schwarz as well, with a right residual",
  "Smooth, SmoothK, SmoothBack, SmoothBackK and SmoothSymmK of BSmoother2, for blocks that may overlap, perform block Gauss-Seidel over the blocks in the order of the groups (backwards in reversed order, symmetric: forwards and then backwards), with any number of steps; whenever a residual is asked for, res = b - A x afterwards, whether or not an up to date residual was given. Smoothing of selected groups visits exactly the blocks of these groups in the direction asked for. The backward sweep is the adjoint of the forward sweep, the symmetric one is self-adjoint, and the energy of the error is not increased. The memory reserved for a block is enough for what is stored in it, in whatever order the unknowns of the block are given.",
  "every matrix, every family of groups of blocks (overlapping or not), all vectors, flags and numbers of steps","all real inputs",
  ["src/base/smoothers/loc_block_gssmoother.cpp:BSmoother2","src/base/smoothers/loc_block_gssmoother_impl.hpp:BSmoother2","src/base/utils/utils_arrays_tables.hpp:iterate_anotb"])
p("C81","The block smoother for blocks without common unknowns gives the same sweep and residual as the general one",
  "If BSmoother2 is told that its blocks have no common unknown, construction throws exactly if that is not true; otherwise Smooth, SmoothK, SmoothBack, SmoothBackK and SmoothSymmK perform block Gauss-Seidel in the order asked for, whether or not the start vector is said to be zero and whether or not a residual is given; if the residual is asked for, res = b - A x afterwards; a given diagonal is respected; and the result depends on nothing but the arguments.",
  "every symmetric matrix, every family of groups of disjoint blocks, all vectors, truthful flags and numbers of steps","all real inputs and flag combinations",
  ["src/base/smoothers/loc_block_gssmoother_impl.hpp:BSmoother2::SmoothNO","src/base/smoothers/loc_block_gssmoother_impl.hpp:BSBlock","src/base/smoothers/loc_block_gssmoother.cpp:BSmoother2"])
p("C82","The hybrid block smoother over processes performs block Gauss-Seidel within each process with a fixed exchange",
  "For any family of blocks on every process (overlapping, possibly with unknowns owned by other processes), both local implementations: the constructor of HybridBS succeeds; every call of Smooth / SmoothBack, for every schedule, number of local steps and combination of truthful flags, computes on each process block Gauss-Seidel over the parts of the blocks that the process owns, first those next to no other process, in a fixed order, with the couplings to other processes taken from the start vector; all copies of the result agree; if the residual is asked for it is b - A x. Every owned unknown of a block is in exactly the stage in which its update is allowed. SmoothBack is the adjoint of Smooth and with symm_loc both are self-adjoint.",
  "every number of processes, matrix with symmetric sum, family of blocks, inverses, flags, local steps and schedule","all schedules and distributions",
  ["src/base/smoothers/block_gssmoother.cpp:HybridBS","src/base/smoothers/block_gssmoother.cpp:FilterBlocks","src/base/smoothers/hybrid_base_smoother.cpp:HybridBaseSmoother::SmoothImpl"])
p("C83","The smoother for dynamic block matrices is damped block Gauss-Seidel over the rows with equal pattern",
  "For a symmetric sparse matrix converted to the dynamic block format, DynBlockSmoother can be constructed whenever the diagonal blocks (with the replaced diagonal, if given) are invertible, whatever uninitialised memory holds; Smooth / SmoothBack perform one forward / backward sweep of damped block Gauss-Seidel whose blocks are the sets of free rows with equal columns; blocks and their order depend on the matrix only and not on how an unstable sort leaves equal rows; if asked for, res = b - A x afterwards for all truthful flags, otherwise res is not touched; unknowns that are not free stay as they are; the exact solution is a fixed point; the backward sweep is the adjoint of the forward sweep; for a symmetric positive definite matrix and damping in [0,2] the energy of the error is not increased. Rows without entries do not matter.",
  "every symmetric matrix with diagonal entries, conversion order, free unknowns, replaced diagonal, damping, vectors, truthful flags","all real inputs and all contents of uninitialised memory",
  ["src/base/smoothers/dyn_block_smoother.cpp:DynBlockSmoother"])
p("C84","The hybrid smoother for dynamic block matrices performs block Gauss-Seidel over equal rows within each process and converges if the local ones do",
  "For a distributed symmetric positive definite matrix with symmetric pattern converted to the dynamic block format: computing the modified diagonal and constructing HybridDynBlockSmoother succeed for all schedules and contents of uninitialised memory; the modified diagonal of an owned free unknown is the assembled diagonal times the documented factor of its coupling to other processes; Smooth / SmoothBack, for every schedule, number of local steps and truthful flags, perform on each process damped block Gauss-Seidel over the sets of owned free rows with equal columns, with couplings to other processes taken from the start vector, each such set being handled as a whole in one stage; copies of the result agree; res = b - A x if asked for; the exact solution is a fixed point; SmoothBack is the adjoint of Smooth; and (dyn_block_smoother.hpp:120-125) the smoother is convergent if the local ones are.",
  "every number of processes, matrix, conversion order, free unknowns, damping, flags, local steps and schedule","all schedules, distributions, real inputs and contents of uninitialised memory",
  ["src/base/smoothers/dyn_block_smoother.cpp:HybridDynBlockSmoother","src/base/smoothers/dyn_block_smoother.cpp:CalcScalModDiag","src/base/smoothers/dyn_block_smoother.hpp:HybridDynBlockSmoother"])
p("C85","Vectors can be moved between all processes and the masters of process groups without change",
  "For every grouping of processes and numbering maps that describe the same global unknowns, every schedule and every order in which messages are reported: TransferF2C gives the masters a vector with the same global meaning, whatever the target held before and whether the source is cumulated or distributed; AddF2C adds a multiple of it; TransferC2F gives all processes the values of the masters' vector; AddC2F adds a multiple. Every message has the size the receiver expects, there is no deadlock, and each transfer ends after at most two steps per process.",
  "every number of processes, grouping, numbering maps, vectors, factors, schedules and arrival orders","all schedules",
  ["src/base/coarsening/dof_contract.cpp:CtrMap::TransferF2C","src/base/coarsening/dof_contract.cpp:CtrMap::AddF2C","src/base/coarsening/dof_contract.cpp:CtrMap::TransferC2F","src/base/coarsening/dof_contract.cpp:CtrMap::AddC2F"])
p("C86","The contracted matrix is the same operator",
  "AssembleMatrix of a contraction: the matrices of the masters represent the same global operator as the matrices of all processes, for every schedule, every sorting routine and whatever uninitialised memory holds; each is a well-formed sparse matrix with an entry exactly where a member of the group has one, its entries are the sums of the entries of the members; processes that are not masters get none.",
  "every number of processes, grouping, numbering maps (in any order) and matrices, every schedule","all schedules and contents of uninitialised memory",
  ["src/base/coarsening/dof_contract.cpp:CtrMap::DoAssembleMatrix"])
p("C87","Exchanging contraction and prolongation changes nothing",
  "PullBack / SwapWithProl of a contraction with a prolongation on the masters: every process gets its rows of the prolongation in a new numbering; the map that is left is again a valid contraction; prolongating after un-contracting equals un-contracting after prolongating, restriction likewise, and the contracted Galerkin products of all processes are the Galerkin products of the contracted matrices; all that also if the contraction was used before.",
  "every number of processes, grouping, numbering maps, prolongation, matrices, vectors and schedules","all schedules and histories",
  ["src/base/coarsening/dof_contract.cpp:CtrMap::SwapWithProl","src/base/coarsening/dof_contract.cpp:CtrMap::PullBack","src/base/coarsening/dof_contract.cpp:CtrMap::SetUpMPIStuff"])
p("C88","The contracted mesh is the same mesh seen by groups of processes",
  "GridContractMap: after contraction the masters have, in every schedule of the set-up, consistent tables of classes with globally unique identifiers; the classes of a group are exactly the sets of groups met by the classes of its members; every vertex of every member is mapped to a vertex of the group in the class of the groups that have it; two vertices are the same contracted vertex exactly if they were the same vertex; there are no other contracted vertices, and classes have the same number of vertices in the same order on all groups. The contracted classes are again closed under intersection, so the class of every edge exists.",
  "every number of processes, mesh, grouping and schedule","all meshes, groupings and schedules",
  ["src/base/coarsening/grid_contract.cpp:GridContractMap::BuildCEQCH","src/base/coarsening/grid_contract.cpp:GridContractMap::BuildNodeMaps"])
p("C89","Groups of processes partition the processes",
  "PartitionProcsMETIS: whatever partition METIS returns, every process is in exactly one group, no group is empty, groups are sorted by their master and members by rank, processes are in the same group exactly if METIS has put them in the same part, there are at most as many groups as asked for, and with a separated process 0 it is alone in the first group.",
  "every number of processes and parts, every partition, every sorting routine","all partitions METIS can return, with empty parts",
  ["src/base/coarsening/grid_contract.cpp:PartitionProcsMETIS"])
p("C90","Unknowns and vertex data of a (contracted) level fit the mesh",
  "BuildUDofs: an unknown is shared with exactly the processes that have the same vertex, and two processes list shared unknowns in the same order. BuildContractDOFMap: the maps of unknowns of a contracted mesh satisfy all that contraction of vectors and matrices relies on. MapNodeData: values that agree on all copies agree with those of the contracted vertices, and values given in parts keep their global sum.",
  "every mesh, grouping and data","all meshes and groupings",
  ["src/base/factory/nodal_factory_impl.hpp:NodalAMGFactory::BuildUDofs","src/base/factory/nodal_factory_impl.hpp:NodalAMGFactory::BuildContractDOFMap","src/base/coarsening/grid_contract.hpp:GridContractMap::MapNodeData"])
p("C91","MIS agglomeration gives connected, small, disjoint agglomerates that cover the mesh",
  "MISAgglomerator::FormAgglomerates: whatever the strengths of connection are, it terminates; agglomerates are disjoint, listed consistently with the vertex map, contain their centre, are connected through their own members and have radius at most 3 (4 with dist2); every free vertex the process is responsible for is in one; Dirichlet vertices, vertices of other processes and vertices of fixed agglomerates are in no computed one; fixed agglomerates are kept; all processes that have a member also have the centre, so the agglomerates that the processes form without communication are valid input for the coarse map. Without dist2 an agglomerate starts as a fan around one edge.",
  "every graph, class structure, Dirichlet set, fixed agglomerates, options and outcome of the floating point tests","all graphs and all outcomes of the strength tests",
  ["src/base/coarsening/mis_agg_impl.hpp:MISAgglomerator::FormAgglomerates_impl"])
p("C92","The preconditioner that is built is symmetric positive definite",
  "BuildAMGMat for one process: for a symmetric positive semidefinite matrix and prolongations of matching size the level matrices, smoothers (Gauss-Seidel, block Gauss-Seidel, Jacobi, each with any number of steps, symmetrized or not) and cycles fit together: the construction succeeds, and applying the result is one fixed linear map, whatever the output vector and the work vectors contain. It is symmetric and positive semidefinite, and an iteration with it never increases the energy norm of the error; if the matrix is positive definite on the smoothed unknowns it is positive definite there and the error gets strictly smaller unless the residual vanishes.",
  "every matrix, every number of levels, every prolongation, every choice of smoothers per level, cycle and coarse solver, every content of the vectors","all matrices, hierarchies and option combinations",
  ["src/base/precond/amg_pc.cpp:BaseAMGPC::BuildAMGMat","src/base/precond/amg_pc.cpp:BaseAMGPC::BuildSmoother","src/base/precond/amg_pc_vertex_impl.hpp:VertexAMGPC::SelectSmoother","src/base/solve/amg_matrix.cpp:AMGMatrix::Mult"])
p("C93","Agglomerates owned by any process become the vertices of the coarse mesh",
  "MapVerts_sv (agglomerates of solid vertices, where the process that has an agglomerate need not be the smallest process of its centre): on every process and under every schedule of the two exchanges the call ends without deadlock, without a message left over and without reading or writing out of range. The coarse vertices form a distributed mesh (the same blocks in the same order on all processes of a class); there is one coarse vertex per agglomerate of all processes, in the class of the centre. A vertex is mapped exactly if it, or a copy of it on another process, is a member of an agglomerate; the images of two vertices, on whatever processes, are the same coarse vertex exactly if they are in the same agglomerate; the map is onto, and the edges can be mapped with it (C76).",
  "every number of processes, every distributed mesh, every choice of agglomerates with members shared by no process that does not have the centre, every schedule","all meshes, agglomerates and message orders",
  ["src/base/coarsening/agglomerate_map.cpp:BaseAgglomerateCoarseMap::MapVerts_sv","src/base/utils/reducetable.hpp:ReduceTable"])
p("C94","Every chosen degree of freedom belongs to exactly one vertex of the finest mesh",
  "SetUpMaps with regular ordering: the degrees of freedom chosen by ranges or by a bit array, in their order, are NV blocks of the first block size, then NV blocks of the second, and so on; the v-th block of each size belongs to vertex v. The call ends without reading or writing out of range, the map from degrees of freedom to vertices is -1 exactly for the degrees of freedom not chosen, row v of the map from vertices to degrees of freedom lists the components of vertex v in order, and both maps are inverse to each other.",
  "every number of degrees of freedom, every list of ranges or bit array, every list of positive block sizes","all subsets, ranges and block sizes",
  ["src/base/precond/amg_pc_vertex_impl.hpp:VertexAMGPC::SetUpMaps","src/base/precond/amg_pc_vertex.hpp:VertexAMGPCOptions"])
p("C95","The finest mesh made from the matrix has an edge exactly where first degrees of freedom are coupled",
  "BuildEQCH and BTM_Alg: the hierarchy of classes is set up, in every schedule, from the degrees of freedom that are chosen; the vertices of every process are numbered so that all processes of a class list them in the same order, the maps between degrees of freedom and vertices are renumbered accordingly and stay inverse to each other, a vertex is free exactly if its first degree of freedom is free, and, in every schedule of the set-up of the edges, the mesh has exactly one edge between two vertices if the matrix has an entry for their first degrees of freedom on some process, and none otherwise. Nothing is read or written out of range.",
  "every number of processes, distribution of degrees of freedom, choice of them, block sizes, sparsity pattern and schedule","all distributions, patterns and message orders",
  ["src/base/precond/amg_pc_vertex_impl.hpp:VertexAMGPC::BuildEQCH","src/base/precond/amg_pc_vertex_impl.hpp:VertexAMGPC::BTM_Alg","src/base/mesh/base_mesh.cpp:BlockTM::SetVs"])
p("C96","The embedding gives every degree of freedom the value of its vertex",
  "BuildEmbedding: for every choice of degrees of freedom (ranges or bits), block sizes and renumbering of the vertices the embedding of the finest mesh is built without reading or writing out of range, has one row per degree of freedom and one column per vertex, gives every chosen degree of freedom the component of the vertex of the mesh it belongs to (as in the maps of C94, C95) and zero to all others; constrained components get zero. The product of the given matrix with it from both sides is the given matrix with rows and columns regrouped by vertices. If one process has an embedding all have one.",
  "every number of degrees of freedom and vertices, every subset, block sizes, block dimensions, permutation, matrix and vector","all subsets, block sizes and permutations",
  ["src/base/precond/amg_pc_vertex_impl.hpp:VertexAMGPC::BuildEmbedding_impl","src/base/precond/amg_pc_vertex_impl.hpp:VertexAMGPC::BuildES","src/h1/h1_impl.hpp:VertexAMGPC::BuildED","src/elasticity/elasticity_pc_impl.hpp:VertexAMGPC::BuildED"])

p("C97","The set-up of the levels ends, with levels that shrink, and alike on all processes",
  "SetUpLevels: whatever coarsening and contraction give, the set-up ends on all processes, no process waits for a collective operation that another process of the level does not call, and the result does not depend on the run. Every coarse level has fewer nodes than the one before (by the factor rd_crs_thresh, with redistribution), at least one node and at least min_coarse_size; there is no level behind one with at most max_coarse_size nodes; all processes have the same levels until they drop out; there are at most max_levels levels; a set-up ends early only if coarsening gave no usable mesh. With redistribution, slow coarsening leads to redistribution, a mesh below rd_seq_nv is moved to one process, and every contraction leaves fewer processes.",
  "every number of processes, every outcome of coarsening and contraction on every level, all options","all sequences of coarse meshes, groupings and options",
  ["src/base/factory/base_factory.cpp:BaseAMGFactory::RSU","src/base/factory/base_factory.cpp:BaseAMGFactory::DoStep","src/base/factory/base_factory.cpp:BaseAMGFactory::TryContractStep","src/base/factory/base_factory.cpp:BaseAMGFactory::FindRDFac","src/base/factory/nodal_factory_impl.hpp:NodalAMGFactory::ComputeGoal"])

p("C98","Coarse loops are simple, and their combinations contain the images of all fine loops",
  "The coarse loops of the Stokes discretization (MapAdditionalData with SimpleLoopsFromChunks, SplitChunk, rotateVLoop): for all fine loops that are closed walks and every map of fine to coarse vertices, however the oriented edges are distributed over the processes and in whatever order they are received, the computation ends, leaves its data as it was and nothing is written out of range. Every coarse loop is a closed walk through at least three vertices, all different, beginning at the smallest; all its edges are images of edges of one fine loop; no loop is found twice, in whatever direction or from whatever start; the image of every fine loop, as a sum of oriented edges, is a combination of the coarse loops with whole numbers. The edge-loop a process stores runs through the same vertices in the same order. Buckets for finding duplicates are within the table and separate loops with different first vertex. Open walks are divided without losing edges or inventing any.",
  "every set of fine loops, every vertex map, every distribution and order of the edges","all walks, maps and orders of edges",
  ["src/stokes/common/loop_utils.cpp:SplitChunk","src/stokes/common/loop_utils.cpp:SimpleLoopsFromChunks","src/stokes/common/loop_utils.hpp:rotateVLoop","src/stokes/common/stokes_map_impl.hpp:StokesCoarseMap::MapAdditionalDataB"])

p("C99","All processes agree on which processes share a coarse loop",
  "MapAdditionalData and AddOrientedLoops (the loops of the Stokes discretization): if on the fine level every process knows of each of its loops which other processes have it, and any two processes have the loops they share in the same order, then, however the processes are scheduled, the exchanges end, no message is left over or of the wrong size, all processes that share a fine loop compute the same coarse loops from it, a process keeps exactly the coarse loops of which it has an edge, each once and in order, and on the coarse level every process again knows which other processes have them.",
  "every number of processes, every distribution of the loops and their edges, every schedule","all distributions of loops and message orders",
  ["src/stokes/common/stokes_mesh_impl.hpp:StokesMesh::AddOrientedLoops","src/stokes/common/loop_utils.hpp:ShrinkDPTable","src/stokes/common/stokes_map_impl.hpp:StokesCoarseMap::MapAdditionalDataB","src/base/distributed/mpiwrap_extension.hpp:ExchangePairWise"])

p("C100","The discrete divergence of the discrete curl of a loop is zero",
  "BuildDivMat, BuildCurlMat, GetDOFedEdges and the degrees of freedom of edges (Stokes): edges with at least one vertex that is no ghost are numbered consecutively, both maps are inverse to each other; with any numbers of degrees of freedom per edge DOFToEdge is the inverse of EdgeToDOF. Both matrices are proper (columns increase, in range) and the flow of the curl of a loop over each of its edges is one in the direction of the loop. For every loop that is a closed walk over no edge twice (coarse loops are, on every process), whatever the volumes, the flows (not zero) and the memory contained before: nonconforming discretization: the contributions of all processes to the divergence add up to zero in every vertex, and on one process the product of the matrices is zero; H(div)-conforming: it is zero in every vertex of which the process has all edges of the loop.",
  "every mesh, distribution, numbering, set of loops, flows, volumes, numbers of degrees of freedom per edge, block size","all meshes, loops, numberings and distributions",
  ["src/stokes/common/stokes_mesh_impl.hpp:StokesMesh::SetUpDOFedEdges","src/stokes/ncfes/nc_stokes_factory_impl.hpp:NCStokesAMGFactory::BuildDivMat","src/stokes/ncfes/nc_stokes_factory_impl.hpp:NCStokesAMGFactory::BuildCurlMat","src/stokes/hdiv/hdiv_stokes_factory_impl.hpp:HDivStokesAMGFactory::BuildDivMat","src/stokes/hdiv/hdiv_stokes_factory_impl.hpp:HDivStokesAMGFactory::BuildCurlMat","src/stokes/hdiv/mesh_dofs.hpp:MeshDOFs"])

p("C101","Prolonged fields have constant divergence on agglomerates, and constants are preserved",
  "BuildPrimarySpaceProlongation (nonconforming Stokes discretization) with the coarse flows and volumes of map_data: for every coarse field, in every agglomerate the divergence of the prolonged field (net flow out of a vertex divided by its volume) is the same on all vertices, namely that of the coarse field on the coarse vertex; so fields without divergence are prolonged to fields without divergence. If the agglomerate contains an outflow the prolonged field has no divergence. Edges between agglomerates get the value of the coarse edge, edges to dropped vertices get zero. Constant fields are prolonged to constant fields around agglomerates without dropped neighbours, if the energy vanishes for constants and these have no divergence. The function returns if the local problems are regular. Flows and volumes of the coarse mesh are the sums of those of the fine mesh.",
  "every mesh, agglomerates, flows, volumes, energy, block size, coarse field","all meshes, agglomerates and coarse fields",
  ["src/stokes/ncfes/nc_stokes_factory_impl.hpp:NCStokesAMGFactory::BuildPrimarySpaceProlongation","src/stokes/ncfes/nc_stokes_mesh_impl.hpp:AttachedSED::map_data","src/stokes/common/stokes_mesh_impl.hpp:AttachedSVD::map_data"])

p("C102","Basis functions of coarse facets represent the preserved vectors and only the first has flow",
  "PreservedVectorsMap with computeSpecialVecs, computePWZF, computeCFProlBlocks and Finalize (H(div) Stokes discretization): for every coarse edge whose fine edges have degrees of freedom and some flow the block of basis functions is computed; its first column is the special vector, with as flow the sum of the absolute flows of the fine edges, all other columns have no flow, and the columns are independent, so there are at most as many as fine degrees of freedom or given vectors plus one. The block times the coarse preserved vector is the fine preserved vector on these edges, up to a rest of at most 1e-8 of its length, and exactly if the vectors are either dependent or not almost dependent; at most 1e-6 for any way of computing inner products. The packed buffer, its size, the offsets and the numbering of the coarse degrees of freedom fit together for all edges; DOFToEdge is the inverse of EdgeToDOF. computePW alone gives an orthogonal system.",
  "every mesh map, numbers of degrees of freedom, flows, number and values of the preserved vectors, contents of uninitialized memory","all vectors, edges and dimensions",
  ["src/stokes/hdiv/preserved_vectors_impl.hpp:computePW","src/stokes/hdiv/preserved_vectors_impl.hpp:computePWZF","src/stokes/hdiv/preserved_vectors_impl.hpp:PreservedVectorsMap","src/stokes/hdiv/hdiv_stokes_factory_impl.hpp:computeSpecialVecs","src/stokes/hdiv/mesh_dofs.hpp:MeshDOFs"])

p("C103","H(div) prolongation: constant divergence, minimal energy, preserved vectors",
  "BuildPrimarySpaceProlongation of the H(div) Stokes discretization with several basis functions per facet: for every coarse field, the flow of the prolonged field over the fine edges of a coarse edge is the flow over the coarse edge as stored in the coarse mesh; in every agglomerate the flow out of a fine vertex and the flow of the coarse field out of the coarse vertex are in the ratio of the volumes, so the divergence is the same on all fine vertices. Inside an agglomerate the prolonged field is orthogonal in the energy to all divergence-free fields there, and has minimal energy among the fields with the same divergence and the same values outside. A field with constant divergence that is in equilibrium with a pressure inside and agrees with the prolonged field around the agglomerate is reproduced; with the blocks of PreservedVectorsMap the prolonged coarse preserved vector is the fine one between agglomerates up to 1e-8 per coarse edge, and exactly on the whole agglomerate if it is represented exactly there. The function returns if the local problems are regular.",
  "every mesh, agglomerates, numbers of basis functions, flows, volumes, matrix, blocks, coarse field","all meshes, agglomerates and coarse fields",
  ["src/stokes/hdiv/hdiv_stokes_factory_impl.hpp:HDivStokesAMGFactory::BuildPrimarySpaceProlongation","src/stokes/hdiv/preserved_vectors_impl.hpp:ReadProlBlockFromBuffer","src/base/coarsening/base_coarse.cpp:GetMapC2F","src/stokes/common/stokes_mesh_impl.hpp:AttachedSVD::map_data"])

p("C104","Summary of the AMG setup: truthful, written once, and without deadlock",
  "SetUpLevels with any hierarchy and any options log_level, print_log and log_file: in every order in which the collective operations and messages can be carried out all processes finish; if a summary is asked for, process zero writes it once and completely to the place asked for, and no other process writes anything. The vertex complexity is the number of vertices of all levels divided by that of the finest, the operator complexity the number of matrix entries (times block size) of all levels and processes divided by that of the finest level, and the components and the numbers of vertices, edges, processes and entries are those of the levels. The lines about local complexities name a process whose local complexity is the largest one, this complexity and its components.",
  "every hierarchy (levels, processes of every level, sizes), options, results of Reduce on other processes, order of the operations","all hierarchies and all schedules of the collective operations",
  ["src/base/factory/base_factory.cpp:BaseAMGFactory::Logger::LogLevel","src/base/factory/base_factory.cpp:BaseAMGFactory::Logger::Finalize","src/base/factory/base_factory.cpp:BaseAMGFactory::Logger::PrintLog","src/base/factory/base_factory.cpp:BaseAMGFactory::Logger::PrintToFile","src/base/factory/base_factory.cpp:BaseAMGFactory::SetUpLevels"])

p("C105","Sorting of facet loops: every simple loop becomes one closed loop of edges",
  "SortAndOrientLoop ends for every array, its output has the same edges in another order, some of them turned; if it reports one chunk the edges are together the boundary of a walk, and if moreover every vertex has an even number of the edges the output is, in its order and orientation, one closed walk. Facets whose edges are a simple closed loop are, in any order and with any orientation of the edges, never rejected by CalcFacetLoops: the loop of one process becomes a closed walk of coded edges with every edge once; the parts of a loop shared by processes are put together to a closed walk, and the part decoded on a process enters every vertex there that is not a ghost as often as it leaves it, so its flow is divergence free.",
  "every array of edges, loop, distribution of a loop to processes, numbering of vertices and edges","all orders, orientations and distributions of loops of any length",
  ["src/stokes/common/loop_utils.hpp:SortAndOrientLoop","src/stokes/common/loop_utils.hpp:loopEncode","src/stokes/common/stokes_pc.cpp:sortTup4Loop","src/stokes/common/stokes_pc.cpp:linearizeReductionData","src/stokes/common/stokes_pc.cpp:BaseStokesAMGPrecond::CalcFacetLoops"])

p("C106","CalcFacetLoops: the same divergence-free loops on all processes",
  "CalcFacetLoops with ProduceReducedTable and ReduceTable, for every schedule of the messages: it ends without deadlock and left-over messages; every process gets a table of loops and one of distant processes with aligned rows, first the loops it has alone in their order, then the shared ones in theirs. A loop of one process is a closed walk of coded edges that has the edge of every facet once. For every shared loop there is one closed walk over the edges of the parts of all its processes, each once, the same for all of them, and each process has in its row the edges of that walk it knows, coded by their direction in it; the flow of that row has divergence zero in every vertex that is not a ghost.",
  "every number of processes, distribution and order of the rows, facets, numbering of vertices and edges, schedule","all inputs, all schedules of messages",
  ["src/stokes/common/stokes_pc.cpp:ProduceReducedTable","src/stokes/common/stokes_pc.cpp:BaseStokesAMGPrecond::CalcFacetLoops","src/base/distributed/reducetable.hpp:ReduceTable"])

p("C107","Relevant elements, nodes and facets: maps are inverse to each other, marks are right",
  "FacetAuxiliaryInformation of a space defined on a part of a distributed mesh: relevant are the elements the space is defined on and the nodes of the potential space and the facets of such elements of any process. A2R_EL/R2A_EL, A2R_PSN/R2A_PSN, A2R_Facet/R2A_Facet are increasing and inverse to each other between these and consecutive numbers, IsElementRel, IsPSNRel and IsFacetRel are true exactly for these, for every order in which the parallel loop over the elements sets its bits, and all processes with a facet agree on it. Without definedon the maps are those of all elements and nodes.",
  "every distributed mesh, set of elements the space is defined on, order of the atomic operations","all meshes and all schedules of the threads",
  ["src/base/ngs_extension/facet_aux_info.cpp:FacetAuxiliaryInformation::setup","src/base/ngs_extension/facet_aux_info.cpp:markToSubsetMappings","src/base/ngs_extension/facet_aux_info.hpp:FacetAuxiliaryInformation"])

p("C108","Every relevant free facet is in the loops of its nodes on exactly one process",
  "The facets given for a node of the potential space (vertex in 2D, edge in 3D) on a process are sorted and without duplicates, and are exactly the relevant free facets that contain the node and of which the process is the master, wherever they are found (volume or surface elements, several times). On a distributed mesh every relevant free facet has exactly one master, and is for each of its nodes in the loop of that node on this process and on no other, so that loops put together from all processes have every facet once. No degree of freedom that does not exist is tested.",
  "every distributed mesh in 2D and 3D, relevant and free facets, nodes","all meshes and distributions",
  ["src/stokes/common/stokes_pc.cpp:masterOfFacet","src/stokes/common/stokes_pc.cpp:makeFacetLoop2D","src/stokes/common/stokes_pc.cpp:makeFacetLoop3D","src/stokes/common/stokes_pc.cpp:BaseStokesAMGPrecond::CalcFacetLoops","src/base/utils/utils_arrays_tables.hpp:insert_into_sorted_array_nodups"])

p("C109","Free loops, vertices and edges of the finest level are those without Dirichlet conditions",
  "BuildFreeNodes: fictitious vertices that hold a facet with a Dirichlet condition, of any process, are not free, all vertices of elements are; an edge is free iff its facet has no Dirichlet condition; a node of the potential space is free iff its loop is not empty and does not touch a facet with a Dirichlet condition. All processes with a vertex or a loop agree on it. No degree of freedom that does not exist is tested.",
  "every distributed mesh, loops, Dirichlet conditions","all meshes, distributions and Dirichlet conditions",
  ["src/stokes/common/stokes_pc.cpp:BaseStokesAMGPrecond::BuildFreeNodes","src/stokes/common/stokes_pc.hpp:BaseStokesAMGPrecond"])

p("C110","Blocks of the block smoothers: the right unknowns together, none lost",
  "StokesMesh::LoopBlocks: every loop is in a block; two loops are in a common block exactly if they have a common coarse edge, with one block for every coarse edge that holds exactly the loops with that edge, once each, and one block for every loop without a coarse edge; no block is empty. VertexAMGPC::GetGSBlocks: one block for every coarse vertex with the degrees of freedom of the vertices mapped to it, each in one block, once. HDivStokesAMGPC::GetGSBlocks: a block for every edge that has degrees of freedom; on the finest level for every facet and then every element with free degrees of freedom, which hold all of the free ones and no other. No block is empty.",
  "every mesh, coarse map, loops, degrees of freedom, free degrees of freedom","all meshes, coarse maps and numberings",
  ["src/stokes/common/stokes_mesh_impl.hpp:StokesMesh::LoopBlocks","src/base/precond/amg_pc_vertex_impl.hpp:VertexAMGPC::GetGSBlocks","src/stokes/hdiv/hdiv_stokes_pc_impl.hpp:HDivStokesAMGPC::GetGSBlocks","src/stokes/hdiv/hdiv_stokes_pc_impl.hpp:HDivStokesAMGPC::GetFinestLevelGSBlocks","src/base/precond/amg_pc.cpp:BaseAMGPC::BuildBGSSmoother"])

p("C111","The coarsest matrix, converted to smaller blocks for the inverse, is the same matrix",
  "ConvertToBSThree, used for the inverse on the coarsest level of 3D elasticity: no access out of range and every entry of the new matrix is written; its rows are sorted; in the numbering of the scalar unknowns (component i of unknown k is 6k+i, and 3(2k)+i or 3(2k+1)+i-3) it is the same matrix, so it multiplies the same memory in the same way; free unknowns and distant processes of both halves are those of the unknown. So an inverse of it on the free unknowns is one of the given matrix.",
  "every sparse matrix with blocks of size 6, free unknowns, distant processes, vectors","all matrices and vectors",
  ["src/base/precond/amg_pc.cpp:ConvertToBSThree","src/base/precond/amg_pc.cpp:BaseAMGPC::CoarseLevelInv"])

p("C112","The P2 embedding interpolates the middle of every edge from the two vertices at its ends",
  "For quadratic elements with one of the P2 orderings, the vertices of the finest mesh are the degrees of freedom (or vertices of the NGSolve mesh with some) that are the middle of no edge; the maps d2v and v2d between them are inverse to each other; the embedding of the preconditioner has exactly one row entry, the identity, for the degree of freedom of a vertex (in the column of that vertex), the two halves of the rigid body interpolation from the vertices at the two ends for the middle of an edge, and no other entry; fixed degrees of freedom contribute zero.",
  "every list of edges with their middles, free degrees of freedom, and new numbers of the vertices","all lists, sizes and numberings",
  ["src/base/precond/amg_pc_vertex_impl.hpp:VertexAMGPC::SetUpMaps","src/base/precond/amg_pc_vertex_impl.hpp:VertexAMGPC::BTM_Alg","src/elasticity/elasticity_pc_impl.hpp:VertexAMGPC::BuildED"])

p("C113","A mesh contracted to fewer processes keeps its loops",
  "When the meshes of a group of processes are joined, the new mesh has one loop for every loop known to some member, in the order of the global numbers, and every member's loop is mapped to the one with its number; this loop has exactly the edges the members have in it, each once if the flips of the edges are consistent, with the other orientation for a flipped edge; its distant processes are exactly the images of those of the members, without the process itself, each once; a vertex is a ghost exactly if no member has it as a vertex that is no ghost. Nothing is accessed out of range and every entry of the new tables is written.",
  "every group, all meshes of the members, loops, global numbers, maps of nodes and flips","all groups, meshes and numberings",
  ["src/stokes/common/stokes_map_impl.hpp:StokesContractMap::MapAdditionalData","src/stokes/common/stokes_map_impl.hpp:RemoveDuplicates"])

p("C114","Processes agree on the shared degrees of freedom of the edges",
  "On a distributed Stokes mesh a process is in the list of distant processes of a degree of freedom exactly if the edge is shared with this process and has a degree of freedom there, too (an edge has none on a process where both of its vertices are ghosts). So any two processes exchange the degrees of freedom of the same edges in the same order. Nothing is accessed out of range.",
  "every distributed mesh, ghost vertices, pair of processes","all meshes, distributions and numbers of processes",
  ["src/stokes/common/stokes_mesh_impl.hpp:StokesMesh::GetDofedEdgeUDofs","src/stokes/common/stokes_mesh_impl.hpp:StokesMesh::SetUpDOFedEdges"])
