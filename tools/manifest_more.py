A="NgsAMG.AMG"; M="NgsAMG.Sm"
c("C20","partial",["mult_correct","mult_history","cinv_correct","emb_mult_correct","mult_one_level_wrong","mult_one_level_W_ub"],"holds for two or more levels, for V, W and BS cycles, CINV and the embedded operator; for a hierarchy with one level Mult leaves the output vector untouched (V, BS) or accesses a missing level (W): proved negation",A)
c("C21","proved",["smoothV_correct","smoothVFrom_correct","smoothW_correct","smoothBS_correct","mult_correct","emb_mult_correct"],"level loops refine the recursive cycles of Spec/Multigrid",A)
c("C25","partial",["mult_correct","multAdd_correct","emb_multAdd_correct","mult_one_level_wrong","multAdd_one_level_wrong"],"two or more levels; negation for one level",A)
c("C28","partial",["NgsAMG.Sm.richardson_contract","NgsAMG.Sm.proxy_contract","NgsAMG.GS.smooth_contract","NgsAMG.AMG.amgSmooth_contract","NgsAMG.AMG.amgSmooth_single_ub"],"Richardson, proxy, Gauss-Seidel, multigrid as smoother; the single-fine-smoothing variant accesses missing levels on the second-coarsest level (proved)")
c("C29","proved",["smoothK_contract","smoothSymm_contract","proxy_contract","iterK_adjoint","iterK_symm_selfadjoint"],"",M)
c("C30","partial",["hmSmooth_contract","hmSmoothBack_contract_partial","hmSmoothBack_wrong","hmSmoothBack_not_contract","hm_adjoint"],"forward proved; backward violates the contract for x_zero and not res_updated without stored D^T A (witness); exact true part proved",M)
c("C22","proved",["cycles_linear","mult_spd"],"V, W and BS cycles",A)
c("C23","proved",["cycles_symmetric","mult_spd"],"V, W and BS cycles",A)
c("C24","proved",["vcycleFrom_energy","cycles_energy","mult_spd","good_of_exact","good_of_pinv"],"V, W and BS cycles, exact or pseudo-inverse coarse solver, V-cycle from any start vector",A)
c("C41","proved",["cycles_posdef","mult_spd"],"",A)
claims[[x["property"] for x in claims].index("C20")]["theorems"].append("NgsAMG.AMG.history_independent")
L="NgsAMG.LS"
c("C36","partial",["solve_correct_partial","solve_total","neededSteps_wrong","false_convergence","solve_ub","zero_error_not_converged"],"bookkeeping proved for initialised flags; violated by the code: steps off by one, false convergence for rtol <= 0, check flag never initialised (all proved)",L)
c("C37","proved",["mult_pure","multAdd_correct","amgSolver_pure"],"",L)
T2="NgsAMG.BG"
c("C38","proved",["executed_exactly_once","executed_prefix","no_deadlock","runs_terminate","start_start_drops"],"all interleavings and spurious wakeups; liveness: every run with finitely many spurious wakeups completes; awaiting before the next submission is necessary (witness)",T2)
c("C39","partial",["destroy_terminates_partial","destroy_deadlock"],"the destructor can deadlock (lost wakeup), proved for every program of pairs; terminates if the worker already sleeps",T2)
D="NgsAMG.DM"
c("C26","proved",["makeSingleStep2_behaves","makeSingleStep3_behaves","grouping_spec","mapLevel_spec","mapLevel_embDone_spec","concStep_spec","canConc_false","makeSingleStep2_not_finalized","makeSingleStep2_no_vecs"],"all chains and step classes, once finalized (as MapLevel does); a merged step that is used for restriction before Finalize dereferences null (proved, two witnesses)",D)
c("C27","proved",["transferAtoB_down","transferAtoB_up","transferAtoB_via","finalize_rejects","finalize_empty_accepts","assembleMatrices_spec","wf_finalize"],"an empty map cannot be finalized and keeps accepting steps (proved)",D)

claims[[x["property"] for x in claims].index("C03")]["theorems"] += ["NgsAMG.MergeArrays.run_correct","NgsAMG.MergeArrays.run_overflow"]
S="NgsAMG.SparseMM"
c("C10","proved",["transpose_correct","transpose_transpose"],"all block sizes, any commutative ring of scalars",S)
c("C11","proved",["matMultAB_correct","bucket_in_range"],"for at most 2^30 columns (beyond, the merge of more than 16 rows overflows int: NgsAMG.MergeArrays.run_overflow)",S)
c("C12","proved",["matMultABUpdate_correct","matMultABUpdate_missing"],"the condition on the graph is necessary: witness of silent corruption",S)
c("C13","proved",["restrictMatrix_correct","restrictMatrix_bilin","restrictMatrix_symm","restrictMatrix_psd"],"",S)

S="NgsAMG.SparseLA"
c("C14","partial",["sparseIdentity_wrong","sparseIdentity_not_wf","sparseIdentity_action"],"violated by the code for every size (constant column index 1, all entries of blocks set to 1): negation proved for all sizes",S)
c("C15","partial",["addMerge_same_graph","addMerge_wrong","addMerge_ub","addMerge_graph_partial","addMerge_disjoint_partial","addSPM_correct"],"violated by the code (values of B are not used, factors ignored): negation proved; graph of the sum and row-disjoint sums proved exact; the unused variant AddSPM is correct",S)
c("C16","partial",["compress_correct_partial","compress_error_partial","compress_drops_negative"],"exact for blocks and non-negative scalars; negative scalars are dropped (negation)",S)
c("C42","partial",["toSparse_correct_partial","toSparse_sum_wrong","toSparse_scale","block2Sparse_wrong"],"proved for products, transposes, embeddings, identity factors; sums and block matrices are wrong, scaled matrices throw (proved)",S)
c("C43","proved",["permutationMatrix_action","permutationMatrix_wf","permutationMatrix_entry","permutationMatrix_orthogonal"],"",S)
c("C44","proved",["embed_correct","embed_ub"],"",S)
c("C45","partial",["zeroBlocks_correct","restrictToBlocks_correct_partial","compress_drops_negative"],"for scalar matrices with negative entries the final compression drops them",S)
c("C17","proved",["multiply_correct","mult_correct","multAdd_correct","default_correct","default_needs_symmetric","sortedBy_exists","lexiLess_order"],
  "The conversion (Finalize) and Mult/MultAdd, for every outcome of the unstable sort and every block-consistent pattern; the constructor that detects the blocks is covered for structurally symmetric patterns, and shown to leave its buffer without symmetry. MultTrans, MatMultAB of this format throw in the code and are not modelled.","NgsAMG.DynBlock")


c("C18","proved",["NgsAMG.DCC.gather","NgsAMG.DCC.scatter","NgsAMG.DCC.gather_scatter","NgsAMG.DCC.gather_scatter_progress","NgsAMG.Exch.final_state","NgsAMG.Exch.no_deadlock","NgsAMG.Exch.terminates","NgsAMG.Exch.exists_final"],
"Gather, scatter and their sequence for vectors of status DISTRIBUTED, for every number of processes, sharing pattern and schedule (asynchronous processes, any interleaving), including absence of deadlock and of left-over messages.","")
c("C46","partial",["NgsAMG.DCC.gather_cumulated_wrong","NgsAMG.DCC.gather_cumulated_partial"],"refuted for the code: StartDIS2CO sets the status to DISTRIBUTED without communicating, and ApplyDIS2CO then adds the stale receive buffer; true when that buffer is zero","")

c("C19","proved",["decompose_spec","decompose_correct"],"all process counts, sharing patterns (as guaranteed by ParallelDofs), matrices and schedules; no symmetry needed; includes in-range accesses of the in-place column remapping and of the row counters","NgsAMG.Hybrid")

c("C40","proved",["smooth_correct","smooth_progress","hybridGS_correct","newX_gs","gs_kernelsOK"],"for arbitrary kernels that keep to their stage, and end to end for the hybrid Gauss-Seidel smoother (textbook Gauss-Seidel with each process's block of the global operator); all flags, process counts, matrices, schedules; the overlap with a background thread is not part of this theorem","NgsAMG.HybSm")
c("C47","partial",["residual_cumulated_wrong","smooth_cumulated"],"refuted for the code: the copies on other processes keep the start residual, so it counts once per copy (exact error proved for all runs, concrete run as witness)","NgsAMG.HybSm")

c("C48","proved",["multAdd_correct","multTransAdd_correct","mult_correct","constructed_mult"],"all process counts, sharing patterns, matrices, vectors, schedules","NgsAMG.HybMat")
c("C49","partial",["serial_constructor_undefined","count_allRows","hybridBS_settings","hybridGS_steps_ignored","hybridGS_result_ignores_steps","hybridGS_steps_wrong","hybridDI_overlap_ignored"],"refuted for the code: HybridGSSmoother passes its arguments in the wrong order (number of steps ignored), HybridDISmoother always overlaps; HybridBS is right","NgsAMG.HybMat")
c("C50","proved",["allReduce_correct","allReduce_same","allReduce_sum","allReduce_progress"],"","NgsAMG.AR")
c("C51","partial",["hybridGS_adjoint","hybridGS_symmLoc_selfadjoint","hybridGS_symmLoc_not_adjoint"],"proved for all settings without symm_loc; with symm_loc both directions are self-adjoint but not adjoint to each other (refuted on a concrete witness)","NgsAMG.HybSm")
c("C52","partial",["calcModDiag_correct","calcModDiag_progress","hybridGS_energy_scalar","energy_le","hybridGS_energy_blocks_wrong"],"proved for scalar matrices (and for blocks whose diagonal is dominated by the block, energy_le); refuted for general blocks by a concrete SPD matrix on three processes; without symm_loc","NgsAMG.ModDiag")
claims[[x["property"] for x in claims].index("C27")]["theorems"] += ["NgsAMG.DM.concStep_merged_spec"]
W="NgsAMG.SPW"
c("C53","proved",["aggregates_partition","pairing_spec","joining_spec","findNeib_spec","findNeib_strongest"],"",W)
c("C54","partial",["coarse_adjacency","edgeMap_spec","coarseEdges_nodup","coarse_edge_duplicated"],"quotient graph and edge map proved; edges are unique if no aggregate with one vertex has two neighbours in another aggregate, otherwise refuted by a concrete witness (parallel edges)",W)
c("C55","partial",["aggregates_connected","locked_edges_no_effect","locked_edges_ignored"],"connectedness and size proved; locked edges are ignored by the pairwise algorithm (refuted for the code)",W)
c("C56","partial",["aggregates_eqc","orphan_round_breaks_eqc"],"proved without orphan round; with orphan round refuted by a concrete witness",W)
claims[[x["property"] for x in claims].index("C42")]["theorems"] += ["NgsAMG.SparseLA.toSparse_sum_ident_not_square","NgsAMG.SparseLA.toSparse_sum_ident_square"]
claims[[x["property"] for x in claims].index("C48")]["theorems"] += ["NgsAMG.HybMat.gZero_agrees"]
Q="NgsAMG.EQC"
c("C57","proved",["closedTable_spec","unionLoop_spec","interLoop_spec","exchange_spec","famOK_length"],"given classes assumed consistent between the processes (proved for the constructors, C60)",Q)
c("C58","proved",["setup_closed","setup_plain","gid_inj","assign_spec","order_agrees"],"with and without closing the family",Q)
c("C59","proved",["isLEQ_iff","leqOK_of_table","mergedEQC_iff","commonEQC_iff","commonEQC_closed","findEQC_iff","masters"],"",Q)
c("C60","partial",["setup_from_dofs","setup_members","classesOfNodes_one","classesOfNodes_missed","classesOfNodes_twice","classesOfNodes_out_of_range"],"proved for parallel DOFs and for lists of members (where no process ever has an empty family, so the flag 'rank 0 idle' computed from it is never set); the constructor from mesh nodes is right for one node type and refuted for several",Q)
c("C61","partial",["unions_not_closed","plain_common_missing","neqcsGlob_eq","shared_count","neqcsGlob_wrong"],"refuted for the code: unions are formed before the intersections; without closing, common classes are missing; neqcs_glob counts the own master classes twice (exact value proved)",Q)
L="NgsAMG.Elast"
c("C62","proved",["transport_rigid3","transport_rigid2","edge_transport","transport_motion","transport_comp"],"",L)
c("C63","partial",["mq_correct","qtm_correct","qtmq_correct","qmqt_correct2","addQtMQ_correct","qtMQ_correct","calcMQ_correct","setQtMQ_partial","calcMPDataWW_partial","setQ_scaled","qmqt_wrong3","qmqt_undefined3","setQ_scaled_wrong","setQtMQ_wrong"],"proved for all routines except: Q*M*Q^T in 3D (wrong sign, reads uninitialised memory), scaled SetQ and SetQtMQ (missing factors) — refuted by concrete witnesses, positive parts proved",L)
c("C64","proved",["rmBlock_symm","rmBlock_energy","rmBlock_spec","rmBlock_rigid3","rmBlock_rigid2"],"",L)
c("C65","partial",["h1Map_galerkin","elMap_galerkin_partial","elMap_center_wrong","elMap_ground_wrong"],"H1 proved for all meshes and maps; elasticity proved if the center of every aggregate is its first member and only first members have edges to the ground, refuted by concrete witnesses otherwise; one process","NgsAMG.MapData")
P="NgsAMG.SProl"
c("C66","proved",["edgeCM_spec"],"",P)
c("C67","proved",["sprol_graph","finRow_spec","finRow_threshold","graphRow_spec","collectRow_spec"],"one process; sp_max_per_row >= 1 (0 makes the code read before the start of an array)",P)
c("C68","proved",["sprol_preserves","sprol_constants","sprol_rigid3","sprol_rigid2"],"one process; for every relaxation, weights, regularisation and inverse",P)
def _add(p,ns,l): claims[[x["property"] for x in claims].index(p)]["theorems"] += [ns+"."+t for t in l]
_add("C62",L,["transports3","transports2"])
_add("C63",L,["products3","products2"])
_add("C64",L,["rmBlock_energy3","rmBlock_energy2"])
_add("C65","NgsAMG.MapData",["elMap_galerkin3_partial","elMap_galerkin2_partial"])
_add("C67",P,["dgWt_spec"])
RT="NgsAMG.RedTab"
c("C69","proved",["reduceTable_correct","reduceTable_no_deadlock","reduceTable_terminates","reduceTable_eqc","rows_agree","reduceRows_spec","unpack_flatten"],"messages of one pair with one tag do not overtake",RT)
c("C70","proved",["scatter_correct","scatter_no_deadlock","scattered_agree","rows_of_tables"],"",RT)
claims[-1]["theorems"] += ["NgsAMG.Exch.dfinal_state","NgsAMG.Exch.dno_deadlock","NgsAMG.Exch.dterminates","NgsAMG.Exch.dexists_final"]
BT="NgsAMG.BTM"
c("C71","proved",["setVs_correct","setVs_numbered","setVs_dummy","copies_agree","class_sizes","global_count","glob_eq_iff","setUp_exists"],"copies are assumed to be ordered alike on all processes (PD.WF)",BT)
c("C72","proved",["setEdges_correct","edgesNumbered","edges_agree","global_edges","classify_total","built_mesh","mesh_of_setup","vname_iff","mergeBy_correct","setEdgesDummy_correct"],"on every process the end points of a given edge are in ascending (new) order",BT)
ND="NgsAMG.Nodal"
c("C73","proved",["allreduce_correct","scatterNodal_correct","nodes_verts","nodes_edges","nodes_edges_run","combine_spec","reduceVals_sum","reduceVals_max","reduceVals_min"],"",ND)
c("C74","proved",["attached_history","attached_status","attached_total"],"data without parallel status is outside of the claim; every call is made by all processes",ND)
CM="NgsAMG.CMap"
c("C75","proved",["mapVerts_correct","mapVerts_total","mapVerts_some","mapVerts_same","mapVerts_copies","mapVerts_onto","mapVerts_count","mapVerts_count_global"],"the conditions on the agglomerates are those stated at agglomerate_map.cpp:109-117",CM)
c("C76","proved",["mapEdges_correct","mapEdges_tent","mapEdges_total","finish_ce","merged_ce","coarse_emesh","vmaps_of","setEdges_emesh","emesh_of_built","coarse_again"],"the hypotheses on the fine edges are shown for the result of C72 and for the result of this step itself (next level), those on the vertex map for C75",CM)
BG="NgsAMG.BlkGS"
c("C77","proved",["smoothImpl_correct","smoothRES_correct","smooth_correct","smoothImpl_frame","smoothImpl_fixed","smoothBack_adjoint","smooth_energy","smooth_energy_spd","smooth_energy_lt","mk_blocks","mk_seq","diagOf_none","diagOf_some","invOK_inv","invOK_pinv"],"dense inverse of a block is a parameter; residual version for symmetric matrices",BG)
c("C78","proved",["mk_par","extBlock_spec","run_progRHS","run_progRES","parSmooth_correct","parSmoothRES_correct","parSmooth_exists","parSmoothRES_exists","order_perm","back_order","parBack_adjoint","parSmooth_energy"],"ComputeColoring (NGSolve) is assumed to give sets of one color no common element; ParallelForRange and SharedLoop2 to finish a color before the next",BG)
claims[-1]["theorems"] += ["NgsAMG.Par.interleave","NgsAMG.Par.interleave_seq","NgsAMG.Par.seq_perm","NgsAMG.Par.exists_run"]
c("C79","partial",["parMultAdd_partial","multAdd_spec","multAdd_race"],"true for blocks that do not overlap; violated for overlapping blocks: all blocks run at the same time without colors, an update can be lost (multAdd_race)",BG)
c("C80","partial",["smooth2_correct_partial","smoothSimple_correct","smoothRESSimple_correct","smooth2_adjoint","smooth2_energy","setFrom_repr","mkLSm_grouped","pass_forward","pass_backward","multAddSys_apply","anotb_le","anotb_eq","alloc_enough","smooth2_res_wrong","smooth2_res_refuted","iterGroups_refuted","smoothGroups_backward","smoothGroups_refuted"],"violated in the code: without given residual the new one is computed with a matrix that counts a row once per block that contains it (smooth2_res_wrong, smooth2_res_refuted); SmoothGroups goes backward whatever is asked for (smoothGroups_backward, smoothGroups_refuted); backward over groups with non-consecutive numbers visits other groups or reads out of range (iterGroups_refuted); everything else holds",BG)
c("C81","partial",["smoothNO_correct_partial","smoothFB_eq","smoothSYMM_eq","smoothSYMMCR_eq","smoothCR_eq","mkLSm_no","mkLSm_no_md","smoothNO_zero_jacobi","smoothNO_zero_refuted","smoothNO_stale","smoothNO_back_refuted","smoothNO_trans_refuted"],"violated in the code: with one direction and a start vector said to be zero the first step is block Jacobi (smoothNO_zero_jacobi, smoothNO_zero_refuted); backward with residual uses the row of the first unknown for a whole block (smoothNO_back_refuted); residual updates do not transpose entries (smoothNO_trans_refuted); unknowns in no block are changed by uninitialised memory (smoothNO_stale); a given diagonal makes construction throw (mkLSm_no_md); everything else holds",BG)
c("C82","partial",["hybridBS_correct_partial","filterBlocks_eq","fblocks_eq","stageGroup_dofs","stageGroup_covers","mkHBS_ok","hybridBS_adjoint","hybridBS_symmLoc_selfadjoint","hybridBS_not_adjoint","hybridBS_refuted"],
  "Proved for every number of processes except two processes with process zero active: there the code does not filter the blocks (block_gssmoother.cpp:529 tests the wrong number of processes) and smooths shared unknowns before the data has been gathered (hybridBS_refuted). Adjointness is proved for at most one local step; for two local steps the backward sweep is not the adjoint of the forward sweep (hybridBS_not_adjoint).","NgsAMG.HybSm")
c("C83","partial",["dynSmooth_correct_partial","dynSmooth_order_irrelevant","dynSmooth_adjoint","dynSmooth_fixed","dynSmooth_frame","dynSmooth_energy","detOK_of_spd","rowClasses_unique","finalize_ok","mkDSm_ok","dynSmooth_empty_undefined"],
  "violated in the code for rows without entries when there are no free dofs and the residual is kept: the update multiplies a 0x0 matrix with the values of the row (dynSmooth_empty_undefined); everything else holds","NgsAMG.DynBlock")
_add("C19","NgsAMG.Hybrid",["decompose_pattern","PatternSpec.symm","PatternSpec.diag","decompose_run_pattern","split_exists"])
c("C84","partial",["hybridDyn_posDef_partial","hybridDyn_correct_partial","calcScalModDiag_correct","hybridDyn_adjoint","bsX_fixed","hybridDyn_convergence_refuted"],
  "violated in the code: the modified diagonal is computed per scalar unknown, so for blocks of more than one unknown the claimed convergence fails: one call more than doubles the energy of the error although all local blocks are inverted exactly (hybridDyn_convergence_refuted). Adjointness is for at most one local step. Not modelled: the constructor without ParallelDofs (dyn_block_smoother.cpp:678-692) and the overlap thread; products with M and G are those of C17. Everything else holds","NgsAMG.HybDyn")
c("C85","proved",["addF2C_correct","transferF2C_correct","transferC2F_correct","addC2F_correct","transfer_progress","f2c_spec","c2f_spec"],"hypothesis CtrOK: groups partition the processes, maps are consistent with global numbers (established by the callers)","NgsAMG.Ctr")
c("C86","proved",["assemble_correct","assembleMat_spec","asmRow_spec"],"QuickSortI is assumed to give a sorting permutation","NgsAMG.Ctr")
c("C87","partial",["swap_correct","swapped_ok","mid_WF","prol_commutes","restr_commutes","galerkin_commutes","swap_stale"],"violated in the code if the map was used before: SetUpMPIStuff returns early and the MPI types and buffers of the old numbering stay (swap_stale); everything else holds, for prolongations in which every coarse unknown is used","NgsAMG.Ctr")
c("C88","partial",["contract_correct","contracted_of","classes_eq","buildCEQCH_spec","buildVerts_spec","names_exist","contract_not_closed"],"violated in the code: the contracted classes need not be closed under intersection (contract_not_closed); an edge between vertices of two such classes gets the class NO_EQC, which is used as a row number. Everything else holds. Edges (grid_contract.cpp:506-860) are not modelled; identifiers are assumed to fit into int","NgsAMG.GCtr")
c("C89","proved",["partition_correct","procMap_spec"],"METIS itself is an arbitrary function into the parts; QuickSortI is assumed to give a sorting permutation","NgsAMG.GCtr")
c("C90","proved",["udofs_correct","udofs_order","namesVerts_wf","ctr_dofs_correct","mapNodeData_cumulated","mapNodeData_distributed"],"vertices only; MapNodeData for edges with annoy_nodes is not modelled","NgsAMG.GCtr")
c("C91","partial",["form_correct_partial","aggs_ok","grow_common","dirichlet_taken","fixed_twice","form_not_always"],"violated in the code: a hanging vertex whose only neighbour is Dirichlet takes the Dirichlet vertex into an agglomerate (dirichlet_taken), and one whose only neighbour is in a fixed agglomerate puts that vertex into two agglomerates (fixed_twice): the code forces a new agglomerate around the neighbour without testing whether it is marked. Everything else holds whenever there is no such vertex (HangOK). Strengths of connection and their order are arbitrary in the model","NgsAMG.MIS")
c("C92","partial",["pc_spd_partial","pc_all_smoothers","pc_w_refuted","pc_jacobi_refuted"],"violated in the code: with the W cycle (or the BS cycle) and block Gauss-Seidel with overlapping blocks the preconditioner is not symmetric, because the block smoother computes a wrong residual if none is given (pc_w_refuted, see C80); Jacobi with its fixed damping 0.9 can be indefinite (pc_jacobi_refuted). Everything else holds: V cycle with any blocks, all cycles with blocks that partition the unknowns or Gauss-Seidel, Jacobi under the usual condition. One process; coarse inverse and dense (pseudo) inverses by specification; at least two levels","NgsAMG.PC")
c("C93","proved",["mapVertsSV_correct","mapVertsSV_total","mapVertsSV_some","mapVertsSV_same","mapVertsSV_copies","mapVertsSV_onto","mapVertsSV_count","vmaps_of_sv"],"the conditions on the agglomerates (the comment at agglomerate_map.cpp:289-294; they are not checked by the code) are a hypothesis","NgsAMG.CMap")
c("C94","partial",["numbering_inverse","maps_range_single","maps_select_one","maps_range_multi_partial","maps_select_multi_partial","range_multi_hangs","select_multi_wrong"],"violated in the code: with several block sizes and a range that ends within a block the loop never ends (range_multi_hangs); with a bit array and two different block sizes at the end the last size is never used, so rows are overrun and degrees of freedom go to the wrong vertex (select_multi_wrong). Proved: one block size (ranges or bits), several block sizes for ranges that end behind whole blocks, several sizes for bits if the last two are equal. P2 orderings are not modelled","NgsAMG.DofM")
c("C95","partial",["maps_renumbered","maps_renumbered_arr","free_verts_correct","edges_correct","vert_dps_correct","setUp_of_dofs","edges_total","alg_mesh_correct","eqch_select","eqch_range_partial","eqch_range_hangs","edges_twice","edges_none"],"violated in the code: with ranges all degrees of freedom in front of the end of the last range are used for the hierarchy, so that processes can have different classes and the set-up waits forever (eqch_range_hangs); rows without diagonal entry give edges twice (edges_twice), and a matrix that stores the lower triangle only gives no edges (edges_none). Everything else holds for matrices with symmetric sorted pattern and diagonal entries","NgsAMG.DofM")
c("C96","partial",["embedding_scal","embedding_disp","embedding_block","embedding_all","embedding_maps","embedding_galerkin","project_partial","project_subset_wrong","p2_sequential","p2_parallel_wrong","p2_refuted"],"violated in the code: with constrained components and a subset of the degrees of freedom the loop that sets rows to zero runs over the wrong rows (project_subset_wrong); with quadratic elements in parallel the vertices are renumbered twice (p2_parallel_wrong, p2_refuted). Everything else holds; the values of the edges of quadratic elements are not modelled","NgsAMG.DofM")

c("C97","partial",["setUp_total","setUp_unique","levels_ok","levels_from","level_limit","same_levels","why_end","LevelsOK.length_le","fac_values","groups_fewer","seq_reached","slow_gives_up","limit_ignored","slow_not_redistributed","two_stay_two","seq_ignored"],"violated in the code: max_levels = 1 is ignored (limit_ignored); coarsening slower than rd_crs_thresh ends the set-up instead of leading to redistribution (slow_gives_up, slow_not_redistributed); two active processes can be contracted into two groups (two_stay_two); a mesh below rd_seq_nv stays distributed if the limit per process is not reached (seq_ignored). Everything else holds, the last two claims under the conditions in groups_fewer and seq_reached. Coarsening and contraction are arbitrary; that all processes get the same global numbers and contraction keeps the nodes is a hypothesis (C75, C88)","NgsAMG.LC")

c("C98","partial",["split_closed","split_total","simpleLoops_ends","simpleLoops_correct","rotate_correct","rotate_unique_partial","coarseLoops_correct_partial","gathered","convert_correct","buckets_correct","split_overruns","open_invents","open_loses","rotate_not_unique","duplicate_stays"],"violated in the code: SplitChunk writes behind the end of its help array (split_overruns); the direction of a loop depends on whether its list begins at the smallest vertex, so duplicates stay (rotate_not_unique, duplicate_stays; otherwise they are found: rotate_unique_partial); open walks through a vertex twice lose edges or get edges that do not exist (open_loses, open_invents). Everything else holds for closed walks; the order of the processes is arbitrary. The exchange of the edges is not modelled here","NgsAMG.Loop")

c("C99","partial",["addLoops_correct","gather_correct","coarse_tables_partial","tables_break","tables_hang"],"violated in the code: duplicate coarse loops are removed by each process on its own; if a coarse loop comes from a fine loop shared by processes 0 and 1 and from one shared by 0 and 2, process 2 still lists process 0 for a loop it has removed, and AddOrientedLoops then receives a message of the wrong size (tables_break) or waits forever (tables_hang). Proved: AddOrientedLoops for all right tables, the gathering of the loops without restriction, and everything together if duplicates come from fine loops shared by the same processes (coarse_tables_partial)","NgsAMG.LTab")

c("C100","proved",["dofed_correct","ncDiv_correct","curlT_wf","unit_flow","div_curl_local","div_curl_zero","div_curl_product","convert_once","dofToEdge_correct","dofToEdge_total","hDiv_correct","hdiv_curl_local","hdiv_curl_zero","curl_twice","curl_twice_div","hdiv_shared"],"doubles are a field. A loop over an edge twice would get a row with values never set (curl_twice, curl_twice_div); in the H(div) discretization edges shared by processes are counted on each of them, so that the sum over the processes does not vanish (hdiv_shared; the source says TODO: MPI). That every step of a loop is on exactly one process a degree of freedom it is master of is a hypothesis of div_curl_zero","NgsAMG.Curl")

c("C101","partial",["div_const","div_free","div_outflow","exterior_val","const_preserved","prol_total","flow_ok","vol_sum","div_shift","zero_vol_not_const","zero_vol_singular","single_real","single_real_wrong","diri_mapped","vol_reset"],"violated in the code: vertices of volume zero (which the mapping of the loops creates) shift the weights of the constant pressure, so that the divergence is not constant (div_shift, zero_vol_not_const), or make the local problem singular (zero_vol_singular), or scale the flow of a single vertex of positive volume by that volume (single_real, single_real_wrong), and reset the coarse volume if visited last (vol_reset); a Dirichlet edge mapped to a coarse edge is written out of range (diri_mapped). Proved for positive volumes and agglomerates with an edge inside; that the local matrices are regular is a hypothesis of prol_total only; one process with ghosts, flows of the coarse edges are summed up on one process and the cut-off 1e-12 must not hit other values than zero (flow_ok)","NgsAMG.NCProl")
c("C102","proved",["computePW_rep","computePW_orth","computePW_exact","computePWZF_rep","computePWZF_flow","special_flow","block_spec","fill_total","preserved","flows","no_flow","dofToEdge_correct"],"exact real arithmetic; preserved is for the block read back from the buffer and the coarse vector as numbered by MeshDOFs; Done is what the loops leave (fill_total: they do). Edges with only fine edges without flow divide by zero as soon as there is a second column (no_flow), which is outside the statement. In the retry branch the new column is divided by the norm before the second orthogonalization (only with rounding errors is that branch left with a different norm). One process","NgsAMG.Pres")

c("C103","partial",["edge_flow","agg_flow","div_eq","div_const","div_map_data","div_wrong","zero_vol_last","orthogonal","minimal","reproduces","reproduces_const","preserved_cross","preserved_exact","prol_total"],"violated in the code if volumes of coarse vertices are not the sums of the fine ones (map_data resets them for vertices of volume zero): no coarse field with outflow gets constant divergence (div_wrong, the exact value is div_eq), or the row is divided by zero (zero_vol_last). Proved if they are; agglomerates of several vertices need an edge inside and must not be ghosts, all coarse edges around them must have degrees of freedom. The matrix rows inside must only have columns at the agglomerate (LocalMat) for the statements on the energy. That the local matrices are regular is a hypothesis of prol_total only. One process with its ghosts; facets of coarse edges are taken in the order of GetMapC2F","NgsAMG.HProl")

c("C104","partial",["summary_written","local_partial","file_hang","local_wrong","file_incomplete"],"violated in the code: PrintToFile calls PrintLog, and with it the collective operations of Finalize, on process zero only, so with log_file and local information every execution on several processes hangs (file_hang); the maximum of the local complexities is commented out, so the lines name process zero with its complexity (local_partial, local_wrong); with log_file four lines go to the console (file_incomplete). Proved: everything else, for all schedules. Entries of the finest level are positive (otherwise the code divides by zero); the other collective operations of the setup are C97","NgsAMG.SLog")

c("C105","proved",["sort_total","one_boundary","closed_walk","connected_one","cycle_sorted","localLoop_closed","localLoop_even","reduceLoops_closed","decode_boundary","shared_divergence_free","eight_exception","open_unsorted"],"simple means that every vertex has two of the edges or none: a loop that passes a vertex twice can be rejected or not, depending on the order (eight_exception), and an open loop is not always left in the order of a walk (open_unsorted). decode_boundary needs the neighbors of the vertex in the loop to be known to the process. Which facets are in a loop (makeFacetLoop2D/3D, NGSolve mesh) is input; the LocalHeap is large enough","NgsAMG.LSort")

c("C106","proved",["facetLoops_correct","facetLoops_no_deadlock","facetLoops_terminates","decoded_divergence_free"],"hypotheses (Setting): all processes of a loop have a row for it and common loops in the same order, facets have edges, the loops (shared ones with all parts) are simple and closed; loops that are not can be rejected by an exception (C105, eight_exception) and are not covered. Which facets are in the loops is input (C108)","NgsAMG.LSort")

c("C107","partial",["maps_definedon","maps_everywhere","maps_facets","facets_agree","isFacetRel_iff_first_partial","isFacetRel_all_partial","isFacetRel_local_partial","isFacetRel_irrelevant","isFacetRel_disagree","isFacetRel_refuted"],"violated in the code for IsFacetRel: the update of the bits with the reduced data sets bit k for k below the number of relevant facets instead of bit R2A_Facet(k), so facets of no element the space is defined on can be marked (isFacetRel_irrelevant), and facets that are relevant because of an element of another process are not (isFacetRel_disagree). It is right exactly if the relevant facets are the first ones (isFacetRel_iff_first_partial), in particular if all are. Everything else is proved. The result of AllReduceNodalData (NGSolve) is given by global names of the nodes","NgsAMG.FAux")

c("C108","partial",["produceLoop_correct","master_exists","facet_once","facet_only","facet_once_partial","facet_lost","test_out_of_range"],"proved for any marks of relevant facets on which the processes agree (facet_once), in particular for those of the code if all facets are relevant (facet_once_partial). Violated in the code with the wrong marks of C107 for spaces defined on a part of the mesh: a relevant free facet can be in no loop of any process (facet_lost), and the bit -1 of the free degrees of freedom is tested for facets that are marked by mistake (test_out_of_range). The mesh (NGSolve) with consistent global names is given; free facets are the same on all processes","NgsAMG.FLoop")

c("C109","partial",["freeLoops_iff","freeLoops_small_partial","freeLoops_agree","freeVerts_iff","freeVerts_agree","freeVerts_small_partial","freeEdges_iff","open_loop_free","touching_loops_refuted","two_disagree","interior_vertex_dropped"],"proved: what is free, exactly, and that more than two processes agree. Violated in the code: only loops without any free facet are set to Dirichlet, not those that touch a Dirichlet boundary (open_loop_free, touching_loops_refuted: the row is no closed loop and its flow has divergence in elements); on two processes nothing is reduced (two_disagree; harmless as long as the first process has no elements); with Dirichlet conditions on facets between two elements the vertex of one of them is not free (interior_vertex_dropped). Edges known on a process without their facet are not reduced (TODO in the source) and stay free. Results of the reductions are given by global names","NgsAMG.FreeN")

c("C110","partial",["loopBlocks_correct","loopBlocks_together","cover_partial","inner_loops_lost","no_blocks_no_smoothing","cover_refuted","gsBlocks_correct","gsBlocks_partition","edgeBlocks_correct","finestBlocks_correct","finestBlocks_cover"],"violated in the code for LoopBlocks: if all blocks have one loop it returns an empty table (\"blocks not needed\"), but the caller builds the block smoother from it, which then does nothing (inner_loops_lost, no_blocks_no_smoothing, cover_refuted: all elements become one coarse vertex). Everything else is proved; every loop is in a block if two loops have a common coarse edge (cover_partial). Coarse map, loops and the lists of degrees of freedom are input; loops that are not free are in the blocks, too","NgsAMG.GSB")

c("C111","proved",["convRow_correct","convert_wf","convert_entries","convert_mult","convFree_correct","convDps_correct","convert_inverse"],"the inverse itself (NGSolve, direct solvers) is not modelled; floating point numbers are real numbers; the matrix is square, and there is one bit for each unknown","NgsAMG.BS3")

c("C112","partial",["algMaps_correct","algParents_correct","p2Maps_result","p2Maps_partial","p2Maps_refuted","buildED_rows","p2Embedding_result","p2Embedding_partial","p2Embedding_refuted"],"violated in the code: (1) P2_ORDERING writes the number of the vertex, not its degree of freedom, to v2d_array (amg_pc_vertex_impl.hpp:301; p2Maps_refuted, right only if the used vertices have the first degrees of freedom 0, 1, ..: p2Maps_partial); (2) edgePointParents has the numbers of the vertices before the mesh renumbers them (vert_sort), and BuildED uses them as numbers of the mesh (p2Embedding_refuted; right when the mesh keeps the order: p2Embedding_partial; what is computed in general: p2Embedding_result). The rigid body maps are kept abstract (C62-C64)","NgsAMG.P2E")

c("C113","proved",["removeDups_correct","mapEntry_iff","allGnums_correct","loopMap_correct","contract_correct","contract_once","ghosts_correct","null_all_ghosts"],"the unpacked messages, the global numbers of the loops and the maps of the nodes are input; a member that has no array of ghost vertices at all counts as if all its vertices were ghosts (null_all_ghosts; elsewhere, stokes_mesh.hpp:109, a missing array means no ghosts, but all paths of the code set one); the maps of the edges with degrees of freedom are not modelled","NgsAMG.LCtr")

c("C114","proved",["sendData_spec","dofDps_correct","exchange_matches"],"two processes have the same shared edges in the same order (C71, C72), and they are in ascending order on each; ParallelDofs of NGSolve is modelled by what it exchanges: the degrees of freedom with the process in their row, ascending; ExchangePairWise by its result","NgsAMG.EDofs")
