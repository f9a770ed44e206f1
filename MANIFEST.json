{
 "claims": [
  {
   "property": "C01",
   "status": "proved",
   "theorems": [
    "NgsAMG.SortedArray.find_correct",
    "NgsAMG.SortedArray.indOfMax_correct",
    "NgsAMG.SortedArray.removeEntry_correct"
   ],
   "note": "bisection search, max search and removal in sorted arrays, out-of-range access is an explicit outcome"
  },
  {
   "property": "C02",
   "status": "proved",
   "theorems": [
    "NgsAMG.SortedArray.mergePos_correct",
    "NgsAMG.SortedArray.insertSorted_correct",
    "NgsAMG.SortedArray.insertUnique_correct",
    "NgsAMG.SortedArray.insertNodups_correct",
    "NgsAMG.SortedArray.insertAll_correct",
    "NgsAMG.SortedArray.insertAllMulti_correct"
   ],
   "note": "insertion and histories of insertions"
  },
  {
   "property": "C03",
   "status": "proved",
   "theorems": [
    "NgsAMG.Traversal.merge2_correct",
    "NgsAMG.Traversal.mergeAIntoB_correct",
    "NgsAMG.Traversal.mergeTable_correct",
    "NgsAMG.MergeArrays1.run_correct",
    "NgsAMG.MergeArrays1.run_sentinel_entry_ub",
    "NgsAMG.MergeArrays.run_correct",
    "NgsAMG.MergeArrays.run_overflow"
   ],
   "note": "two-way, table and k-way sentinel merge; the sentinel merge needs entries below the sentinel, shown to be necessary"
  },
  {
   "property": "C04",
   "status": "proved",
   "theorems": [
    "NgsAMG.Traversal.iterABC_correct",
    "NgsAMG.Traversal.iterInter_correct",
    "NgsAMG.Traversal.iterAC_correct",
    "NgsAMG.Traversal.iterANotB_correct",
    "NgsAMG.Traversal.setMinus_correct",
    "NgsAMG.Traversal.isIntersectEmpty_correct",
    "NgsAMG.Traversal.intersectSorted_correct",
    "NgsAMG.Traversal.partitionAB_correct",
    "NgsAMG.Traversal.partitionAB_needs_subset"
   ],
   "note": "callback traces of all sorted-set traversals"
  },
  {
   "property": "C05",
   "status": "proved",
   "theorems": [
    "NgsAMG.Traversal.posSorted_correct",
    "NgsAMG.Traversal.posSorted_needs_subset"
   ],
   "note": "subset precondition is necessary"
  },
  {
   "property": "C06",
   "status": "proved",
   "theorems": [
    "NgsAMG.Permutation.applyInPlace_correct",
    "NgsAMG.Permutation.applyAndKeep_correct",
    "NgsAMG.Permutation.applyBuffered_correct",
    "NgsAMG.Permutation.invertPermutation_correct",
    "NgsAMG.Permutation.applyInPlace_needs_perm"
   ],
   "note": ""
  },
  {
   "property": "C07",
   "status": "partial",
   "theorems": [
    "NgsAMG.Orders.lexSmaller_iff",
    "NgsAMG.Orders.lexSmaller_strictTotal",
    "NgsAMG.Orders.lt2_strictTotal",
    "NgsAMG.Orders.lt3_strictTotal",
    "NgsAMG.Orders.lt4_undefined",
    "NgsAMG.Orders.lt5_not_antisymm",
    "NgsAMG.Orders.lt5_not_strictTotal",
    "NgsAMG.Orders.lt5_partial"
   ],
   "note": "true for arrays, pairs, triples; the 4- and 5-tuple operators violate the property, shown by witnesses"
  },
  {
   "property": "C08",
   "status": "partial",
   "theorems": [
    "NgsAMG.Options.getOpt_correct",
    "NgsAMG.Options.move_assign_getOpt",
    "NgsAMG.Options.copy_getOpt_partial",
    "NgsAMG.Options.copy_getOpt_wrong",
    "NgsAMG.Options.copy_not_correct",
    "NgsAMG.Options.setFromFlagsEnum_correct",
    "NgsAMG.Options.setFromFlagsBool_correct",
    "NgsAMG.Options.setEnumOpt_correct"
   ],
   "note": "lookup and move proved; the copy constructor drops the default, counterexample proved"
  },
  {
   "property": "C09",
   "status": "partial",
   "theorems": [
    "NgsAMG.Options.orAssign_getOpt_partial",
    "NgsAMG.Options.orAssign_not_correct",
    "NgsAMG.Options.orAssign_getOpt_neg"
   ],
   "note": "|= is wrong when the special values of the operands have different levels; witness and exact true part proved"
  },
  {
   "property": "C10",
   "status": "proved",
   "theorems": [
    "NgsAMG.SparseMM.transpose_correct",
    "NgsAMG.SparseMM.transpose_transpose"
   ],
   "note": "all block sizes, any commutative ring of scalars"
  },
  {
   "property": "C100",
   "status": "proved",
   "theorems": [
    "NgsAMG.Curl.dofed_correct",
    "NgsAMG.Curl.ncDiv_correct",
    "NgsAMG.Curl.curlT_wf",
    "NgsAMG.Curl.unit_flow",
    "NgsAMG.Curl.div_curl_local",
    "NgsAMG.Curl.div_curl_zero",
    "NgsAMG.Curl.div_curl_product",
    "NgsAMG.Curl.convert_once",
    "NgsAMG.Curl.dofToEdge_correct",
    "NgsAMG.Curl.dofToEdge_total",
    "NgsAMG.Curl.hDiv_correct",
    "NgsAMG.Curl.hdiv_curl_local",
    "NgsAMG.Curl.hdiv_curl_zero",
    "NgsAMG.Curl.curl_twice",
    "NgsAMG.Curl.curl_twice_div",
    "NgsAMG.Curl.hdiv_shared"
   ],
   "note": "doubles are a field. A loop over an edge twice would get a row with values never set (curl_twice, curl_twice_div); in the H(div) discretization edges shared by processes are counted on each of them, so that the sum over the processes does not vanish (hdiv_shared; the source says TODO: MPI). That every step of a loop is on exactly one process a degree of freedom it is master of is a hypothesis of div_curl_zero"
  },
  {
   "property": "C101",
   "status": "partial",
   "theorems": [
    "NgsAMG.NCProl.div_const",
    "NgsAMG.NCProl.div_free",
    "NgsAMG.NCProl.div_outflow",
    "NgsAMG.NCProl.exterior_val",
    "NgsAMG.NCProl.const_preserved",
    "NgsAMG.NCProl.prol_total",
    "NgsAMG.NCProl.flow_ok",
    "NgsAMG.NCProl.vol_sum",
    "NgsAMG.NCProl.div_shift",
    "NgsAMG.NCProl.zero_vol_not_const",
    "NgsAMG.NCProl.zero_vol_singular",
    "NgsAMG.NCProl.single_real",
    "NgsAMG.NCProl.single_real_wrong",
    "NgsAMG.NCProl.diri_mapped",
    "NgsAMG.NCProl.vol_reset"
   ],
   "note": "violated in the code: vertices of volume zero (which the mapping of the loops creates) shift the weights of the constant pressure, so that the divergence is not constant (div_shift, zero_vol_not_const), or make the local problem singular (zero_vol_singular), or scale the flow of a single vertex of positive volume by that volume (single_real, single_real_wrong), and reset the coarse volume if visited last (vol_reset); a Dirichlet edge mapped to a coarse edge is written out of range (diri_mapped). Proved for positive volumes and agglomerates with an edge inside; that the local matrices are regular is a hypothesis of prol_total only; one process with ghosts, flows of the coarse edges are summed up on one process and the cut-off 1e-12 must not hit other values than zero (flow_ok)"
  },
  {
   "property": "C102",
   "status": "proved",
   "theorems": [
    "NgsAMG.Pres.computePW_rep",
    "NgsAMG.Pres.computePW_orth",
    "NgsAMG.Pres.computePW_exact",
    "NgsAMG.Pres.computePWZF_rep",
    "NgsAMG.Pres.computePWZF_flow",
    "NgsAMG.Pres.special_flow",
    "NgsAMG.Pres.block_spec",
    "NgsAMG.Pres.fill_total",
    "NgsAMG.Pres.preserved",
    "NgsAMG.Pres.flows",
    "NgsAMG.Pres.no_flow",
    "NgsAMG.Pres.dofToEdge_correct"
   ],
   "note": "exact real arithmetic; preserved is for the block read back from the buffer and the coarse vector as numbered by MeshDOFs; Done is what the loops leave (fill_total: they do). Edges with only fine edges without flow divide by zero as soon as there is a second column (no_flow), which is outside the statement. In the retry branch the new column is divided by the norm before the second orthogonalization (only with rounding errors is that branch left with a different norm). One process"
  },
  {
   "property": "C103",
   "status": "partial",
   "theorems": [
    "NgsAMG.HProl.edge_flow",
    "NgsAMG.HProl.agg_flow",
    "NgsAMG.HProl.div_eq",
    "NgsAMG.HProl.div_const",
    "NgsAMG.HProl.div_map_data",
    "NgsAMG.HProl.div_wrong",
    "NgsAMG.HProl.zero_vol_last",
    "NgsAMG.HProl.orthogonal",
    "NgsAMG.HProl.minimal",
    "NgsAMG.HProl.reproduces",
    "NgsAMG.HProl.reproduces_const",
    "NgsAMG.HProl.preserved_cross",
    "NgsAMG.HProl.preserved_exact",
    "NgsAMG.HProl.prol_total"
   ],
   "note": "violated in the code if volumes of coarse vertices are not the sums of the fine ones (map_data resets them for vertices of volume zero): no coarse field with outflow gets constant divergence (div_wrong, the exact value is div_eq), or the row is divided by zero (zero_vol_last). Proved if they are; agglomerates of several vertices need an edge inside and must not be ghosts, all coarse edges around them must have degrees of freedom. The matrix rows inside must only have columns at the agglomerate (LocalMat) for the statements on the energy. That the local matrices are regular is a hypothesis of prol_total only. One process with its ghosts; facets of coarse edges are taken in the order of GetMapC2F"
  },
  {
   "property": "C104",
   "status": "partial",
   "theorems": [
    "NgsAMG.SLog.summary_written",
    "NgsAMG.SLog.local_partial",
    "NgsAMG.SLog.file_hang",
    "NgsAMG.SLog.local_wrong",
    "NgsAMG.SLog.file_incomplete"
   ],
   "note": "violated in the code: PrintToFile calls PrintLog, and with it the collective operations of Finalize, on process zero only, so with log_file and local information every execution on several processes hangs (file_hang); the maximum of the local complexities is commented out, so the lines name process zero with its complexity (local_partial, local_wrong); with log_file four lines go to the console (file_incomplete). Proved: everything else, for all schedules. Entries of the finest level are positive (otherwise the code divides by zero); the other collective operations of the setup are C97"
  },
  {
   "property": "C105",
   "status": "proved",
   "theorems": [
    "NgsAMG.LSort.sort_total",
    "NgsAMG.LSort.one_boundary",
    "NgsAMG.LSort.closed_walk",
    "NgsAMG.LSort.connected_one",
    "NgsAMG.LSort.cycle_sorted",
    "NgsAMG.LSort.localLoop_closed",
    "NgsAMG.LSort.localLoop_even",
    "NgsAMG.LSort.reduceLoops_closed",
    "NgsAMG.LSort.decode_boundary",
    "NgsAMG.LSort.shared_divergence_free",
    "NgsAMG.LSort.eight_exception",
    "NgsAMG.LSort.open_unsorted"
   ],
   "note": "simple means that every vertex has two of the edges or none: a loop that passes a vertex twice can be rejected or not, depending on the order (eight_exception), and an open loop is not always left in the order of a walk (open_unsorted). decode_boundary needs the neighbors of the vertex in the loop to be known to the process. Which facets are in a loop (makeFacetLoop2D/3D, NGSolve mesh) is input; the LocalHeap is large enough"
  },
  {
   "property": "C106",
   "status": "proved",
   "theorems": [
    "NgsAMG.LSort.facetLoops_correct",
    "NgsAMG.LSort.facetLoops_no_deadlock",
    "NgsAMG.LSort.facetLoops_terminates",
    "NgsAMG.LSort.decoded_divergence_free"
   ],
   "note": "hypotheses (Setting): all processes of a loop have a row for it and common loops in the same order, facets have edges, the loops (shared ones with all parts) are simple and closed; loops that are not can be rejected by an exception (C105, eight_exception) and are not covered. Which facets are in the loops is input (C108)"
  },
  {
   "property": "C107",
   "status": "partial",
   "theorems": [
    "NgsAMG.FAux.maps_definedon",
    "NgsAMG.FAux.maps_everywhere",
    "NgsAMG.FAux.maps_facets",
    "NgsAMG.FAux.facets_agree",
    "NgsAMG.FAux.isFacetRel_iff_first_partial",
    "NgsAMG.FAux.isFacetRel_all_partial",
    "NgsAMG.FAux.isFacetRel_local_partial",
    "NgsAMG.FAux.isFacetRel_irrelevant",
    "NgsAMG.FAux.isFacetRel_disagree",
    "NgsAMG.FAux.isFacetRel_refuted"
   ],
   "note": "violated in the code for IsFacetRel: the update of the bits with the reduced data sets bit k for k below the number of relevant facets instead of bit R2A_Facet(k), so facets of no element the space is defined on can be marked (isFacetRel_irrelevant), and facets that are relevant because of an element of another process are not (isFacetRel_disagree). It is right exactly if the relevant facets are the first ones (isFacetRel_iff_first_partial), in particular if all are. Everything else is proved. The result of AllReduceNodalData (NGSolve) is given by global names of the nodes"
  },
  {
   "property": "C108",
   "status": "partial",
   "theorems": [
    "NgsAMG.FLoop.produceLoop_correct",
    "NgsAMG.FLoop.master_exists",
    "NgsAMG.FLoop.facet_once",
    "NgsAMG.FLoop.facet_only",
    "NgsAMG.FLoop.facet_once_partial",
    "NgsAMG.FLoop.facet_lost",
    "NgsAMG.FLoop.test_out_of_range"
   ],
   "note": "proved for any marks of relevant facets on which the processes agree (facet_once), in particular for those of the code if all facets are relevant (facet_once_partial). Violated in the code with the wrong marks of C107 for spaces defined on a part of the mesh: a relevant free facet can be in no loop of any process (facet_lost), and the bit -1 of the free degrees of freedom is tested for facets that are marked by mistake (test_out_of_range). The mesh (NGSolve) with consistent global names is given; free facets are the same on all processes"
  },
  {
   "property": "C109",
   "status": "partial",
   "theorems": [
    "NgsAMG.FreeN.freeLoops_iff",
    "NgsAMG.FreeN.freeLoops_small_partial",
    "NgsAMG.FreeN.freeLoops_agree",
    "NgsAMG.FreeN.freeVerts_iff",
    "NgsAMG.FreeN.freeVerts_agree",
    "NgsAMG.FreeN.freeVerts_small_partial",
    "NgsAMG.FreeN.freeEdges_iff",
    "NgsAMG.FreeN.open_loop_free",
    "NgsAMG.FreeN.touching_loops_refuted",
    "NgsAMG.FreeN.two_disagree",
    "NgsAMG.FreeN.interior_vertex_dropped"
   ],
   "note": "proved: what is free, exactly, and that more than two processes agree. Violated in the code: only loops without any free facet are set to Dirichlet, not those that touch a Dirichlet boundary (open_loop_free, touching_loops_refuted: the row is no closed loop and its flow has divergence in elements); on two processes nothing is reduced (two_disagree; harmless as long as the first process has no elements); with Dirichlet conditions on facets between two elements the vertex of one of them is not free (interior_vertex_dropped). Edges known on a process without their facet are not reduced (TODO in the source) and stay free. Results of the reductions are given by global names"
  },
  {
   "property": "C11",
   "status": "proved",
   "theorems": [
    "NgsAMG.SparseMM.matMultAB_correct",
    "NgsAMG.SparseMM.bucket_in_range"
   ],
   "note": "for at most 2^30 columns (beyond, the merge of more than 16 rows overflows int: NgsAMG.MergeArrays.run_overflow)"
  },
  {
   "property": "C110",
   "status": "partial",
   "theorems": [
    "NgsAMG.GSB.loopBlocks_correct",
    "NgsAMG.GSB.loopBlocks_together",
    "NgsAMG.GSB.cover_partial",
    "NgsAMG.GSB.inner_loops_lost",
    "NgsAMG.GSB.no_blocks_no_smoothing",
    "NgsAMG.GSB.cover_refuted",
    "NgsAMG.GSB.gsBlocks_correct",
    "NgsAMG.GSB.gsBlocks_partition",
    "NgsAMG.GSB.edgeBlocks_correct",
    "NgsAMG.GSB.finestBlocks_correct",
    "NgsAMG.GSB.finestBlocks_cover"
   ],
   "note": "violated in the code for LoopBlocks: if all blocks have one loop it returns an empty table (\"blocks not needed\"), but the caller builds the block smoother from it, which then does nothing (inner_loops_lost, no_blocks_no_smoothing, cover_refuted: all elements become one coarse vertex). Everything else is proved; every loop is in a block if two loops have a common coarse edge (cover_partial). Coarse map, loops and the lists of degrees of freedom are input; loops that are not free are in the blocks, too"
  },
  {
   "property": "C111",
   "status": "proved",
   "theorems": [
    "NgsAMG.BS3.convRow_correct",
    "NgsAMG.BS3.convert_wf",
    "NgsAMG.BS3.convert_entries",
    "NgsAMG.BS3.convert_mult",
    "NgsAMG.BS3.convFree_correct",
    "NgsAMG.BS3.convDps_correct",
    "NgsAMG.BS3.convert_inverse"
   ],
   "note": "the inverse itself (NGSolve, direct solvers) is not modelled; floating point numbers are real numbers; the matrix is square, and there is one bit for each unknown"
  },
  {
   "property": "C112",
   "status": "partial",
   "theorems": [
    "NgsAMG.P2E.algMaps_correct",
    "NgsAMG.P2E.algParents_correct",
    "NgsAMG.P2E.p2Maps_result",
    "NgsAMG.P2E.p2Maps_partial",
    "NgsAMG.P2E.p2Maps_refuted",
    "NgsAMG.P2E.buildED_rows",
    "NgsAMG.P2E.p2Embedding_result",
    "NgsAMG.P2E.p2Embedding_partial",
    "NgsAMG.P2E.p2Embedding_refuted"
   ],
   "note": "violated in the code: (1) P2_ORDERING writes the number of the vertex, not its degree of freedom, to v2d_array (amg_pc_vertex_impl.hpp:301; p2Maps_refuted, right only if the used vertices have the first degrees of freedom 0, 1, ..: p2Maps_partial); (2) edgePointParents has the numbers of the vertices before the mesh renumbers them (vert_sort), and BuildED uses them as numbers of the mesh (p2Embedding_refuted; right when the mesh keeps the order: p2Embedding_partial; what is computed in general: p2Embedding_result). The rigid body maps are kept abstract (C62-C64)"
  },
  {
   "property": "C113",
   "status": "proved",
   "theorems": [
    "NgsAMG.LCtr.removeDups_correct",
    "NgsAMG.LCtr.mapEntry_iff",
    "NgsAMG.LCtr.allGnums_correct",
    "NgsAMG.LCtr.loopMap_correct",
    "NgsAMG.LCtr.contract_correct",
    "NgsAMG.LCtr.contract_once",
    "NgsAMG.LCtr.ghosts_correct",
    "NgsAMG.LCtr.null_all_ghosts"
   ],
   "note": "the unpacked messages, the global numbers of the loops and the maps of the nodes are input; a member that has no array of ghost vertices at all counts as if all its vertices were ghosts (null_all_ghosts; elsewhere, stokes_mesh.hpp:109, a missing array means no ghosts, but all paths of the code set one); the maps of the edges with degrees of freedom are not modelled"
  },
  {
   "property": "C114",
   "status": "proved",
   "theorems": [
    "NgsAMG.EDofs.sendData_spec",
    "NgsAMG.EDofs.dofDps_correct",
    "NgsAMG.EDofs.exchange_matches"
   ],
   "note": "two processes have the same shared edges in the same order (C71, C72), and they are in ascending order on each; ParallelDofs of NGSolve is modelled by what it exchanges: the degrees of freedom with the process in their row, ascending; ExchangePairWise by its result"
  },
  {
   "property": "C12",
   "status": "proved",
   "theorems": [
    "NgsAMG.SparseMM.matMultABUpdate_correct",
    "NgsAMG.SparseMM.matMultABUpdate_missing"
   ],
   "note": "the condition on the graph is necessary: witness of silent corruption"
  },
  {
   "property": "C13",
   "status": "proved",
   "theorems": [
    "NgsAMG.SparseMM.restrictMatrix_correct",
    "NgsAMG.SparseMM.restrictMatrix_bilin",
    "NgsAMG.SparseMM.restrictMatrix_symm",
    "NgsAMG.SparseMM.restrictMatrix_psd"
   ],
   "note": ""
  },
  {
   "property": "C14",
   "status": "partial",
   "theorems": [
    "NgsAMG.SparseLA.sparseIdentity_wrong",
    "NgsAMG.SparseLA.sparseIdentity_not_wf",
    "NgsAMG.SparseLA.sparseIdentity_action"
   ],
   "note": "violated by the code for every size (constant column index 1, all entries of blocks set to 1): negation proved for all sizes"
  },
  {
   "property": "C15",
   "status": "partial",
   "theorems": [
    "NgsAMG.SparseLA.addMerge_same_graph",
    "NgsAMG.SparseLA.addMerge_wrong",
    "NgsAMG.SparseLA.addMerge_ub",
    "NgsAMG.SparseLA.addMerge_graph_partial",
    "NgsAMG.SparseLA.addMerge_disjoint_partial",
    "NgsAMG.SparseLA.addSPM_correct"
   ],
   "note": "violated by the code (values of B are not used, factors ignored): negation proved; graph of the sum and row-disjoint sums proved exact; the unused variant AddSPM is correct"
  },
  {
   "property": "C16",
   "status": "partial",
   "theorems": [
    "NgsAMG.SparseLA.compress_correct_partial",
    "NgsAMG.SparseLA.compress_error_partial",
    "NgsAMG.SparseLA.compress_drops_negative"
   ],
   "note": "exact for blocks and non-negative scalars; negative scalars are dropped (negation)"
  },
  {
   "property": "C17",
   "status": "proved",
   "theorems": [
    "NgsAMG.DynBlock.multiply_correct",
    "NgsAMG.DynBlock.mult_correct",
    "NgsAMG.DynBlock.multAdd_correct",
    "NgsAMG.DynBlock.default_correct",
    "NgsAMG.DynBlock.default_needs_symmetric",
    "NgsAMG.DynBlock.sortedBy_exists",
    "NgsAMG.DynBlock.lexiLess_order"
   ],
   "note": "The conversion (Finalize) and Mult/MultAdd, for every outcome of the unstable sort and every block-consistent pattern; the constructor that detects the blocks is covered for structurally symmetric patterns, and shown to leave its buffer without symmetry. MultTrans, MatMultAB of this format throw in the code and are not modelled."
  },
  {
   "property": "C18",
   "status": "proved",
   "theorems": [
    "NgsAMG.DCC.gather",
    "NgsAMG.DCC.scatter",
    "NgsAMG.DCC.gather_scatter",
    "NgsAMG.DCC.gather_scatter_progress",
    "NgsAMG.Exch.final_state",
    "NgsAMG.Exch.no_deadlock",
    "NgsAMG.Exch.terminates",
    "NgsAMG.Exch.exists_final"
   ],
   "note": "Gather, scatter and their sequence for vectors of status DISTRIBUTED, for every number of processes, sharing pattern and schedule (asynchronous processes, any interleaving), including absence of deadlock and of left-over messages."
  },
  {
   "property": "C19",
   "status": "proved",
   "theorems": [
    "NgsAMG.Hybrid.decompose_spec",
    "NgsAMG.Hybrid.decompose_correct",
    "NgsAMG.Hybrid.decompose_pattern",
    "NgsAMG.Hybrid.PatternSpec.symm",
    "NgsAMG.Hybrid.PatternSpec.diag",
    "NgsAMG.Hybrid.decompose_run_pattern",
    "NgsAMG.Hybrid.split_exists"
   ],
   "note": "all process counts, sharing patterns (as guaranteed by ParallelDofs), matrices and schedules; no symmetry needed; includes in-range accesses of the in-place column remapping and of the row counters"
  },
  {
   "property": "C20",
   "status": "partial",
   "theorems": [
    "NgsAMG.AMG.mult_correct",
    "NgsAMG.AMG.mult_history",
    "NgsAMG.AMG.cinv_correct",
    "NgsAMG.AMG.emb_mult_correct",
    "NgsAMG.AMG.mult_one_level_wrong",
    "NgsAMG.AMG.mult_one_level_W_ub",
    "NgsAMG.AMG.history_independent"
   ],
   "note": "holds for two or more levels, for V, W and BS cycles, CINV and the embedded operator; for a hierarchy with one level Mult leaves the output vector untouched (V, BS) or accesses a missing level (W): proved negation"
  },
  {
   "property": "C21",
   "status": "proved",
   "theorems": [
    "NgsAMG.AMG.smoothV_correct",
    "NgsAMG.AMG.smoothVFrom_correct",
    "NgsAMG.AMG.smoothW_correct",
    "NgsAMG.AMG.smoothBS_correct",
    "NgsAMG.AMG.mult_correct",
    "NgsAMG.AMG.emb_mult_correct"
   ],
   "note": "level loops refine the recursive cycles of Spec/Multigrid"
  },
  {
   "property": "C22",
   "status": "proved",
   "theorems": [
    "NgsAMG.AMG.cycles_linear",
    "NgsAMG.AMG.mult_spd"
   ],
   "note": "V, W and BS cycles"
  },
  {
   "property": "C23",
   "status": "proved",
   "theorems": [
    "NgsAMG.AMG.cycles_symmetric",
    "NgsAMG.AMG.mult_spd"
   ],
   "note": "V, W and BS cycles"
  },
  {
   "property": "C24",
   "status": "proved",
   "theorems": [
    "NgsAMG.AMG.vcycleFrom_energy",
    "NgsAMG.AMG.cycles_energy",
    "NgsAMG.AMG.mult_spd",
    "NgsAMG.AMG.good_of_exact",
    "NgsAMG.AMG.good_of_pinv"
   ],
   "note": "V, W and BS cycles, exact or pseudo-inverse coarse solver, V-cycle from any start vector"
  },
  {
   "property": "C25",
   "status": "partial",
   "theorems": [
    "NgsAMG.AMG.mult_correct",
    "NgsAMG.AMG.multAdd_correct",
    "NgsAMG.AMG.emb_multAdd_correct",
    "NgsAMG.AMG.mult_one_level_wrong",
    "NgsAMG.AMG.multAdd_one_level_wrong"
   ],
   "note": "two or more levels; negation for one level"
  },
  {
   "property": "C26",
   "status": "proved",
   "theorems": [
    "NgsAMG.DM.makeSingleStep2_behaves",
    "NgsAMG.DM.makeSingleStep3_behaves",
    "NgsAMG.DM.grouping_spec",
    "NgsAMG.DM.mapLevel_spec",
    "NgsAMG.DM.mapLevel_embDone_spec",
    "NgsAMG.DM.concStep_spec",
    "NgsAMG.DM.canConc_false",
    "NgsAMG.DM.makeSingleStep2_not_finalized",
    "NgsAMG.DM.makeSingleStep2_no_vecs"
   ],
   "note": "all chains and step classes, once finalized (as MapLevel does); a merged step that is used for restriction before Finalize dereferences null (proved, two witnesses)"
  },
  {
   "property": "C27",
   "status": "proved",
   "theorems": [
    "NgsAMG.DM.transferAtoB_down",
    "NgsAMG.DM.transferAtoB_up",
    "NgsAMG.DM.transferAtoB_via",
    "NgsAMG.DM.finalize_rejects",
    "NgsAMG.DM.finalize_empty_accepts",
    "NgsAMG.DM.assembleMatrices_spec",
    "NgsAMG.DM.wf_finalize",
    "NgsAMG.DM.concStep_merged_spec"
   ],
   "note": "an empty map cannot be finalized and keeps accepting steps (proved)"
  },
  {
   "property": "C28",
   "status": "partial",
   "theorems": [
    "NgsAMG.Sm.richardson_contract",
    "NgsAMG.Sm.proxy_contract",
    "NgsAMG.GS.smooth_contract",
    "NgsAMG.AMG.amgSmooth_contract",
    "NgsAMG.AMG.amgSmooth_single_ub"
   ],
   "note": "Richardson, proxy, Gauss-Seidel, multigrid as smoother; the single-fine-smoothing variant accesses missing levels on the second-coarsest level (proved)"
  },
  {
   "property": "C29",
   "status": "proved",
   "theorems": [
    "NgsAMG.Sm.smoothK_contract",
    "NgsAMG.Sm.smoothSymm_contract",
    "NgsAMG.Sm.proxy_contract",
    "NgsAMG.Sm.iterK_adjoint",
    "NgsAMG.Sm.iterK_symm_selfadjoint"
   ],
   "note": ""
  },
  {
   "property": "C30",
   "status": "partial",
   "theorems": [
    "NgsAMG.Sm.hmSmooth_contract",
    "NgsAMG.Sm.hmSmoothBack_contract_partial",
    "NgsAMG.Sm.hmSmoothBack_wrong",
    "NgsAMG.Sm.hmSmoothBack_not_contract",
    "NgsAMG.Sm.hm_adjoint"
   ],
   "note": "forward proved; backward violates the contract for x_zero and not res_updated without stored D^T A (witness); exact true part proved"
  },
  {
   "property": "C31",
   "status": "proved",
   "theorems": [
    "NgsAMG.GS.smoothRES_eq_smoothRHS",
    "NgsAMG.GS.smooth_contract"
   ],
   "note": "block entries of any size, any range/direction/free set"
  },
  {
   "property": "C32",
   "status": "proved",
   "theorems": [
    "NgsAMG.GS.smoothRHS_correct",
    "NgsAMG.GS.smooth_frame"
   ],
   "note": "sweep = textbook sweep over the explicit row list"
  },
  {
   "property": "C33",
   "status": "proved",
   "theorems": [
    "NgsAMG.GS.smooth_energy",
    "NgsAMG.GS.smooth_fixed",
    "NgsAMG.GS.diagOK_inv",
    "NgsAMG.GS.diagOK_of_pinv"
   ],
   "note": "exact and pseudo inverse diagonals"
  },
  {
   "property": "C34",
   "status": "proved",
   "theorems": [
    "NgsAMG.GS.smoothBack_adjoint",
    "NgsAMG.GS.smoothSymm_symmetric"
   ],
   "note": ""
  },
  {
   "property": "C35",
   "status": "partial",
   "theorems": [
    "NgsAMG.GS.gss4_eq_gss3_repl",
    "NgsAMG.GS.gss4_eq_gss3_own_partial",
    "NgsAMG.GS.gss4_own_diag_wrong"
   ],
   "note": "agreement proved with given diagonals (the only use inside the library) and for full subsets; with self-computed diagonals on a strict subset the code reads the wrong entry: counterexample proved"
  },
  {
   "property": "C36",
   "status": "partial",
   "theorems": [
    "NgsAMG.LS.solve_correct_partial",
    "NgsAMG.LS.solve_total",
    "NgsAMG.LS.neededSteps_wrong",
    "NgsAMG.LS.false_convergence",
    "NgsAMG.LS.solve_ub",
    "NgsAMG.LS.zero_error_not_converged"
   ],
   "note": "bookkeeping proved for initialised flags; violated by the code: steps off by one, false convergence for rtol <= 0, check flag never initialised (all proved)"
  },
  {
   "property": "C37",
   "status": "proved",
   "theorems": [
    "NgsAMG.LS.mult_pure",
    "NgsAMG.LS.multAdd_correct",
    "NgsAMG.LS.amgSolver_pure"
   ],
   "note": ""
  },
  {
   "property": "C38",
   "status": "proved",
   "theorems": [
    "NgsAMG.BG.executed_exactly_once",
    "NgsAMG.BG.executed_prefix",
    "NgsAMG.BG.no_deadlock",
    "NgsAMG.BG.runs_terminate",
    "NgsAMG.BG.start_start_drops"
   ],
   "note": "all interleavings and spurious wakeups; liveness: every run with finitely many spurious wakeups completes; awaiting before the next submission is necessary (witness)"
  },
  {
   "property": "C39",
   "status": "partial",
   "theorems": [
    "NgsAMG.BG.destroy_terminates_partial",
    "NgsAMG.BG.destroy_deadlock"
   ],
   "note": "the destructor can deadlock (lost wakeup), proved for every program of pairs; terminates if the worker already sleeps"
  },
  {
   "property": "C40",
   "status": "proved",
   "theorems": [
    "NgsAMG.HybSm.smooth_correct",
    "NgsAMG.HybSm.smooth_progress",
    "NgsAMG.HybSm.hybridGS_correct",
    "NgsAMG.HybSm.newX_gs",
    "NgsAMG.HybSm.gs_kernelsOK"
   ],
   "note": "for arbitrary kernels that keep to their stage, and end to end for the hybrid Gauss-Seidel smoother (textbook Gauss-Seidel with each process's block of the global operator); all flags, process counts, matrices, schedules; the overlap with a background thread is not part of this theorem"
  },
  {
   "property": "C41",
   "status": "proved",
   "theorems": [
    "NgsAMG.AMG.cycles_posdef",
    "NgsAMG.AMG.mult_spd"
   ],
   "note": ""
  },
  {
   "property": "C42",
   "status": "partial",
   "theorems": [
    "NgsAMG.SparseLA.toSparse_correct_partial",
    "NgsAMG.SparseLA.toSparse_sum_wrong",
    "NgsAMG.SparseLA.toSparse_scale",
    "NgsAMG.SparseLA.block2Sparse_wrong",
    "NgsAMG.SparseLA.toSparse_sum_ident_not_square",
    "NgsAMG.SparseLA.toSparse_sum_ident_square"
   ],
   "note": "proved for products, transposes, embeddings, identity factors; sums and block matrices are wrong, scaled matrices throw (proved)"
  },
  {
   "property": "C43",
   "status": "proved",
   "theorems": [
    "NgsAMG.SparseLA.permutationMatrix_action",
    "NgsAMG.SparseLA.permutationMatrix_wf",
    "NgsAMG.SparseLA.permutationMatrix_entry",
    "NgsAMG.SparseLA.permutationMatrix_orthogonal"
   ],
   "note": ""
  },
  {
   "property": "C44",
   "status": "proved",
   "theorems": [
    "NgsAMG.SparseLA.embed_correct",
    "NgsAMG.SparseLA.embed_ub"
   ],
   "note": ""
  },
  {
   "property": "C45",
   "status": "partial",
   "theorems": [
    "NgsAMG.SparseLA.zeroBlocks_correct",
    "NgsAMG.SparseLA.restrictToBlocks_correct_partial",
    "NgsAMG.SparseLA.compress_drops_negative"
   ],
   "note": "for scalar matrices with negative entries the final compression drops them"
  },
  {
   "property": "C46",
   "status": "partial",
   "theorems": [
    "NgsAMG.DCC.gather_cumulated_wrong",
    "NgsAMG.DCC.gather_cumulated_partial"
   ],
   "note": "refuted for the code: StartDIS2CO sets the status to DISTRIBUTED without communicating, and ApplyDIS2CO then adds the stale receive buffer; true when that buffer is zero"
  },
  {
   "property": "C47",
   "status": "partial",
   "theorems": [
    "NgsAMG.HybSm.residual_cumulated_wrong",
    "NgsAMG.HybSm.smooth_cumulated"
   ],
   "note": "refuted for the code: the copies on other processes keep the start residual, so it counts once per copy (exact error proved for all runs, concrete run as witness)"
  },
  {
   "property": "C48",
   "status": "proved",
   "theorems": [
    "NgsAMG.HybMat.multAdd_correct",
    "NgsAMG.HybMat.multTransAdd_correct",
    "NgsAMG.HybMat.mult_correct",
    "NgsAMG.HybMat.constructed_mult",
    "NgsAMG.HybMat.gZero_agrees"
   ],
   "note": "all process counts, sharing patterns, matrices, vectors, schedules"
  },
  {
   "property": "C49",
   "status": "partial",
   "theorems": [
    "NgsAMG.HybMat.serial_constructor_undefined",
    "NgsAMG.HybMat.count_allRows",
    "NgsAMG.HybMat.hybridBS_settings",
    "NgsAMG.HybMat.hybridGS_steps_ignored",
    "NgsAMG.HybMat.hybridGS_result_ignores_steps",
    "NgsAMG.HybMat.hybridGS_steps_wrong",
    "NgsAMG.HybMat.hybridDI_overlap_ignored"
   ],
   "note": "refuted for the code: HybridGSSmoother passes its arguments in the wrong order (number of steps ignored), HybridDISmoother always overlaps; HybridBS is right"
  },
  {
   "property": "C50",
   "status": "proved",
   "theorems": [
    "NgsAMG.AR.allReduce_correct",
    "NgsAMG.AR.allReduce_same",
    "NgsAMG.AR.allReduce_sum",
    "NgsAMG.AR.allReduce_progress"
   ],
   "note": ""
  },
  {
   "property": "C51",
   "status": "partial",
   "theorems": [
    "NgsAMG.HybSm.hybridGS_adjoint",
    "NgsAMG.HybSm.hybridGS_symmLoc_selfadjoint",
    "NgsAMG.HybSm.hybridGS_symmLoc_not_adjoint"
   ],
   "note": "proved for all settings without symm_loc; with symm_loc both directions are self-adjoint but not adjoint to each other (refuted on a concrete witness)"
  },
  {
   "property": "C52",
   "status": "partial",
   "theorems": [
    "NgsAMG.ModDiag.calcModDiag_correct",
    "NgsAMG.ModDiag.calcModDiag_progress",
    "NgsAMG.ModDiag.hybridGS_energy_scalar",
    "NgsAMG.ModDiag.energy_le",
    "NgsAMG.ModDiag.hybridGS_energy_blocks_wrong"
   ],
   "note": "proved for scalar matrices (and for blocks whose diagonal is dominated by the block, energy_le); refuted for general blocks by a concrete SPD matrix on three processes; without symm_loc"
  },
  {
   "property": "C53",
   "status": "proved",
   "theorems": [
    "NgsAMG.SPW.aggregates_partition",
    "NgsAMG.SPW.pairing_spec",
    "NgsAMG.SPW.joining_spec",
    "NgsAMG.SPW.findNeib_spec",
    "NgsAMG.SPW.findNeib_strongest"
   ],
   "note": ""
  },
  {
   "property": "C54",
   "status": "partial",
   "theorems": [
    "NgsAMG.SPW.coarse_adjacency",
    "NgsAMG.SPW.edgeMap_spec",
    "NgsAMG.SPW.coarseEdges_nodup",
    "NgsAMG.SPW.coarse_edge_duplicated"
   ],
   "note": "quotient graph and edge map proved; edges are unique if no aggregate with one vertex has two neighbours in another aggregate, otherwise refuted by a concrete witness (parallel edges)"
  },
  {
   "property": "C55",
   "status": "partial",
   "theorems": [
    "NgsAMG.SPW.aggregates_connected",
    "NgsAMG.SPW.locked_edges_no_effect",
    "NgsAMG.SPW.locked_edges_ignored"
   ],
   "note": "connectedness and size proved; locked edges are ignored by the pairwise algorithm (refuted for the code)"
  },
  {
   "property": "C56",
   "status": "partial",
   "theorems": [
    "NgsAMG.SPW.aggregates_eqc",
    "NgsAMG.SPW.orphan_round_breaks_eqc"
   ],
   "note": "proved without orphan round; with orphan round refuted by a concrete witness"
  },
  {
   "property": "C57",
   "status": "proved",
   "theorems": [
    "NgsAMG.EQC.closedTable_spec",
    "NgsAMG.EQC.unionLoop_spec",
    "NgsAMG.EQC.interLoop_spec",
    "NgsAMG.EQC.exchange_spec",
    "NgsAMG.EQC.famOK_length"
   ],
   "note": "given classes assumed consistent between the processes (proved for the constructors, C60)"
  },
  {
   "property": "C58",
   "status": "proved",
   "theorems": [
    "NgsAMG.EQC.setup_closed",
    "NgsAMG.EQC.setup_plain",
    "NgsAMG.EQC.gid_inj",
    "NgsAMG.EQC.assign_spec",
    "NgsAMG.EQC.order_agrees"
   ],
   "note": "with and without closing the family"
  },
  {
   "property": "C59",
   "status": "proved",
   "theorems": [
    "NgsAMG.EQC.isLEQ_iff",
    "NgsAMG.EQC.leqOK_of_table",
    "NgsAMG.EQC.mergedEQC_iff",
    "NgsAMG.EQC.commonEQC_iff",
    "NgsAMG.EQC.commonEQC_closed",
    "NgsAMG.EQC.findEQC_iff",
    "NgsAMG.EQC.masters"
   ],
   "note": ""
  },
  {
   "property": "C60",
   "status": "partial",
   "theorems": [
    "NgsAMG.EQC.setup_from_dofs",
    "NgsAMG.EQC.setup_members",
    "NgsAMG.EQC.classesOfNodes_one",
    "NgsAMG.EQC.classesOfNodes_missed",
    "NgsAMG.EQC.classesOfNodes_twice",
    "NgsAMG.EQC.classesOfNodes_out_of_range"
   ],
   "note": "proved for parallel DOFs and for lists of members (where no process ever has an empty family, so the flag 'rank 0 idle' computed from it is never set); the constructor from mesh nodes is right for one node type and refuted for several"
  },
  {
   "property": "C61",
   "status": "partial",
   "theorems": [
    "NgsAMG.EQC.unions_not_closed",
    "NgsAMG.EQC.plain_common_missing",
    "NgsAMG.EQC.neqcsGlob_eq",
    "NgsAMG.EQC.shared_count",
    "NgsAMG.EQC.neqcsGlob_wrong"
   ],
   "note": "refuted for the code: unions are formed before the intersections; without closing, common classes are missing; neqcs_glob counts the own master classes twice (exact value proved)"
  },
  {
   "property": "C62",
   "status": "proved",
   "theorems": [
    "NgsAMG.Elast.transport_rigid3",
    "NgsAMG.Elast.transport_rigid2",
    "NgsAMG.Elast.edge_transport",
    "NgsAMG.Elast.transport_motion",
    "NgsAMG.Elast.transport_comp",
    "NgsAMG.Elast.transports3",
    "NgsAMG.Elast.transports2"
   ],
   "note": ""
  },
  {
   "property": "C63",
   "status": "partial",
   "theorems": [
    "NgsAMG.Elast.mq_correct",
    "NgsAMG.Elast.qtm_correct",
    "NgsAMG.Elast.qtmq_correct",
    "NgsAMG.Elast.qmqt_correct2",
    "NgsAMG.Elast.addQtMQ_correct",
    "NgsAMG.Elast.qtMQ_correct",
    "NgsAMG.Elast.calcMQ_correct",
    "NgsAMG.Elast.setQtMQ_partial",
    "NgsAMG.Elast.calcMPDataWW_partial",
    "NgsAMG.Elast.setQ_scaled",
    "NgsAMG.Elast.qmqt_wrong3",
    "NgsAMG.Elast.qmqt_undefined3",
    "NgsAMG.Elast.setQ_scaled_wrong",
    "NgsAMG.Elast.setQtMQ_wrong",
    "NgsAMG.Elast.products3",
    "NgsAMG.Elast.products2"
   ],
   "note": "proved for all routines except: Q*M*Q^T in 3D (wrong sign, reads uninitialised memory), scaled SetQ and SetQtMQ (missing factors) \u2014 refuted by concrete witnesses, positive parts proved"
  },
  {
   "property": "C64",
   "status": "proved",
   "theorems": [
    "NgsAMG.Elast.rmBlock_symm",
    "NgsAMG.Elast.rmBlock_energy",
    "NgsAMG.Elast.rmBlock_spec",
    "NgsAMG.Elast.rmBlock_rigid3",
    "NgsAMG.Elast.rmBlock_rigid2",
    "NgsAMG.Elast.rmBlock_energy3",
    "NgsAMG.Elast.rmBlock_energy2"
   ],
   "note": ""
  },
  {
   "property": "C65",
   "status": "partial",
   "theorems": [
    "NgsAMG.MapData.h1Map_galerkin",
    "NgsAMG.MapData.elMap_galerkin_partial",
    "NgsAMG.MapData.elMap_center_wrong",
    "NgsAMG.MapData.elMap_ground_wrong",
    "NgsAMG.MapData.elMap_galerkin3_partial",
    "NgsAMG.MapData.elMap_galerkin2_partial"
   ],
   "note": "H1 proved for all meshes and maps; elasticity proved if the center of every aggregate is its first member and only first members have edges to the ground, refuted by concrete witnesses otherwise; one process"
  },
  {
   "property": "C66",
   "status": "proved",
   "theorems": [
    "NgsAMG.SProl.edgeCM_spec"
   ],
   "note": ""
  },
  {
   "property": "C67",
   "status": "proved",
   "theorems": [
    "NgsAMG.SProl.sprol_graph",
    "NgsAMG.SProl.finRow_spec",
    "NgsAMG.SProl.finRow_threshold",
    "NgsAMG.SProl.graphRow_spec",
    "NgsAMG.SProl.collectRow_spec",
    "NgsAMG.SProl.dgWt_spec"
   ],
   "note": "one process; sp_max_per_row >= 1 (0 makes the code read before the start of an array)"
  },
  {
   "property": "C68",
   "status": "proved",
   "theorems": [
    "NgsAMG.SProl.sprol_preserves",
    "NgsAMG.SProl.sprol_constants",
    "NgsAMG.SProl.sprol_rigid3",
    "NgsAMG.SProl.sprol_rigid2"
   ],
   "note": "one process; for every relaxation, weights, regularisation and inverse"
  },
  {
   "property": "C69",
   "status": "proved",
   "theorems": [
    "NgsAMG.RedTab.reduceTable_correct",
    "NgsAMG.RedTab.reduceTable_no_deadlock",
    "NgsAMG.RedTab.reduceTable_terminates",
    "NgsAMG.RedTab.reduceTable_eqc",
    "NgsAMG.RedTab.rows_agree",
    "NgsAMG.RedTab.reduceRows_spec",
    "NgsAMG.RedTab.unpack_flatten"
   ],
   "note": "messages of one pair with one tag do not overtake"
  },
  {
   "property": "C70",
   "status": "proved",
   "theorems": [
    "NgsAMG.RedTab.scatter_correct",
    "NgsAMG.RedTab.scatter_no_deadlock",
    "NgsAMG.RedTab.scattered_agree",
    "NgsAMG.RedTab.rows_of_tables",
    "NgsAMG.Exch.dfinal_state",
    "NgsAMG.Exch.dno_deadlock",
    "NgsAMG.Exch.dterminates",
    "NgsAMG.Exch.dexists_final"
   ],
   "note": ""
  },
  {
   "property": "C71",
   "status": "proved",
   "theorems": [
    "NgsAMG.BTM.setVs_correct",
    "NgsAMG.BTM.setVs_numbered",
    "NgsAMG.BTM.setVs_dummy",
    "NgsAMG.BTM.copies_agree",
    "NgsAMG.BTM.class_sizes",
    "NgsAMG.BTM.global_count",
    "NgsAMG.BTM.glob_eq_iff",
    "NgsAMG.BTM.setUp_exists"
   ],
   "note": "copies are assumed to be ordered alike on all processes (PD.WF)"
  },
  {
   "property": "C72",
   "status": "proved",
   "theorems": [
    "NgsAMG.BTM.setEdges_correct",
    "NgsAMG.BTM.edgesNumbered",
    "NgsAMG.BTM.edges_agree",
    "NgsAMG.BTM.global_edges",
    "NgsAMG.BTM.classify_total",
    "NgsAMG.BTM.built_mesh",
    "NgsAMG.BTM.mesh_of_setup",
    "NgsAMG.BTM.vname_iff",
    "NgsAMG.BTM.mergeBy_correct",
    "NgsAMG.BTM.setEdgesDummy_correct"
   ],
   "note": "on every process the end points of a given edge are in ascending (new) order"
  },
  {
   "property": "C73",
   "status": "proved",
   "theorems": [
    "NgsAMG.Nodal.allreduce_correct",
    "NgsAMG.Nodal.scatterNodal_correct",
    "NgsAMG.Nodal.nodes_verts",
    "NgsAMG.Nodal.nodes_edges",
    "NgsAMG.Nodal.nodes_edges_run",
    "NgsAMG.Nodal.combine_spec",
    "NgsAMG.Nodal.reduceVals_sum",
    "NgsAMG.Nodal.reduceVals_max",
    "NgsAMG.Nodal.reduceVals_min"
   ],
   "note": ""
  },
  {
   "property": "C74",
   "status": "proved",
   "theorems": [
    "NgsAMG.Nodal.attached_history",
    "NgsAMG.Nodal.attached_status",
    "NgsAMG.Nodal.attached_total"
   ],
   "note": "data without parallel status is outside of the claim; every call is made by all processes"
  },
  {
   "property": "C75",
   "status": "proved",
   "theorems": [
    "NgsAMG.CMap.mapVerts_correct",
    "NgsAMG.CMap.mapVerts_total",
    "NgsAMG.CMap.mapVerts_some",
    "NgsAMG.CMap.mapVerts_same",
    "NgsAMG.CMap.mapVerts_copies",
    "NgsAMG.CMap.mapVerts_onto",
    "NgsAMG.CMap.mapVerts_count",
    "NgsAMG.CMap.mapVerts_count_global"
   ],
   "note": "the conditions on the agglomerates are those stated at agglomerate_map.cpp:109-117"
  },
  {
   "property": "C76",
   "status": "proved",
   "theorems": [
    "NgsAMG.CMap.mapEdges_correct",
    "NgsAMG.CMap.mapEdges_tent",
    "NgsAMG.CMap.mapEdges_total",
    "NgsAMG.CMap.finish_ce",
    "NgsAMG.CMap.merged_ce",
    "NgsAMG.CMap.coarse_emesh",
    "NgsAMG.CMap.vmaps_of",
    "NgsAMG.CMap.setEdges_emesh",
    "NgsAMG.CMap.emesh_of_built",
    "NgsAMG.CMap.coarse_again"
   ],
   "note": "the hypotheses on the fine edges are shown for the result of C72 and for the result of this step itself (next level), those on the vertex map for C75"
  },
  {
   "property": "C77",
   "status": "proved",
   "theorems": [
    "NgsAMG.BlkGS.smoothImpl_correct",
    "NgsAMG.BlkGS.smoothRES_correct",
    "NgsAMG.BlkGS.smooth_correct",
    "NgsAMG.BlkGS.smoothImpl_frame",
    "NgsAMG.BlkGS.smoothImpl_fixed",
    "NgsAMG.BlkGS.smoothBack_adjoint",
    "NgsAMG.BlkGS.smooth_energy",
    "NgsAMG.BlkGS.smooth_energy_spd",
    "NgsAMG.BlkGS.smooth_energy_lt",
    "NgsAMG.BlkGS.mk_blocks",
    "NgsAMG.BlkGS.mk_seq",
    "NgsAMG.BlkGS.diagOf_none",
    "NgsAMG.BlkGS.diagOf_some",
    "NgsAMG.BlkGS.invOK_inv",
    "NgsAMG.BlkGS.invOK_pinv"
   ],
   "note": "dense inverse of a block is a parameter; residual version for symmetric matrices"
  },
  {
   "property": "C78",
   "status": "proved",
   "theorems": [
    "NgsAMG.BlkGS.mk_par",
    "NgsAMG.BlkGS.extBlock_spec",
    "NgsAMG.BlkGS.run_progRHS",
    "NgsAMG.BlkGS.run_progRES",
    "NgsAMG.BlkGS.parSmooth_correct",
    "NgsAMG.BlkGS.parSmoothRES_correct",
    "NgsAMG.BlkGS.parSmooth_exists",
    "NgsAMG.BlkGS.parSmoothRES_exists",
    "NgsAMG.BlkGS.order_perm",
    "NgsAMG.BlkGS.back_order",
    "NgsAMG.BlkGS.parBack_adjoint",
    "NgsAMG.BlkGS.parSmooth_energy",
    "NgsAMG.Par.interleave",
    "NgsAMG.Par.interleave_seq",
    "NgsAMG.Par.seq_perm",
    "NgsAMG.Par.exists_run"
   ],
   "note": "ComputeColoring (NGSolve) is assumed to give sets of one color no common element; ParallelForRange and SharedLoop2 to finish a color before the next"
  },
  {
   "property": "C79",
   "status": "partial",
   "theorems": [
    "NgsAMG.BlkGS.parMultAdd_partial",
    "NgsAMG.BlkGS.multAdd_spec",
    "NgsAMG.BlkGS.multAdd_race"
   ],
   "note": "true for blocks that do not overlap; violated for overlapping blocks: all blocks run at the same time without colors, an update can be lost (multAdd_race)"
  },
  {
   "property": "C80",
   "status": "partial",
   "theorems": [
    "NgsAMG.BlkGS.smooth2_correct_partial",
    "NgsAMG.BlkGS.smoothSimple_correct",
    "NgsAMG.BlkGS.smoothRESSimple_correct",
    "NgsAMG.BlkGS.smooth2_adjoint",
    "NgsAMG.BlkGS.smooth2_energy",
    "NgsAMG.BlkGS.setFrom_repr",
    "NgsAMG.BlkGS.mkLSm_grouped",
    "NgsAMG.BlkGS.pass_forward",
    "NgsAMG.BlkGS.pass_backward",
    "NgsAMG.BlkGS.multAddSys_apply",
    "NgsAMG.BlkGS.anotb_le",
    "NgsAMG.BlkGS.anotb_eq",
    "NgsAMG.BlkGS.alloc_enough",
    "NgsAMG.BlkGS.smooth2_res_wrong",
    "NgsAMG.BlkGS.smooth2_res_refuted",
    "NgsAMG.BlkGS.iterGroups_refuted",
    "NgsAMG.BlkGS.smoothGroups_backward",
    "NgsAMG.BlkGS.smoothGroups_refuted"
   ],
   "note": "violated in the code: without given residual the new one is computed with a matrix that counts a row once per block that contains it (smooth2_res_wrong, smooth2_res_refuted); SmoothGroups goes backward whatever is asked for (smoothGroups_backward, smoothGroups_refuted); backward over groups with non-consecutive numbers visits other groups or reads out of range (iterGroups_refuted); everything else holds"
  },
  {
   "property": "C81",
   "status": "partial",
   "theorems": [
    "NgsAMG.BlkGS.smoothNO_correct_partial",
    "NgsAMG.BlkGS.smoothFB_eq",
    "NgsAMG.BlkGS.smoothSYMM_eq",
    "NgsAMG.BlkGS.smoothSYMMCR_eq",
    "NgsAMG.BlkGS.smoothCR_eq",
    "NgsAMG.BlkGS.mkLSm_no",
    "NgsAMG.BlkGS.mkLSm_no_md",
    "NgsAMG.BlkGS.smoothNO_zero_jacobi",
    "NgsAMG.BlkGS.smoothNO_zero_refuted",
    "NgsAMG.BlkGS.smoothNO_stale",
    "NgsAMG.BlkGS.smoothNO_back_refuted",
    "NgsAMG.BlkGS.smoothNO_trans_refuted"
   ],
   "note": "violated in the code: with one direction and a start vector said to be zero the first step is block Jacobi (smoothNO_zero_jacobi, smoothNO_zero_refuted); backward with residual uses the row of the first unknown for a whole block (smoothNO_back_refuted); residual updates do not transpose entries (smoothNO_trans_refuted); unknowns in no block are changed by uninitialised memory (smoothNO_stale); a given diagonal makes construction throw (mkLSm_no_md); everything else holds"
  },
  {
   "property": "C82",
   "status": "partial",
   "theorems": [
    "NgsAMG.HybSm.hybridBS_correct_partial",
    "NgsAMG.HybSm.filterBlocks_eq",
    "NgsAMG.HybSm.fblocks_eq",
    "NgsAMG.HybSm.stageGroup_dofs",
    "NgsAMG.HybSm.stageGroup_covers",
    "NgsAMG.HybSm.mkHBS_ok",
    "NgsAMG.HybSm.hybridBS_adjoint",
    "NgsAMG.HybSm.hybridBS_symmLoc_selfadjoint",
    "NgsAMG.HybSm.hybridBS_not_adjoint",
    "NgsAMG.HybSm.hybridBS_refuted"
   ],
   "note": "Proved for every number of processes except two processes with process zero active: there the code does not filter the blocks (block_gssmoother.cpp:529 tests the wrong number of processes) and smooths shared unknowns before the data has been gathered (hybridBS_refuted). Adjointness is proved for at most one local step; for two local steps the backward sweep is not the adjoint of the forward sweep (hybridBS_not_adjoint)."
  },
  {
   "property": "C83",
   "status": "partial",
   "theorems": [
    "NgsAMG.DynBlock.dynSmooth_correct_partial",
    "NgsAMG.DynBlock.dynSmooth_order_irrelevant",
    "NgsAMG.DynBlock.dynSmooth_adjoint",
    "NgsAMG.DynBlock.dynSmooth_fixed",
    "NgsAMG.DynBlock.dynSmooth_frame",
    "NgsAMG.DynBlock.dynSmooth_energy",
    "NgsAMG.DynBlock.detOK_of_spd",
    "NgsAMG.DynBlock.rowClasses_unique",
    "NgsAMG.DynBlock.finalize_ok",
    "NgsAMG.DynBlock.mkDSm_ok",
    "NgsAMG.DynBlock.dynSmooth_empty_undefined"
   ],
   "note": "violated in the code for rows without entries when there are no free dofs and the residual is kept: the update multiplies a 0x0 matrix with the values of the row (dynSmooth_empty_undefined); everything else holds"
  },
  {
   "property": "C84",
   "status": "partial",
   "theorems": [
    "NgsAMG.HybDyn.hybridDyn_posDef_partial",
    "NgsAMG.HybDyn.hybridDyn_correct_partial",
    "NgsAMG.HybDyn.calcScalModDiag_correct",
    "NgsAMG.HybDyn.hybridDyn_adjoint",
    "NgsAMG.HybDyn.bsX_fixed",
    "NgsAMG.HybDyn.hybridDyn_convergence_refuted"
   ],
   "note": "violated in the code: the modified diagonal is computed per scalar unknown, so for blocks of more than one unknown the claimed convergence fails: one call more than doubles the energy of the error although all local blocks are inverted exactly (hybridDyn_convergence_refuted). Adjointness is for at most one local step. Not modelled: the constructor without ParallelDofs (dyn_block_smoother.cpp:678-692) and the overlap thread; products with M and G are those of C17. Everything else holds"
  },
  {
   "property": "C85",
   "status": "proved",
   "theorems": [
    "NgsAMG.Ctr.addF2C_correct",
    "NgsAMG.Ctr.transferF2C_correct",
    "NgsAMG.Ctr.transferC2F_correct",
    "NgsAMG.Ctr.addC2F_correct",
    "NgsAMG.Ctr.transfer_progress",
    "NgsAMG.Ctr.f2c_spec",
    "NgsAMG.Ctr.c2f_spec"
   ],
   "note": "hypothesis CtrOK: groups partition the processes, maps are consistent with global numbers (established by the callers)"
  },
  {
   "property": "C86",
   "status": "proved",
   "theorems": [
    "NgsAMG.Ctr.assemble_correct",
    "NgsAMG.Ctr.assembleMat_spec",
    "NgsAMG.Ctr.asmRow_spec"
   ],
   "note": "QuickSortI is assumed to give a sorting permutation"
  },
  {
   "property": "C87",
   "status": "partial",
   "theorems": [
    "NgsAMG.Ctr.swap_correct",
    "NgsAMG.Ctr.swapped_ok",
    "NgsAMG.Ctr.mid_WF",
    "NgsAMG.Ctr.prol_commutes",
    "NgsAMG.Ctr.restr_commutes",
    "NgsAMG.Ctr.galerkin_commutes",
    "NgsAMG.Ctr.swap_stale"
   ],
   "note": "violated in the code if the map was used before: SetUpMPIStuff returns early and the MPI types and buffers of the old numbering stay (swap_stale); everything else holds, for prolongations in which every coarse unknown is used"
  },
  {
   "property": "C88",
   "status": "partial",
   "theorems": [
    "NgsAMG.GCtr.contract_correct",
    "NgsAMG.GCtr.contracted_of",
    "NgsAMG.GCtr.classes_eq",
    "NgsAMG.GCtr.buildCEQCH_spec",
    "NgsAMG.GCtr.buildVerts_spec",
    "NgsAMG.GCtr.names_exist",
    "NgsAMG.GCtr.contract_not_closed"
   ],
   "note": "violated in the code: the contracted classes need not be closed under intersection (contract_not_closed); an edge between vertices of two such classes gets the class NO_EQC, which is used as a row number. Everything else holds. Edges (grid_contract.cpp:506-860) are not modelled; identifiers are assumed to fit into int"
  },
  {
   "property": "C89",
   "status": "proved",
   "theorems": [
    "NgsAMG.GCtr.partition_correct",
    "NgsAMG.GCtr.procMap_spec"
   ],
   "note": "METIS itself is an arbitrary function into the parts; QuickSortI is assumed to give a sorting permutation"
  },
  {
   "property": "C90",
   "status": "proved",
   "theorems": [
    "NgsAMG.GCtr.udofs_correct",
    "NgsAMG.GCtr.udofs_order",
    "NgsAMG.GCtr.namesVerts_wf",
    "NgsAMG.GCtr.ctr_dofs_correct",
    "NgsAMG.GCtr.mapNodeData_cumulated",
    "NgsAMG.GCtr.mapNodeData_distributed"
   ],
   "note": "vertices only; MapNodeData for edges with annoy_nodes is not modelled"
  },
  {
   "property": "C91",
   "status": "partial",
   "theorems": [
    "NgsAMG.MIS.form_correct_partial",
    "NgsAMG.MIS.aggs_ok",
    "NgsAMG.MIS.grow_common",
    "NgsAMG.MIS.dirichlet_taken",
    "NgsAMG.MIS.fixed_twice",
    "NgsAMG.MIS.form_not_always"
   ],
   "note": "violated in the code: a hanging vertex whose only neighbour is Dirichlet takes the Dirichlet vertex into an agglomerate (dirichlet_taken), and one whose only neighbour is in a fixed agglomerate puts that vertex into two agglomerates (fixed_twice): the code forces a new agglomerate around the neighbour without testing whether it is marked. Everything else holds whenever there is no such vertex (HangOK). Strengths of connection and their order are arbitrary in the model"
  },
  {
   "property": "C92",
   "status": "partial",
   "theorems": [
    "NgsAMG.PC.pc_spd_partial",
    "NgsAMG.PC.pc_all_smoothers",
    "NgsAMG.PC.pc_w_refuted",
    "NgsAMG.PC.pc_jacobi_refuted"
   ],
   "note": "violated in the code: with the W cycle (or the BS cycle) and block Gauss-Seidel with overlapping blocks the preconditioner is not symmetric, because the block smoother computes a wrong residual if none is given (pc_w_refuted, see C80); Jacobi with its fixed damping 0.9 can be indefinite (pc_jacobi_refuted). Everything else holds: V cycle with any blocks, all cycles with blocks that partition the unknowns or Gauss-Seidel, Jacobi under the usual condition. One process; coarse inverse and dense (pseudo) inverses by specification; at least two levels"
  },
  {
   "property": "C93",
   "status": "proved",
   "theorems": [
    "NgsAMG.CMap.mapVertsSV_correct",
    "NgsAMG.CMap.mapVertsSV_total",
    "NgsAMG.CMap.mapVertsSV_some",
    "NgsAMG.CMap.mapVertsSV_same",
    "NgsAMG.CMap.mapVertsSV_copies",
    "NgsAMG.CMap.mapVertsSV_onto",
    "NgsAMG.CMap.mapVertsSV_count",
    "NgsAMG.CMap.vmaps_of_sv"
   ],
   "note": "the conditions on the agglomerates (the comment at agglomerate_map.cpp:289-294; they are not checked by the code) are a hypothesis"
  },
  {
   "property": "C94",
   "status": "partial",
   "theorems": [
    "NgsAMG.DofM.numbering_inverse",
    "NgsAMG.DofM.maps_range_single",
    "NgsAMG.DofM.maps_select_one",
    "NgsAMG.DofM.maps_range_multi_partial",
    "NgsAMG.DofM.maps_select_multi_partial",
    "NgsAMG.DofM.range_multi_hangs",
    "NgsAMG.DofM.select_multi_wrong"
   ],
   "note": "violated in the code: with several block sizes and a range that ends within a block the loop never ends (range_multi_hangs); with a bit array and two different block sizes at the end the last size is never used, so rows are overrun and degrees of freedom go to the wrong vertex (select_multi_wrong). Proved: one block size (ranges or bits), several block sizes for ranges that end behind whole blocks, several sizes for bits if the last two are equal. P2 orderings are not modelled"
  },
  {
   "property": "C95",
   "status": "partial",
   "theorems": [
    "NgsAMG.DofM.maps_renumbered",
    "NgsAMG.DofM.maps_renumbered_arr",
    "NgsAMG.DofM.free_verts_correct",
    "NgsAMG.DofM.edges_correct",
    "NgsAMG.DofM.vert_dps_correct",
    "NgsAMG.DofM.setUp_of_dofs",
    "NgsAMG.DofM.edges_total",
    "NgsAMG.DofM.alg_mesh_correct",
    "NgsAMG.DofM.eqch_select",
    "NgsAMG.DofM.eqch_range_partial",
    "NgsAMG.DofM.eqch_range_hangs",
    "NgsAMG.DofM.edges_twice",
    "NgsAMG.DofM.edges_none"
   ],
   "note": "violated in the code: with ranges all degrees of freedom in front of the end of the last range are used for the hierarchy, so that processes can have different classes and the set-up waits forever (eqch_range_hangs); rows without diagonal entry give edges twice (edges_twice), and a matrix that stores the lower triangle only gives no edges (edges_none). Everything else holds for matrices with symmetric sorted pattern and diagonal entries"
  },
  {
   "property": "C96",
   "status": "partial",
   "theorems": [
    "NgsAMG.DofM.embedding_scal",
    "NgsAMG.DofM.embedding_disp",
    "NgsAMG.DofM.embedding_block",
    "NgsAMG.DofM.embedding_all",
    "NgsAMG.DofM.embedding_maps",
    "NgsAMG.DofM.embedding_galerkin",
    "NgsAMG.DofM.project_partial",
    "NgsAMG.DofM.project_subset_wrong",
    "NgsAMG.DofM.p2_sequential",
    "NgsAMG.DofM.p2_parallel_wrong",
    "NgsAMG.DofM.p2_refuted"
   ],
   "note": "violated in the code: with constrained components and a subset of the degrees of freedom the loop that sets rows to zero runs over the wrong rows (project_subset_wrong); with quadratic elements in parallel the vertices are renumbered twice (p2_parallel_wrong, p2_refuted). Everything else holds; the values of the edges of quadratic elements are not modelled"
  },
  {
   "property": "C97",
   "status": "partial",
   "theorems": [
    "NgsAMG.LC.setUp_total",
    "NgsAMG.LC.setUp_unique",
    "NgsAMG.LC.levels_ok",
    "NgsAMG.LC.levels_from",
    "NgsAMG.LC.level_limit",
    "NgsAMG.LC.same_levels",
    "NgsAMG.LC.why_end",
    "NgsAMG.LC.LevelsOK.length_le",
    "NgsAMG.LC.fac_values",
    "NgsAMG.LC.groups_fewer",
    "NgsAMG.LC.seq_reached",
    "NgsAMG.LC.slow_gives_up",
    "NgsAMG.LC.limit_ignored",
    "NgsAMG.LC.slow_not_redistributed",
    "NgsAMG.LC.two_stay_two",
    "NgsAMG.LC.seq_ignored"
   ],
   "note": "violated in the code: max_levels = 1 is ignored (limit_ignored); coarsening slower than rd_crs_thresh ends the set-up instead of leading to redistribution (slow_gives_up, slow_not_redistributed); two active processes can be contracted into two groups (two_stay_two); a mesh below rd_seq_nv stays distributed if the limit per process is not reached (seq_ignored). Everything else holds, the last two claims under the conditions in groups_fewer and seq_reached. Coarsening and contraction are arbitrary; that all processes get the same global numbers and contraction keeps the nodes is a hypothesis (C75, C88)"
  },
  {
   "property": "C98",
   "status": "partial",
   "theorems": [
    "NgsAMG.Loop.split_closed",
    "NgsAMG.Loop.split_total",
    "NgsAMG.Loop.simpleLoops_ends",
    "NgsAMG.Loop.simpleLoops_correct",
    "NgsAMG.Loop.rotate_correct",
    "NgsAMG.Loop.rotate_unique_partial",
    "NgsAMG.Loop.coarseLoops_correct_partial",
    "NgsAMG.Loop.gathered",
    "NgsAMG.Loop.convert_correct",
    "NgsAMG.Loop.buckets_correct",
    "NgsAMG.Loop.split_overruns",
    "NgsAMG.Loop.open_invents",
    "NgsAMG.Loop.open_loses",
    "NgsAMG.Loop.rotate_not_unique",
    "NgsAMG.Loop.duplicate_stays"
   ],
   "note": "violated in the code: SplitChunk writes behind the end of its help array (split_overruns); the direction of a loop depends on whether its list begins at the smallest vertex, so duplicates stay (rotate_not_unique, duplicate_stays; otherwise they are found: rotate_unique_partial); open walks through a vertex twice lose edges or get edges that do not exist (open_loses, open_invents). Everything else holds for closed walks; the order of the processes is arbitrary. The exchange of the edges is not modelled here"
  },
  {
   "property": "C99",
   "status": "partial",
   "theorems": [
    "NgsAMG.LTab.addLoops_correct",
    "NgsAMG.LTab.gather_correct",
    "NgsAMG.LTab.coarse_tables_partial",
    "NgsAMG.LTab.tables_break",
    "NgsAMG.LTab.tables_hang"
   ],
   "note": "violated in the code: duplicate coarse loops are removed by each process on its own; if a coarse loop comes from a fine loop shared by processes 0 and 1 and from one shared by 0 and 2, process 2 still lists process 0 for a loop it has removed, and AddOrientedLoops then receives a message of the wrong size (tables_break) or waits forever (tables_hang). Proved: AddOrientedLoops for all right tables, the gathering of the loops without restriction, and everything together if duplicates come from fine loops shared by the same processes (coarse_tables_partial)"
  }
 ]
}