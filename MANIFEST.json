{
 "claims": [
  {
   "property": "C01",
   "status": "proved",
   "theorems": [
    "Verif.KdTree.c01_build",
    "Verif.KdTree.c01_build_empty",
    "Verif.KdTree.c01_build_leafSize_zero"
   ],
   "note": "Serial and parallel construction, any leaf size >= 1. The two boundary theorems state what happens for the empty input and leaf size 0."
  },
  {
   "property": "C02",
   "status": "proved",
   "theorems": [
    "Verif.KdTree.c02_slots"
   ],
   "note": "Slot arithmetic of the constructors."
  },
  {
   "property": "C03",
   "status": "proved",
   "theorems": [
    "Verif.KdTree.c03_rangeSearch",
    "Verif.KdTree.c03_bruteforceRange"
   ],
   "note": "Euclidean distance over the reals; any radius. Rounded arithmetic: C91."
  },
  {
   "property": "C04",
   "status": "proved",
   "theorems": [
    "Verif.KdTree.c04_orthogonalRangeSearch"
   ],
   "note": "Any ordered field. bruteforceOrthRange pushes into a shared sequence inside parallel_for and is not modelled."
  },
  {
   "property": "C05",
   "status": "proved",
   "theorems": [
    "Verif.KnnBuf.c05_keepK",
    "Verif.KnnBuf.c05_throws",
    "Verif.KnnBuf.c05_k_zero"
   ],
   "note": "Buffer of 2k slots with nth_element/sort by contract; k = 0 is undefined behaviour and stated. Rounded arithmetic: C93."
  },
  {
   "property": "C06",
   "status": "partial",
   "theorems": [
    "Verif.KdTree.c06_batchKnn_partial",
    "Verif.KdTree.c06_duplicates_false",
    "Verif.KdTree.c06_outside_throws",
    "Verif.KdTree.c06_k_gt_n_throws",
    "Verif.KdTree.c06_not_stored_false"
   ],
   "note": "Exact when no position occurs more than leaf-size times and queries are stored points; false otherwise, with concrete witnesses."
  },
  {
   "property": "C07",
   "status": "proved",
   "theorems": [
    "Verif.KdTree.c07_bccp",
    "Verif.KdTree.c07_bccp_eucl",
    "Verif.KdTree.c07_bruteforce"
   ],
   "note": "Pruned search equals the minimum over all pairs. Rounded arithmetic: C92."
  },
  {
   "property": "C08",
   "status": "proved",
   "theorems": [
    "Verif.KdTree.c08_wspd_cover"
   ],
   "note": "Serial and parallel recursion; every unordered pair covered exactly once. Rounded arithmetic: C94."
  },
  {
   "property": "C09",
   "status": "proved",
   "theorems": [
    "Verif.KdTree.c09_wspd",
    "Verif.KdTree.c09_large_leaf_throws"
   ],
   "note": "Separation of the reported pairs in the Euclidean metric. Rounded arithmetic: C94."
  },
  {
   "property": "C10",
   "status": "proved",
   "theorems": [
    "Verif.Par.c10_collect",
    "Verif.Par.c10_init_zero_ub",
    "Verif.Par.c10_small_elements_ub"
   ],
   "note": "All histories and all orders of the copy writes; the two preconditions are shown necessary."
  },
  {
   "property": "C11",
   "status": "proved",
   "theorems": [
    "Verif.Par.c11_split_two",
    "Verif.Par.c11_split_k",
    "Verif.Par.c11_split_k_perm"
   ],
   "note": "Any block size, any order of the parallel writes."
  },
  {
   "property": "C12",
   "status": "proved",
   "theorems": [
    "Verif.UF.c12_history",
    "Verif.UF.c12_find_irrelevant",
    "Verif.UF.c12_concurrent",
    "Verif.UF.c12_rep_unique",
    "Verif.UF.c12_find_terminates"
   ],
   "note": "Sequential histories and concurrent finds at single-access granularity (sequentially consistent memory)."
  },
  {
   "property": "C13",
   "status": "proved",
   "theorems": [
    "Verif.Atomic.c13_linearizable",
    "Verif.Atomic.c13_terminates",
    "Verif.Atomic.c13_write_min",
    "Verif.Atomic.c13_write_max",
    "Verif.Atomic.c13_add"
   ],
   "note": "CAS loops at single-access granularity, any schedule, sequentially consistent memory."
  },
  {
   "property": "C14",
   "status": "proved",
   "theorems": [
    "Verif.Mst.c14_kruskal",
    "Verif.Mst.c14_deterministic"
   ],
   "note": "Any order of the reserve and commit steps of a round, any round sizes allowed by the code; each step is executed without interleaving with another one."
  },
  {
   "property": "C15",
   "status": "proved",
   "theorems": [
    "Verif.Mst.c15_minimum_spanning_forest",
    "Verif.Mst.c15_minimum_connecting"
   ],
   "note": "Exact weights; for runs that return (C14)."
  },
  {
   "property": "C16",
   "status": "proved",
   "theorems": [
    "Verif.Emst.c16_emst",
    "Verif.Emst.c16_emst_small",
    "Verif.Emst.c16_emst_fine",
    "Verif.Emst.c16_emst_fine_returns",
    "Verif.Emst.c16_rho_conc",
    "Verif.Emst.c16_emst_conc",
    "Verif.Emst.c16_emst_conc_returns"
   ],
   "note": "Exact real arithmetic. c16_emst_conc: all interleavings of the memory accesses of the rho traversal, of Kruskal's reservation rounds and of mark, no assumption on racy reads. Exceptional outcomes stated in the theorem: a thread of a reservation round that never gets enough turns, and the round limit of speculative_for (needs n*n > 4101). Rounded arithmetic: C95."
  },
  {
   "property": "C17",
   "status": "proved",
   "theorems": [
    "Verif.SpatialGraph.c17_spanner",
    "Verif.SpatialGraph.c17_spanner_small"
   ],
   "note": "Exact real arithmetic; rounded arithmetic: C96."
  },
  {
   "property": "C18",
   "status": "partial",
   "theorems": [
    "Verif.SpatialGraph.c18_knnGraph_partial",
    "Verif.SpatialGraph.c18_knnGraph_throws",
    "Verif.SpatialGraph.c18_duplicates_false",
    "Verif.SpatialGraph.c18_overwrite_false"
   ],
   "note": "Holds when no position occurs more than min(16, k+1) times; false otherwise (out-of-bounds write or overwritten edges with duplicates), shown by witnesses."
  },
  {
   "property": "C19",
   "status": "partial",
   "theorems": [
    "Verif.DynKd.c19_history_partial",
    "Verif.DynKd.c19_steps",
    "Verif.DynKd.c19_build",
    "Verif.DynKd.noDouble_plane",
    "Verif.DynKd.c19_copies_false",
    "Verif.DynKd.c19_double_false",
    "Verif.DynKd.c19_again_false",
    "Verif.DynKd.c19_overflow_false",
    "Verif.DynKd.c19_ties_false"
   ],
   "note": "False of the code for copies, ties in space and repeated erasures (witnesses); proved for all other histories. Rounded arithmetic: C102."
  },
  {
   "property": "C20",
   "status": "proved",
   "theorems": [
    "Verif.DynKd.c20_kNN_exact",
    "Verif.DynKd.c20_kNN_euclidean",
    "Verif.DynKd.c20_zero_ub"
   ],
   "note": "Every reachable state, any tie breaking of the priority queue; k = 0 is undefined behaviour. Rounded arithmetic: C102."
  },
  {
   "property": "C21",
   "status": "partial",
   "theorems": [
    "Verif.ClosestPair.c21_plane",
    "Verif.ClosestPair.c21_plane_points",
    "Verif.ClosestPair.c21_closest_partial",
    "Verif.ClosestPair.c21_lenient_partial",
    "Verif.ClosestPair.c21_highdim_partial",
    "Verif.ClosestPair.c21_single_false",
    "Verif.ClosestPair.c21_parallel_false",
    "Verif.ClosestPair.Race.c21_atomic_partial",
    "Verif.ClosestPair.Race.c21_race_false"
   ],
   "note": "Proved for the serial run in the plane; dimensions 2-4 up to undefined reads; dimensions 5-7 up to 2^(2d-1) points. False as stated: undefined reads in space and in parallel runs, racing brute-force loop."
  },
  {
   "property": "C22",
   "status": "partial",
   "theorems": [
    "Verif.BatchKd.c22_object_partial",
    "Verif.BatchKd.c22_spatial_partial",
    "Verif.BatchKd.c28_history",
    "Verif.BatchKd.c22_object_ties_false",
    "Verif.BatchKd.c22_spatial_flat_false"
   ],
   "note": "Exact for points without equal coordinates (object median) and for every spatial build that returns; false of the code with ties (object median) and undefined for a flat split dimension (spatial median), both shown by witnesses. Rounded arithmetic: C101."
  },
  {
   "property": "C23",
   "status": "proved",
   "theorems": [
    "Verif.BatchKd.c23_orthogonalQuery_exact",
    "Verif.BatchKd.c28_history"
   ],
   "note": "All reachable states of the binary-heap-layout tree, any points, partially erased or not; exact arithmetic."
  },
  {
   "property": "C24",
   "status": "proved",
   "theorems": [
    "Verif.BatchKd.c24_knn_exact",
    "Verif.BatchKd.c24_dual_exact",
    "Verif.BatchKd.c24_euclidean",
    "Verif.BatchKd.c24_too_few_throws"
   ],
   "note": "Single, batched and dual-tree search, all four template variants, over exact arithmetic. The query tree of the dual search is built by the modelled builder (any partition rule); the cache-oblivious builder used by dualKnn places nodes elsewhere but that placement is not part of the search. FEWER_SQRT and the array mode of dual distances are not modelled. Rounded arithmetic: C100."
  },
  {
   "property": "C25",
   "status": "partial",
   "theorems": [
    "Verif.BatchKd.c25_erase_sound",
    "Verif.BatchKd.c25_erase_exact_partial",
    "Verif.BatchKd.c28_history",
    "Verif.BatchKd.c25_object_ties_false"
   ],
   "note": "Soundness, boxes and size in every reachable state; exact multiset difference whenever coordinates are distinct; with ties the object-median tree misses stored points (witness)."
  },
  {
   "property": "C26",
   "status": "proved",
   "theorems": [
    "Verif.LogTree.c26_occupancy",
    "Verif.LogTree.c26_capacity"
   ],
   "note": "Any history of insert batches and any order of the parallel moves; default configuration for any points through c27_default."
  },
  {
   "property": "C27",
   "status": "proved",
   "theorems": [
    "Verif.LogTree.c27_stored",
    "Verif.LogTree.c27_default"
   ],
   "note": "Any history of insert batches and any order of the parallel moves."
  },
  {
   "property": "C28",
   "status": "partial",
   "theorems": [
    "Verif.BatchKd.c28_history",
    "Verif.BatchKd.c28_refill_false"
   ],
   "note": "Any history of inserts and erases in which no insertion goes to a tree emptied by bulk_erase<false>; for that variant the property is false (witness). Distinct coordinates assumed (see C22)."
  },
  {
   "property": "C29",
   "status": "proved",
   "theorems": [
    "Verif.BatchKd.c29_heap_layout",
    "Verif.BatchKd.c29_preorder_layout"
   ],
   "note": "Both node layouts; indices as natural numbers (no int overflow). The spatial layout holds whenever the build returns."
  },
  {
   "property": "C30",
   "status": "proved",
   "theorems": [
    "Verif.BatchKd.c30_split_points_rank",
    "Verif.BatchKd.c30_bucket_sizes",
    "Verif.BatchKd.c30_endpoints"
   ],
   "note": "Bucket sizes, split points and left endpoints of the cache-oblivious build equal repeated median halving for every n and level count."
  },
  {
   "property": "C31",
   "status": "proved",
   "theorems": [
    "Verif.BatchKd.c31_no_false_negatives",
    "Verif.BatchKd.c31_wait_free",
    "Verif.BatchKd.c31_build_exact",
    "Verif.BatchKd.c31_new_wf",
    "Verif.BatchKd.c31_empty_filter_ub"
   ],
   "note": "Any number of threads, any interleaving of the byte-level compare-and-swap steps (sequentially consistent memory). Hash functions arbitrary."
  },
  {
   "property": "C32",
   "status": "proved",
   "theorems": [
    "Verif.Hull2d.c32_hull",
    "Verif.Hull2d.c32_empty_ub"
   ],
   "note": "Any outcome of the reductions and of minmax_element allowed by their contracts; Mathlib's convexHull as specification. Empty input is undefined behaviour. Rounded arithmetic: C99."
  },
  {
   "property": "C33",
   "status": "proved",
   "theorems": [
    "Verif.Hull2d.c33_clockwise"
   ],
   "note": "Also proved: the returned points are pairwise different unless all input points coincide. Collinear boundary points may be returned; the claim is the non-strict one. Rounded arithmetic: C99."
  },
  {
   "property": "C34",
   "status": "partial",
   "theorems": [
    "Verif.Hull2d.c34_blocks_partial",
    "Verif.Hull2d.c34_tail_false",
    "Verif.Hull2d.c34_small_ub"
   ],
   "note": "The code uses floor(n / blocks) as block size and drops the last n mod blocks points (witness with 81 points and one worker). Proved: all points of the full blocks are in the hull of the result. Below ten points the code divides by zero."
  },
  {
   "property": "C35",
   "status": "proved",
   "theorems": [
    "Verif.Seb.c35_prefix_eq_serial",
    "Verif.Seb.c35_prefix_eq_serial_inv",
    "Verif.Seb.c35_serial_no_conflict",
    "Verif.Seb.c35_needs_clean"
   ],
   "note": "Any length, threshold, first prefix between 1 and the threshold (a larger first prefix reads outside the array), any state and predicate, any order of the racing conflict writes. The _inv form allows the clean-up condition to depend on an invariant of the state; C36 uses it."
  },
  {
   "property": "C36",
   "status": "partial",
   "theorems": [
    "Verif.Seb.c36_plain_partial",
    "Verif.Seb.c36_mtf_partial",
    "Verif.Seb.c36_pivot_small_partial",
    "Verif.Seb.c36_pivot_partial",
    "Verif.Seb.c36_pivot_parallel_ub",
    "Verif.Seb.c36_eps_false",
    "Verif.Seb.c36_short_ub"
   ],
   "note": "Proved with the library epsilon set to zero in contain: every input list of at least two points, dimension at least two, both the serial and the prefix-doubling parallel recursion, any order of racing writes: the result is the smallest enclosing ball and its support consists of affinely independent input points. With the actual epsilon the returned ball may leave points out by up to epsilon (c36_eps_false). The pivoting variant in parallel mode can index one past the array (c36_pivot_parallel_ub); without that the result is the smallest ball. Fewer than two points: undefined behaviour."
  },
  {
   "property": "C37",
   "status": "proved",
   "theorems": [
    "Verif.Seb.c37_scan_contain",
    "Verif.Seb.c37_sampling_contain",
    "Verif.Seb.c37_scan_exact",
    "Verif.Seb.c37_sampling_exact",
    "Verif.Seb.c37_short_ub",
    "Verif.Seb.c37_sampling_ub",
    "Verif.Seb.c37_farthest"
   ],
   "note": "Containment holds for any epsilon, any inner solver, any number of workers. Beyond the property: without epsilon the scan always ends and returns the smallest ball, and so does the sampling routine unless one per cent of n does not divide n, when its last slice may reach behind the array (witness c37_sampling_ub). c37_farthest: one scan finds in every orthant the farthest outside point."
  },
  {
   "property": "C38",
   "status": "proved",
   "theorems": [
    "Verif.Morton.c38_code3_bits",
    "Verif.Morton.c38_code2_bits",
    "Verif.Morton.c38_range_error",
    "Verif.Morton.c38_injective3",
    "Verif.Morton.c38_injective2",
    "Verif.Morton.c38_monotone3",
    "Verif.Morton.c38_monotone2",
    "Verif.Morton.c38_blocks_contiguous",
    "Verif.Morton.c38_sort2d",
    "Verif.Morton.c38_sort3d",
    "Verif.Morton.c38_all_equal_false"
   ],
   "note": "Exact arithmetic for the grid cells. Inputs with a single location are undefined behaviour in the code (last theorem). Rounded arithmetic: C104."
  },
  {
   "property": "C39",
   "status": "proved",
   "theorems": [
    "Verif.IO.c39_words",
    "Verif.IO.c39_words_unique",
    "Verif.IO.c39_terminated",
    "Verif.IO.c39_unterminated_ub",
    "Verif.IO.c39_strings",
    "Verif.IO.c39_int_file",
    "Verif.IO.c39_edges",
    "Verif.IO.c39_weighted_edges",
    "Verif.IO.c39_point_file",
    "Verif.IO.c39_point_file_pbbs",
    "Verif.IO.c39_double_overflow_false",
    "Verif.IO.c39_double_race_false",
    "Verif.IO.c39_pbbs_header",
    "Verif.IO.c39_two_words",
    "Verif.IO.c39_two_ints"
   ],
   "note": "All texts; all executions of the parallel printing loop. Round trips of strings, integer files (one or two sequences), edge files and point files. Doubles that need more than 18 characters are shown not to survive (negation theorems); sprintf/atof/chars_to_long are taken by their documented behaviour."
  },
  {
   "property": "C40",
   "status": "proved",
   "theorems": [
    "Verif.Reserve.c40_reserve",
    "Verif.Reserve.c40_reserve_terminates",
    "Verif.Reserve.c40_wins_iff",
    "Verif.Reserve.c40_winners_disjoint",
    "Verif.Reserve.c40_highest_wins",
    "Verif.Reserve.c40_cells_reset",
    "Verif.Reserve.c40_check_terminates",
    "Verif.Reserve.c40_confirm",
    "Verif.Reserve.c40_ring_cells",
    "Verif.Reserve.c40_ring_false"
   ],
   "note": "All interleavings at the granularity of single memory accesses, for both forms of the check phase. No contender may list a cell twice in the form with immediate reset (an example shows why). c40_ring_false: the planar incremental hull reserves the wrong cells when a single facet is invisible."
  },
  {
   "property": "C41",
   "status": "partial",
   "theorems": [
    "Verif.Delaunay.c41_split",
    "Verif.Delaunay.c41_flip",
    "Verif.Delaunay.c41_flip_wf_partial",
    "Verif.Delaunay.c41_extend",
    "Verif.Delaunay.c41_fan",
    "Verif.Delaunay.c41_flip_same_corner_false",
    "Verif.Delaunay.c41_flip_degree_three_false",
    "Verif.Delaunay.c41_splitBoundary_partial",
    "Verif.Delaunay.c41_splitBoundary_vertex_false"
   ],
   "note": "split, extend and the initial fan: proved in full. flip: mutual pointers, vertex pointers and triangle count for every mesh with different opposite corners; staying fit for the next operation needs in addition that no vertex of degree three is involved, both shown necessary by counterexamples. splitBoundary (unused) leaves a wrong vertex pointer."
  },
  {
   "property": "C42",
   "status": "proved",
   "theorems": [
    "Verif.OctTree.c42_kNearest",
    "Verif.OctTree.c42_nearest",
    "Verif.OctTree.c42_near",
    "Verif.OctTree.c42_tags",
    "Verif.OctTree.c42_octNear",
    "Verif.OctTree.c61_octtree",
    "Verif.OctTree.c42_equal_ub"
   ],
   "note": "Exact coordinates; for vertices with at least two different points. With all points equal the tags are undefined (c42_equal_ub); the search is exact whatever tags come out (c42_octNear). Rounded arithmetic: C103."
  },
  {
   "property": "C43",
   "status": "partial",
   "theorems": [
    "Verif.TriEdges.c43_delaunay_partial",
    "Verif.TriEdges.c43_gabriel_partial",
    "Verif.TriEdges.c43_flag_loop_ub_false",
    "Verif.TriEdges.c43_gabriel_reads_outside_false"
   ],
   "note": "The flag loop always reads one entry past the array (and the Gabriel test reads points outside the array for outer triangles), proved as undefined behaviour. Under the assumption that such a read yields an arbitrary value, both functions return exactly the shared edges (Gabriel: those passing both tests), each once, for every execution order."
  },
  {
   "property": "C44",
   "status": "partial",
   "theorems": [
    "Verif.Lune.c44_lune_partial",
    "Verif.Lune.c44_dangling_false"
   ],
   "note": "Exact while the item array exists; false as the code is: the item array of the tree is destroyed before the queries."
  },
  {
   "property": "C45",
   "status": "proved",
   "theorems": [
    "Verif.Hash.c45_insert",
    "Verif.Hash.c45_contains",
    "Verif.Hash.c45_find",
    "Verif.Hash.c45_insert_contains",
    "Verif.Hash.c45_full_diverges"
   ],
   "note": "Every interleaving of single accesses (test, compare-and-swap, value write, comparison) of any number of threads, sequentially consistent memory; wait-freedom bound 3*2^b+1 steps per thread; start from any table made by insertions."
  },
  {
   "property": "C46",
   "status": "proved",
   "theorems": [
    "Verif.Emst.c46_mark",
    "Verif.Emst.c46_ready",
    "Verif.Emst.c46_fresh",
    "Verif.Emst.c46_mark_conc"
   ],
   "note": "mark on any tree whose ids are stale-but-pure yields exact ids; the precondition is re-established by every coarsening (c46_ready) and holds for fresh trees (c46_fresh). c46_mark: branches of par_do in sequence; c46_mark_conc: every interleaving of their accesses to the union-find array."
  },
  {
   "property": "C47",
   "status": "proved",
   "theorems": [
    "Verif.Hull3d.c47_link_mutual",
    "Verif.Hull3d.c47_link_throws",
    "Verif.Hull3d.c47_pair_false",
    "Verif.Hull3d.c47_pair_partial"
   ],
   "note": "The function with three neighbours, as used by the quickHull loops and the start tetrahedron. The two-facet overload (not called in the repository) sets a wrong pointer in one of nine cases (c47_pair_false). c47_pair_partial: what that overload does on the other eight cases."
  },
  {
   "property": "C48",
   "status": "partial",
   "theorems": [
    "Verif.Hull3d.c48_tail_false",
    "Verif.Hull3d.c48_blocks_partial",
    "Verif.QHull.c48_compute_partial",
    "Verif.QHull.c48_instance"
   ],
   "note": "False: the last n mod blocks points are never looked at when the sampled fraction is below 0.8; with 1001 points and one worker the result is then independent of the last point. Proved for the full blocks, for any right block hull routine (c48_blocks_partial) and with the modelled quickhulls put in (c48_compute_partial): all interleavings return the hull of the full blocks, for inputs in general position whose hull has at least 64 facets. c48_instance: the hypotheses are met."
  },
  {
   "property": "C49",
   "status": "proved",
   "theorems": [
    "Verif.Hull3d.c49_brute_facets",
    "Verif.Hull3d.c49_supporting",
    "Verif.Hull3d.c49_coplanar_false"
   ],
   "note": "As stated, for any epsilon. With epsilon zero: reported triples span supporting planes, and triples with all other points strictly on one side are reported. With four coplanar points a whole face can be missing (c49_coplanar_false)."
  },
  {
   "property": "C50",
   "status": "partial",
   "theorems": [
    "Verif.Seb.c50_contain",
    "Verif.Seb.c50_eq_false",
    "Verif.Seb.c50_eq_partial"
   ],
   "note": "contain is proved as stated over the reals. Equality is false of the code: the operator compares the left ball with itself, so it is constantly true; proved as negation, with equality implied only in the direction that equal balls compare equal."
  },
  {
   "property": "C51",
   "status": "partial",
   "theorems": [
    "Verif.UF.c51_union_roots_false",
    "Verif.UF.c51_union_roots_partial",
    "Verif.UF.c51_union_roots_cells"
   ],
   "note": "False of the code: the first theorem shows that after union_roots every find in the merged classes reads out of bounds."
  },
  {
   "property": "C52",
   "status": "proved",
   "theorems": [
    "Verif.IO.c52_dimension",
    "Verif.IO.c52_dimension_pbbs",
    "Verif.IO.c52_double_separator_false"
   ],
   "note": "For files the library writes; c52_double_separator_false shows the count is wrong for other files with repeated separators, and undefined for a blank first line."
  },
  {
   "property": "C53",
   "status": "proved",
   "theorems": [
    "Verif.Reserve.c53_every_vertex_once",
    "Verif.Reserve.c53_round_has_winner"
   ],
   "note": "Point location and the mesh changes are not part of this model."
  },
  {
   "property": "C54",
   "status": "partial",
   "theorems": [
    "Verif.Seb.c54_construct",
    "Verif.Seb.c54_grow_false",
    "Verif.Seb.c54_grow_partial"
   ],
   "note": "The constructor is proved in full. Growing a constructed ball is wrong in the code: the offset of the first construction is added to a centre computed in absolute coordinates (c54_grow_false); for a ball without offset grow is proved."
  },
  {
   "property": "C55",
   "status": "partial",
   "theorems": [
    "Verif.LogTree.c55_orthogonalQuery",
    "Verif.LogTree.c55_contains_partial",
    "Verif.LogTree.c55_knn_partial",
    "Verif.LogTree.c55_knn3_partial",
    "Verif.LogTree.c55_knnPar_partial",
    "Verif.LogTree.c55_small_buffer_false"
   ],
   "note": "Box queries proved in full. contains needs distinct coordinates; knn needs k points in the first searched tree and is proved to throw otherwise (witness). Dual knn: C67."
  },
  {
   "property": "C56",
   "status": "partial",
   "theorems": [
    "Verif.LogTree.c56_history_partial",
    "Verif.LogTree.c56_erase_sound_partial",
    "Verif.LogTree.c56_copies_false",
    "Verif.LogTree.c56_empty_buffer_false"
   ],
   "note": "False of the code for copies in different trees and for batches that empty the buffer (witnesses); proved for the remaining histories with distinct coordinates."
  },
  {
   "property": "C57",
   "status": "partial",
   "theorems": [
    "Verif.DynKd.Siblin.c57_siblings_partial",
    "Verif.DynKd.Siblin.c57_race_false"
   ],
   "note": "False for some interleavings (use of a deleted node); proved for all others and for the serial code."
  },
  {
   "property": "C58",
   "status": "partial",
   "theorems": [
    "Verif.Lune.c58_skeleton_partial",
    "Verif.Lune.c58_nested_partial",
    "Verif.Lune.inLune_one",
    "Verif.Lune.inLune_two",
    "Verif.Lune.c58_lens_false"
   ],
   "note": "Proved for beta >= 1 with a live item array and given Gabriel edges; false for beta < 1."
  },
  {
   "property": "C59",
   "status": "proved",
   "theorems": [
    "Verif.Delaunay.c59_insert",
    "Verif.Delaunay.c59_insertPoint",
    "Verif.Delaunay.c59_duplicate_false"
   ],
   "note": "Exact arithmetic. No general position: cocircular vertices and points on edges are covered; the new point must differ from all vertices, without that the negation is proved for every mesh (c59_duplicate_false)."
  },
  {
   "property": "C60",
   "status": "proved",
   "theorems": [
    "Verif.Delaunay.c60_find",
    "Verif.Delaunay.c60_find_within",
    "Verif.Delaunay.c60_cover",
    "Verif.Delaunay.c60_outside_false"
   ],
   "note": "Exact arithmetic; start triangles in any orientation."
  },
  {
   "property": "C61",
   "status": "proved",
   "theorems": [
    "Verif.Delaunay.c61_delaunay",
    "Verif.OctTree.c61_octtree",
    "Verif.Delaunay.c61_empty_ub",
    "Verif.Delaunay.c61_single_false",
    "Verif.Delaunay.c61_duplicate_false"
   ],
   "note": "For at least two pairwise different points, exact coordinates; all interleavings. The nearest neighbour search enters by its contract, which c61_octtree discharges for the oct-tree. Behaviour on no point, one point and repeated points is shown to be wrong or undefined by the other theorems."
  },
  {
   "property": "C62",
   "status": "proved",
   "theorems": [
    "Verif.Delaunay.c62_round"
   ],
   "note": "Sequentially consistent single accesses; exact coordinates; the nearest-neighbour structure enters as any choice of an already inserted vertex."
  },
  {
   "property": "C63",
   "status": "partial",
   "theorems": [
    "Verif.SampleHull.c63_filter_partial",
    "Verif.SampleHull.c63_compute_partial",
    "Verif.SampleHull.c63_lost_false",
    "Verif.SampleHull.c63_origin_false",
    "Verif.SampleHull.c63_covered_false",
    "Verif.SampleHull.c63_line_ub",
    "Verif.SampleHull.c63_index_false",
    "Verif.SampleHull.c63_projection_ub"
   ],
   "note": "False of the code: four counterexamples (compare-exchange overwrites its expected value; facets oriented by the origin; touching nodes skipped, undefined behaviour; positions refer to the filtered points). Proved for every interleaving: what the filter does keep, and that the result spans the filtered points."
  },
  {
   "property": "C64",
   "status": "proved",
   "theorems": [
    "Verif.QHull.c64_quickhull",
    "Verif.QHull.c64_corners_extreme",
    "Verif.QHull.c64_orientation_inside",
    "Verif.QHull.c64_orientation_inverted",
    "Verif.QHull.c64_orientation_false",
    "Verif.QHull.c64_flat_false"
   ],
   "note": "Exact arithmetic, input in general position (the statement's quantifier): termination, no use of freed facets, no exception, and the result is exactly the set of facets of the convex hull. c64_orientation_false and c64_flat_false show that a common outward orientation and the result on coplanar input cannot be had."
  },
  {
   "property": "C65",
   "status": "partial",
   "theorems": [
    "Verif.QHull.c65_vertices_partial",
    "Verif.QHull.c65_once_false"
   ],
   "note": "The returned set is exactly the set of extreme points, in order; that each is returned once holds only if different vertices have different coordinate sums, and is false in general (c65_once_false)."
  },
  {
   "property": "C66",
   "status": "partial",
   "theorems": [
    "Verif.QHull.c66_par_quickhull_partial",
    "Verif.QHull.c66_small_ub",
    "Verif.QHull.c66_small_false",
    "Verif.QHull.c66_deterministic",
    "Verif.QHull.par_outcome",
    "Verif.QHull.c66_moment_curve"
   ],
   "note": "Proved for all inputs in general position whose hull has at least 64 facets, for every interleaving; for smaller hulls the property is false (null pointer in the serial branch), proved for every such input."
  },
  {
   "property": "C67",
   "status": "partial",
   "theorems": [
    "Verif.LogTree.c67_dual_partial",
    "Verif.LogTree.c67_small_buffer_throws",
    "Verif.LogTree.c67_too_few_false",
    "Verif.LogTree.c67_small_buffer_false"
   ],
   "note": "Exact when the buffer is empty or holds at least k points and at least k points are stored. The property is false of the code with a non-empty buffer of fewer than k points (throws) and, with an empty buffer, for fewer than k stored points (uninitialised pointers)."
  },
  {
   "property": "C68",
   "status": "partial",
   "theorems": [
    "Verif.Hull2d.c68_brute_partial",
    "Verif.Hull2d.c68_small_ub",
    "Verif.Hull2d.c68_two_false",
    "Verif.Hull2d.c68_collinear_false",
    "Verif.Hull2d.c68_throws_false"
   ],
   "note": "Proved for at least three points, no three collinear. False otherwise: undefined for fewer than two points, one of two points missing, wrong results or exception with collinear triples."
  },
  {
   "property": "C69",
   "status": "proved",
   "theorems": [
    "Verif.BatchKd.c69_build",
    "Verif.BatchKd.c69_order",
    "Verif.BatchKd.c69_queries"
   ],
   "note": "for all item lists up to 2^47 within the capacity, serial or parallel, every order of the parallel iterations; the static trees of the log-structured tree are of this kind, so the builds used in C26, C27, C55 and C67 are the ones the code makes. Rounded arithmetic: C101."
  },
  {
   "property": "C70",
   "status": "partial",
   "theorems": [
    "Verif.QHull.c70_filter_partial",
    "Verif.QHull.c70_pseudo_partial",
    "Verif.QHull.c70_small_ub",
    "Verif.QHull.c70_duplicates_diverge",
    "Verif.QHull.c70_duplicates_false",
    "Verif.QHull.c70_scale_false",
    "Verif.QHull.c70_instance"
   ],
   "note": "False of the code for repeated corners, small scales and hulls of fewer than 64 facets (negations proved); proved for inputs in general position with hulls of at least 64 facets, and the filter for inputs that may have points in one plane."
  },
  {
   "property": "C71",
   "status": "partial",
   "theorems": [
    "Verif.BatchKd.c71_history_partial",
    "Verif.BatchKd.c71_states",
    "Verif.BatchKd.c71_ties_false",
    "Verif.BatchKd.c71_refill_false",
    "Verif.BatchKd.c71_overflow_false"
   ],
   "note": "False with equal coordinates, after bulk_erase<false> emptied the tree, and beyond the capacity; holds for every other history. The facts about all reachable states hold with equal coordinates."
  },
  {
   "property": "C72",
   "status": "partial",
   "theorems": [
    "Verif.Dataset.c72_in_ball",
    "Verif.Dataset.c72_in_cube",
    "Verif.Dataset.c72_on_sphere",
    "Verif.Dataset.c72_on_cube",
    "Verif.Dataset.c72_shapes",
    "Verif.Dataset.c72_thin_cube_false",
    "Verif.Dataset.c72_thick_sphere_false"
   ],
   "note": "False on a cube of thickness 0 (throws) and on a sphere of thickness above 1 (write outside the sequence); holds otherwise. Exact arithmetic after the conversion of the hash."
  },
  {
   "property": "C73",
   "status": "partial",
   "theorems": [
    "Verif.Dataset.c73_simden",
    "Verif.Dataset.c73_varden",
    "Verif.Dataset.c73_returns",
    "Verif.Dataset.c73_simden_near_partial",
    "Verif.Dataset.c73_box_false",
    "Verif.Dataset.c73_negative_false"
   ],
   "note": "The walk is proved for every sequence of random numbers; that all points lie in the box is false, and a negative share of noise writes outside the sequence. Exact arithmetic."
  },
  {
   "property": "C74",
   "status": "partial",
   "theorems": [
    "Verif.BatchKd.c74_erase_one",
    "Verif.BatchKd.c74_erase_each",
    "Verif.BatchKd.c74_keep_partial",
    "Verif.BatchKd.c74_last_point_false",
    "Verif.BatchKd.c74_half_false"
   ],
   "note": "Exact for log_tree erasures after every history. Without log_tree the property is false of the code: two witnesses of null dereferences; proved as long as both sides of the root keep a point."
  },
  {
   "property": "C75",
   "status": "proved",
   "theorems": [
    "Verif.Mst.c75_kruskal",
    "Verif.Mst.c75_finishes",
    "Verif.Mst.c75_deterministic",
    "Verif.Mst.c75_batch",
    "Verif.Mst.rrEnv_fair"
   ],
   "note": "Every interleaving of single reads, writes and compare-and-swap operations of the reserve and commit loops of kruskal and batchKruskal, with spurious compare-and-swap failures, under sequentially consistent memory: the result is that of the sequential scan; fair schedules finish."
  },
  {
   "property": "C76",
   "status": "partial",
   "theorems": [
    "Verif.Gift.c76_gift_partial",
    "Verif.Gift.c76_returns_partial",
    "Verif.Gift.c76_overfull",
    "Verif.Gift.c76_overfull_false",
    "Verif.Gift.c76_moved",
    "Verif.Gift.c76_moved_false",
    "Verif.Gift.c76_outside",
    "Verif.Gift.c76_outside_false",
    "Verif.Gift.c76_hull_exists"
   ],
   "note": "False of the code: pointers into a growing sequence dangle, the table of edges is too small for 13 points in convex position, and facets are oriented by the origin. Proved for every input in general position with the origin in the hull, a table with room and a buffer that does not move: exactly the facets of the hull are returned; every run that returns returns the hull."
  },
  {
   "property": "C77",
   "status": "partial",
   "theorems": [
    "Verif.SampleHull.c77_grid_partial",
    "Verif.SampleHull.c77_no_overflow",
    "Verif.SampleHull.c77_collision",
    "Verif.SampleHull.c77_collision_false",
    "Verif.SampleHull.c77_equal_ub"
   ],
   "note": "For every order of the insertions: a sublist of the input, no two points of one cell, every cell represented if no point lies on the upper faces in y and z. False otherwise (cell numbers collide) and undefined if all points are equal."
  },
  {
   "property": "C78",
   "status": "partial",
   "theorems": [
    "Verif.SampleHull.c78_small",
    "Verif.SampleHull.c78_large_partial",
    "Verif.SampleHull.c78_result_partial",
    "Verif.SampleHull.c78_small_hull_false",
    "Verif.SampleHull.c78_instance",
    "Verif.SampleHull.c78_lost_false"
   ],
   "note": "Below 1000 points the hull. From there on the hull of the points that the filter kept, equal to the hull of the input iff all extreme points were kept. False: hulls of fewer than 64 facets are never returned, and hull vertices can be lost."
  },
  {
   "property": "C79",
   "status": "partial",
   "theorems": [
    "Verif.RandInc.c79_returns_partial",
    "Verif.RandInc.c79_empty_false",
    "Verif.RandInc.c79_ring_partial",
    "Verif.RandInc.c79_no_points"
   ],
   "note": "False as stated: an empty sequence is returned for every input (c79_empty_false). Proved: it always returns without touching a null or deleted facet, for every eps >= 0, batch size and order (c79_returns_partial); with exact tests the ring it builds and drops is the hull (c79_ring_partial)."
  },
  {
   "property": "C80",
   "status": "partial",
   "theorems": [
    "Verif.LogTree.Arr.c80_run_partial",
    "Verif.LogTree.Arr.c80_no_room",
    "Verif.LogTree.Arr.c80_size_false",
    "Verif.LogTree.Arr.c80_knn_partial",
    "Verif.LogTree.Arr.c80_knn_false"
   ],
   "note": "False of the code: erased points stay in size() and keep their places, and knn reads unordered candidates. Proved for every history within the room: contains and orthogonalQuery are exact, the deviations are exactly these, running out of places is undefined (throws in debug builds), knn exact when k divides the number of points."
  },
  {
   "property": "C81",
   "status": "partial",
   "theorems": [
    "Verif.Brute.c81_orthRange_false",
    "Verif.Brute.c81_orthRange_sound",
    "Verif.Brute.c81_orthRange_partial",
    "Verif.Brute.c81_bruteforceKnn",
    "Verif.Brute.c81_bruteForceParallel",
    "Verif.Brute.c81_single"
   ],
   "note": "bruteforceOrthRange loses indices when iterations overlap (witness); sound under all schedules and exact without overlap. bruteforceKnn and bruteForceParallel are exact for all inputs."
  },
  {
   "property": "C82",
   "status": "partial",
   "theorems": [
    "Verif.Hash.c82_run_partial",
    "Verif.Hash.c82_entries_exact",
    "Verif.Hash.c82_capacity",
    "Verif.Hash.c82_fits",
    "Verif.Hash.c82_resize",
    "Verif.Hash.c82_resize_room",
    "Verif.Hash.c82_entries_false",
    "Verif.Hash.c82_contains_false",
    "Verif.Hash.c82_room_false"
   ],
   "note": "False of the code after deletions: deleted keys stay as entries with key empty_key-1 and use up room. Proved for all call sequences with a free slot, with the exact effect of deletions; without deletions it is the full property."
  },
  {
   "property": "C83",
   "status": "partial",
   "theorems": [
    "Verif.Cmd.c83_option",
    "Verif.Cmd.c83_switch",
    "Verif.Cmd.c83_value",
    "Verif.Cmd.c83_argument",
    "Verif.Cmd.c83_file_partial",
    "Verif.Cmd.c83_int_partial",
    "Verif.Cmd.c83_default",
    "Verif.Cmd.c83_int_nonneg",
    "Verif.Cmd.c83_double_partial",
    "Verif.Cmd.c83_help",
    "Verif.Cmd.c83_ioFiles",
    "Verif.Cmd.c83_sizeAndFile",
    "Verif.Cmd.c83_size_false",
    "Verif.Cmd.c83_file_false",
    "Verif.Cmd.c83_int_false",
    "Verif.Cmd.c83_double_false"
   ],
   "note": "False of the code for malformed lines: missing file, non-numeric values, negative sizes. Proved for all well-formed lines."
  },
  {
   "property": "C84",
   "status": "partial",
   "theorems": [
    "Verif.Hull3d.c84_dfs",
    "Verif.Hull3d.c84_size",
    "Verif.Hull3d.c84_print",
    "Verif.Hull3d.c84_print_check",
    "Verif.Hull3d.c84_pts",
    "Verif.Hull3d.c84_check_partial",
    "Verif.Hull3d.c84_check_false"
   ],
   "note": "Traversal, size, points and the size checker are proved for every memory. The link checker is false of the code: it accepts every memory, shown in general and on a tetrahedron with wrong links."
  },
  {
   "property": "C85",
   "status": "partial",
   "theorems": [
    "Verif.LogTree.c85_tree_partial",
    "Verif.LogTree.c85_cotree_partial",
    "Verif.LogTree.c85_log_partial",
    "Verif.LogTree.c85_euclidean_partial",
    "Verif.LogTree.c85_empty_false",
    "Verif.ForkJoin.FJ.run_seq"
   ],
   "note": "True for all schedules with at least one query; with no queries the code is undefined (c85_empty_false), and on the log tree the buffer has to be empty or hold at least k points (C67)."
  },
  {
   "property": "C86",
   "status": "proved",
   "theorems": [
    "Verif.KdTree.c86_build",
    "Verif.KdTree.c86_nodes"
   ],
   "note": "Access level for the three arrays; slices read by one thread are read in one access."
  },
  {
   "property": "C87",
   "status": "partial",
   "theorems": [
    "Verif.Emst.c87_wspd_partial",
    "Verif.Emst.c87_wspd_false",
    "Verif.Emst.c87_spanner_partial",
    "Verif.Emst.c87_spanner_false",
    "Verif.Emst.c87_emst_partial",
    "Verif.Emst.c87_emst_false"
   ],
   "note": "False of the code when 2 <= n < number of workers: the buffers have size n / workers = 0 and every execution writes into an empty array (the three _false theorems). With at least as many points as workers the full claim is proved for every schedule, worker assignment and copy order (the three _partial theorems; the EMST one keeps the outcomes of C16: unfair schedules of Kruskal's rounds may not end, and speculative_for's abort for an exhausted round bound)."
  },
  {
   "property": "C88",
   "status": "partial",
   "theorems": [
    "Verif.BatchKd.c88_verify_exact",
    "Verif.BatchKd.c88_count",
    "Verif.BatchKd.c88_object_partial",
    "Verif.BatchKd.c88_co_partial",
    "Verif.BatchKd.c88_spatial_false",
    "Verif.BatchKd.c88_erase_false",
    "Verif.BatchKd.c88_blind_false"
   ],
   "note": "What the check tells is proved exactly for all reachable states. That it accepts every tree the operations leave behind is false (spatial splits, erasure without rebuild: _false theorems); proved for object medians after build, insertion and rebuilding erasure, heap and cache-oblivious layout."
  },
  {
   "property": "C89",
   "status": "partial",
   "theorems": [
    "Verif.IO.c89_edge_file",
    "Verif.IO.c89_edge_words",
    "Verif.IO.c89_weighted_file_partial",
    "Verif.IO.c89_weighted_false"
   ],
   "note": "exact text of the file for all unweighted edge sequences and for weights of at most 18 characters; false for negative weights with three-digit exponents"
  },
  {
   "property": "C90",
   "status": "partial",
   "theorems": [
    "Verif.Delaunay.c90_edges",
    "Verif.Delaunay.c90_orientation",
    "Verif.Delaunay.c90_boundary_partial",
    "Verif.Delaunay.c90_race_false",
    "Verif.Delaunay.c90_small_false",
    "Verif.Delaunay.c90_overlap_false"
   ],
   "note": "lines about edges: exact for every triangulation and execution; boundary size: exact for sequential execution, false under races on the shared counters"
  },
  {
   "property": "C91",
   "status": "partial",
   "theorems": [
    "Verif.KdTree.c91_build",
    "Verif.KdTree.c91_orthogonal",
    "Verif.KdTree.c91_range_partial",
    "Verif.KdTree.c91_accuracy",
    "Verif.KdTree.c91_agree_false",
    "Verif.KdTree.c91_separated_false"
   ],
   "note": "Rounded arithmetic with unbounded exponent range; overflow, underflow and NaN are not modelled. The ball search is shown to lie between two filters and to be exact up to a few roundings; full agreement with bruteforceRange is false, with a witness in double values."
  },
  {
   "property": "C92",
   "status": "proved",
   "theorems": [
    "Verif.KdTree.c92_bccp",
    "Verif.KdTree.c92_bruteforce",
    "Verif.KdTree.c92_accuracy"
   ],
   "note": "In rounded arithmetic (no overflow, NaN); exact version is C07."
  },
  {
   "property": "C93",
   "status": "partial",
   "theorems": [
    "Verif.KdTree.c93_knn_partial",
    "Verif.KdTree.c93_duplicates_false",
    "Verif.KdTree.c93_few_partial"
   ],
   "note": "Holds when coordinates are equal or more than a few roundings apart; false for closer points (c93_duplicates_false)."
  },
  {
   "property": "C94",
   "status": "proved",
   "theorems": [
    "Verif.KdTree.c94_cover",
    "Verif.KdTree.c94_separated"
   ],
   "note": "The decomposition in rounded arithmetic: exact coverage for every monotone odd rounding, separation up to a few roundings."
  },
  {
   "property": "C95",
   "status": "proved",
   "theorems": [
    "Verif.Emst.c95_spanning",
    "Verif.Emst.c95_near_minimal",
    "Verif.Emst.c95_small"
   ],
   "note": "euclideanMst in rounded arithmetic: spanning tree for every monotone odd rounding, nearly minimal for bounded relative error."
  },
  {
   "property": "C96",
   "status": "proved",
   "theorems": [
    "Verif.SpatialGraph.c96_connected",
    "Verif.SpatialGraph.c96_stretch",
    "Verif.SpatialGraph.c96_small"
   ],
   "note": "spanner in rounded arithmetic: connected for every monotone odd rounding; stretch tau slightly above t under bounded relative error."
  },
  {
   "property": "C97",
   "status": "partial",
   "theorems": [
    "Verif.Delaunay.c97_checked_partial",
    "Verif.Delaunay.c97_race_false"
   ],
   "note": "No line about edges in any execution, none about the boundary if the check runs its iterations one after the other; that nothing is printed in every execution is false on every input (lost increments, c97_race_false)."
  },
  {
   "property": "C98",
   "status": "partial",
   "theorems": [
    "Verif.Delaunay.c98_circumcenter",
    "Verif.Delaunay.c98_circumcenter_line",
    "Verif.Delaunay.c98_area",
    "Verif.Delaunay.c98_inCircle_partial",
    "Verif.Delaunay.c98_inCircle_corner",
    "Verif.Delaunay.c98_infinity_false",
    "Verif.Delaunay.c98_angle_partial",
    "Verif.Delaunay.c98_angle_false",
    "Verif.Delaunay.c98_minAngle_partial",
    "Verif.Delaunay.c98_minAngle_false"
   ],
   "note": "Circumcentre and normalised area proved. The in-circle value is not -1 at infinity and the angles are off by the constant 3.14159; both proved, with what holds instead."
  },
  {
   "property": "C99",
   "status": "partial",
   "theorems": [
    "Verif.Hull2d.c99_defined_partial",
    "Verif.Hull2d.c99_grid_partial",
    "Verif.Hull2d.c99_twice_false"
   ],
   "note": "Termination and valid indices for every rounding; the hull for coordinates of 25 bits on a common grid; false in general (an index twice, an interior point), with a witness of four doubles."
  },
  {
   "property": "C100",
   "status": "proved",
   "theorems": [
    "Verif.BatchKd.c100_knn",
    "Verif.BatchKd.c100_coknn",
    "Verif.BatchKd.c100_dual",
    "Verif.BatchKd.c100_dual_interleaved",
    "Verif.BatchKd.c100_true",
    "Verif.Float.isRootRounding_rne"
   ],
   "note": "Searches in rounded arithmetic are exact with respect to the computed distance; rounding to nearest meets the assumptions (no overflow/underflow)."
  },
  {
   "property": "C101",
   "status": "partial",
   "theorems": [
    "Verif.BatchKd.c101_object_partial",
    "Verif.BatchKd.c101_serial_partial",
    "Verif.BatchKd.c101_spatial_partial",
    "Verif.BatchKd.c101_spatial_coarse_partial",
    "Verif.BatchKd.c101_co_partial",
    "Verif.BatchKd.c101_co_serial_partial",
    "Verif.BatchKd.c101_object_false",
    "Verif.BatchKd.c101_spatial_false",
    "Verif.BatchKd.c101_co_false"
   ],
   "note": "False as stated: neighbouring doubles (c101_object_false, c101_spatial_false, c101_co_false). Proved when no two coordinates are neighbours (heap layout, spatial median, cache-oblivious), for serial object-median builds, and for spatial-median builds with leaves of two or more points. Overflow is not covered."
  },
  {
   "property": "C102",
   "status": "partial",
   "theorems": [
    "Verif.DynKd.c102_kNN",
    "Verif.DynKd.c102_steps",
    "Verif.DynKd.c102_history_partial",
    "Verif.DynKd.c102_erase_false"
   ],
   "note": "(a) and (b) proved. (c) is false for neighbouring doubles (c102_erase_false); proved when no two stored positions agree or are neighbours in a dimension and agree in the next (c102_history_partial). Overflow and underflow are not covered."
  },
  {
   "property": "C103",
   "status": "partial",
   "theorems": [
    "Verif.OctTree.c103_kNearest_partial",
    "Verif.OctTree.c103_nearest_partial",
    "Verif.OctTree.c103_missed_partial",
    "Verif.OctTree.c103_kNearest_false"
   ],
   "note": "(a) and (c) proved for every rounding with relative error below 1, (d) for rounding to nearest; (b) is false and its negation is proved for double precision through build, sort and search. Overflow and underflow are left out."
  },
  {
   "property": "C104",
   "status": "partial",
   "theorems": [
    "Verif.Morton.c104_sort2d_partial",
    "Verif.Morton.c104_sort3d_partial",
    "Verif.Morton.c104_underflow_false",
    "Verif.Morton.c104_range_false"
   ],
   "note": "Holds for every rounding with relative error at most 2^-30 and unbounded exponents; false for extents of a few thousand smallest doubles, where the box size underflows (two negations, doubles with gradual underflow). Overflow is not covered."
  },
  {
   "property": "C105",
   "status": "partial",
   "theorems": [
    "Verif.Hash.c105_check",
    "Verif.Hash.c105_check_room_partial",
    "Verif.Hash.c105_fold",
    "Verif.Hash.c105_check_false",
    "Verif.Hash.c105_concurrent_partial",
    "Verif.Hash.c105_concurrent_abort",
    "Verif.Hash.c105_concurrent_fold"
   ],
   "note": "insert_f is proved in full, for calls one after the other and for concurrent calls with an atomic function under every interleaving with room for all keys. insert_check: always returns, exact effect; that it gives up only on full tables holds up to 10001 slots, also for concurrent calls under every interleaving, and is false beyond (c105_check_false). Sequential theorems: keys other than empty_key - 1."
  },
  {
   "property": "C106",
   "status": "partial",
   "theorems": [
    "Verif.SampleHull.Planar.c106_grid_partial",
    "Verif.SampleHull.Planar.c106_no_overflow",
    "Verif.SampleHull.Planar.c106_collision",
    "Verif.SampleHull.Planar.c106_collision_false",
    "Verif.SampleHull.Planar.c106_equal_ub"
   ],
   "note": "For every order of the insertions: a sublist of the input, no two points of one cell, every cell represented if no point lies on the upper side of the square. False otherwise, and undefined for equal points. Exact arithmetic."
  },
  {
   "property": "C107",
   "status": "proved",
   "theorems": [
    "Verif.Hull3d.c107_reset",
    "Verif.Hull3d.c107_stats"
   ],
   "note": "For every memory in which the facets that can be reached are allocated and have their pointers."
  },
  {
   "property": "C108",
   "status": "partial",
   "theorems": [
    "Verif.Hash.c108_read_partial",
    "Verif.Hash.c108_value_false"
   ],
   "note": "Everything but the last clause is proved for every interleaving. That find returns an inserted value is false for a key whose insertion has not returned yet (c108_value_false); proved exact otherwise."
  }
 ]
}