{"id": "C01", "title": "kd-tree build keeps every item and every node is sound", "statement": "Building a kd-tree over a non-empty point set with leaf size >= 1 terminates without throwing; the items stored in the leaves, read left to right, are a permutation of the input items; every internal node holds exactly the items of its two children, both non-empty; every leaf holds at most leafSize items; and the box of every node is exactly the coordinate-wise min/max of its items.", "quantifier": "for every dimension, every non-empty list of items, every leaf size >= 1, and for both the serial and the parallel construction", "why_tests_cant": "Tests build a few random trees; ties, duplicated points, degenerate splits (all items on one side of the cut) and arbitrary shapes need a proof over all inputs.", "anchors": ["include/kdTree/treeImpl.h: constructSerial, constructParallel, splitItemSerial, boundingBoxSerial, boundingBoxParallel", "include/kdTree/kdTree.h: tree, node"]}
{"id": "C02", "title": "kd-tree node storage never overflows and is never shared", "statement": "The array of 2n-1 node slots allocated for a tree over n items is large enough for every tree shape: every node created is written to a slot inside the array and no two nodes share a slot, in the serial and in the parallel construction.", "quantifier": "for every n, every leaf size >= 1 and every sequence of split positions strictly inside the ranges", "why_tests_cant": "An out-of-bounds or aliased placement new depends on the exact sequence of split positions; tests see only a few shapes and heap overflow may be silent.", "anchors": ["include/kdTree/treeImpl.h: constructSerial, constructParallel (space offsets 1, 2*median-1, 2*median)", "include/kdTree/kdTree.h: tree constructor (malloc 2n-1)"]}
{"id": "C03", "title": "Spherical range search returns exactly the points in the ball", "statement": "rangeSearch(tree, query, radius) returns, with multiplicity, exactly the items whose distance to the query point is at most radius.", "quantifier": "for every tree built from any non-empty item list, every query point (stored or not) and every radius >= 0", "why_tests_cant": "Pruning with boxes can lose a point only for special geometric configurations (boundary contact, degenerate boxes); sampling cannot exclude them.", "anchors": ["include/kdTree/rangeSearchImpl.h: rangeHelper, rangeSearch, bruteforceRange", "include/kdTree/kdTree.h: boxCompare"]}
{"id": "C04", "title": "Orthogonal range search returns exactly the points in the box", "statement": "orthogonalRangeSearch(tree, query, halfLen) returns, with multiplicity, exactly the items that lie in the axis-parallel box of half side halfLen centred at the query (boundary included).", "quantifier": "for every tree built from any non-empty item list, every query point and every half length", "why_tests_cant": "Same as for spherical search: wrong boundary handling shows only for coordinates exactly on box faces.", "anchors": ["include/kdTree/rangeSearchImpl.h: orthRangeHelper, orthogonalRangeSearch, bruteforceOrthRange"]}
{"id": "C05", "title": "The k-nearest buffer keeps the k smallest costs for every insertion history", "statement": "A kNN buffer of capacity 2k, after any sequence of inserts of which at least k were made, answers keepK with the k-th smallest cost of everything inserted, and its first k entries are then k inserted entries with the smallest costs; asking before k inserts throws.", "quantifier": "for every k >= 1, every finite insertion history with keepK calls interleaved anywhere, and every nth_element result allowed by its specification", "why_tests_cant": "Correctness depends on the whole history of partial truncations and stale slots; tests only exercise a handful of histories.", "anchors": ["include/kdTree/knnImpl.h: knnBuf::buffer::insert, keepK, operator[], hasK"]}
{"id": "C06", "title": "batchKnn returns the exact k nearest neighbours", "statement": "batchKnn over a tree whose queries are the stored points returns for each query k distinct stored items such that no other stored item is strictly closer than the farthest returned one.", "quantifier": "for every item list with k <= n and every k >= 1, every leaf size", "why_tests_cant": "Exactness must hold for every point set, including ones with many equal coordinates; brute-force comparison on random data never has coinciding node boxes.", "anchors": ["include/kdTree/knnImpl.h: knnHelper, knnRangeHelper, batchKnn"]}
{"id": "C07", "title": "Bichromatic closest pair is the exact minimum", "statement": "bichromaticClosestPair(t1, t2) returns a pair of items, one from each tree, whose distance is the minimum over all pairs.", "quantifier": "for all pairs of non-empty trees (any item lists, any leaf sizes)", "why_tests_cant": "Pruning and visiting order depend on box distances; ties and touching boxes are corner cases random tests miss.", "anchors": ["include/kdTree/bccpImpl.h: bcpHelper, bcpBruteforce, bichromaticClosestPair", "include/kdTree/treeImpl.h: nodeDistance"]}
{"id": "C08", "title": "WSPD covers every pair of points exactly once", "statement": "The well-separated pair decomposition of a tree with leaf size 1 covers every unordered pair of distinct items by exactly one reported node pair.", "quantifier": "for every non-empty item list and every separation constant s >= 0, and for any separation test that accepts all leaf pairs", "why_tests_cant": "A missed or doubly covered pair breaks spanner and EMST; the number of pairs is quadratic and depends on the tree shape.", "anchors": ["include/kdTree/wspdImpl.h: computeWspdSerial, findPairSerial, computeWspdParallel, findPairParallel"]}
{"id": "C09", "title": "Every reported WSPD pair is geometrically well separated", "statement": "For every pair (A,B) reported by the decomposition with constant s there are balls of a common radius r around A's and B's items whose distance is at least s*r; and the decomposition never throws when leaf size is 1.", "quantifier": "for every non-empty item list and s >= 0; serial and parallel versions report the same set of pairs", "why_tests_cant": "Well-separatedness is a geometric statement over all item pairs of all reported pairs, unbounded in number.", "anchors": ["include/kdTree/wspdImpl.h: geomWellSeparated, wspdSerial, wspdParallel"]}
{"id": "C10", "title": "Parallel collection buffers lose nothing and duplicate nothing", "statement": "After any number of concurrent insertions by any number of workers, collecting the per-worker buffers yields every inserted element exactly once, and no insertion writes outside its buffer.", "quantifier": "for every number of workers, every initial size >= 1, every element type at least as large as a pointer, and every assignment of insertions to workers in any order", "why_tests_cant": "Growth and prefix-sum offsets depend on how the scheduler distributes the insertions over workers.", "anchors": ["include/pargeo/parBuffer.h: parBuf::increment, incrementParent, finalize, parBufCollect"]}
{"id": "C11", "title": "split_two / split_k are stable partitions", "statement": "split_two and split_k reorder the input into contiguous groups by flag/bucket, keep the relative order inside a group, lose or duplicate nothing, and report the right group boundaries.", "quantifier": "for every sequence, every flag vector of the same length with values below k, and every block size used by the parallel scan", "why_tests_cant": "Block boundaries, empty groups and offsets arise in unboundedly many combinations.", "anchors": ["include/kdTree/treeImpl.h: split_two", "include/pargeo/parlayAddon.h: split_k", "include/dynamicKdTree/dynKdTree.h: split_two"]}
{"id": "C12", "title": "Union-find represents exactly the equivalence generated by the links", "statement": "After any history of find and link operations, two ids have the same find result iff they are connected by the links made; find always terminates and never changes the represented partition, and linking two different roots merges exactly their two classes. With finds running concurrently, every find returns the representative of its argument at some moment of its execution.", "quantifier": "for every n, every history of find/link operations, and every interleaving of concurrent finds with valid links", "why_tests_cant": "Path compression mutates the structure on reads, so correctness is a property of all histories.", "anchors": ["include/euclideanMst/unionFind.h: unionFind::find, union_roots, link, tryLink, edgeUnionFind"]}
{"id": "C13", "title": "Atomic priority writes and counters are schedule independent", "statement": "After any interleaving of the compare-and-swap loops of several threads, write_min/write_max leave the minimum/maximum of the initial value and all written values; exactly the writers that are told they succeeded lowered/raised the value; write_add / fetch_and_add leave the initial value plus the sum of all amounts.", "quantifier": "for every number of threads, every list of values and every interleaving of their atomic steps", "why_tests_cant": "Interleavings are unbounded; stress tests only sample schedules.", "anchors": ["include/pargeo/atomics.h: write_min, write_max, write_add, fetch_and_add, utils_CAS"]}
{"id": "C14", "title": "Deterministic reservations make parallel Kruskal equal sequential Kruskal", "statement": "Running Kruskal's loop through speculative_for with reservations returns exactly the edges the sequential greedy scan returns, whatever the granularity, the round sizes and the order in which reserve and commit steps of a round are executed; it never accesses memory out of bounds, and its only other outcome is the documented exception for exceeding maxTries rounds.", "quantifier": "for every graph, every list of edges, every round size, and every execution order of the steps inside a round", "why_tests_cant": "The set of schedules is unbounded and the result must be schedule independent.", "anchors": ["include/euclideanMst/speculativeFor.h: speculative_for, reservation", "include/euclideanMst/kruskal.h: UnionFindStep, kruskal, batchKruskal"]}
{"id": "C15", "title": "Kruskal returns a minimum spanning forest", "statement": "The edges returned by kruskal form an acyclic set, connect exactly the vertices the input edges connect, and have minimum total weight among all such sets.", "quantifier": "for every n and every weighted edge list (ties included)", "why_tests_cant": "Optimality quantifies over all spanning forests.", "anchors": ["include/euclideanMst/kruskal.h: kruskal"]}
{"id": "C16", "title": "Euclidean MST is a minimum spanning tree of the complete distance graph", "statement": "euclideanMst returns n-1 edges forming a spanning tree whose total Euclidean length is minimum over all spanning trees of the complete graph on the points.", "quantifier": "for every point list with n >= 2", "why_tests_cant": "Relies on the fact that closest pairs of well-separated pairs contain an MST and on staged filtering; optimality cannot be established by sampling.", "anchors": ["src/euclideanMst/memoGfk/emst.cpp", "src/euclideanMst/wspd/emst.cpp", "src/euclideanMst/memoGfk/wspdFilter.h", "include/kdTree/wspdImpl.h", "include/kdTree/bccpImpl.h"]}
{"id": "C17", "title": "spanner returns a t-spanner", "statement": "For every two points, the graph returned by spanner(P, t) contains a path between them of total length at most t times their Euclidean distance.", "quantifier": "for every point list with n >= 2 and every t > 1", "why_tests_cant": "Quantifies over all pairs and all paths in all inputs.", "anchors": ["src/spatialGraph/spanner/spanner.cpp", "include/kdTree/wspdImpl.h"]}
{"id": "C18", "title": "kNN graph edges", "statement": "knnGraph(P, k) returns n*k edges: for each point exactly k edges to the k nearest other points, and no self loops.", "quantifier": "for every point list with 1 <= k < n", "why_tests_cant": "The self-removal logic depends on where the query itself appears in its own neighbour list, which varies with duplicates.", "anchors": ["src/spatialGraph/knnGraph/knnGraph.cpp"]}
{"id": "C19", "title": "Dynamic kd-tree behaves like a multiset under insert and erase", "statement": "After any history of batch insertions and batch erasures the dynamic kd-tree stores exactly the multiset obtained by the same operations on a mathematical multiset (erase removes all stored copies equal to an erased point), and size() is its cardinality.", "quantifier": "for every history of insert/erase batches", "why_tests_cant": "Errors depend on the history (erasing twice, ties with the split value after a rebuild).", "anchors": ["include/dynamicKdTree/dynKdTree.h: dataNode::insert, erase; internalNode::insert, erase; rootNode"]}
{"id": "C20", "title": "Dynamic kd-tree kNN is exact", "statement": "kNN(query, k) on the dynamic tree returns the k stored points with smallest distances in ascending order.", "quantifier": "for every reachable tree state, every query and 1 <= k <= size", "why_tests_cant": "Exactness must hold for every reachable shape, including loose boxes left by erasures.", "anchors": ["include/dynamicKdTree/dynKdTree.h: rootNode::kNN, internalNode::kNNHelper, kNNRangeHelper, boundingBox::compare, kBuffer"]}
{"id": "C21", "title": "closestPair returns a globally closest pair", "statement": "closestPair returns two different input positions whose distance is the minimum over all pairs of different positions.", "quantifier": "for every point list with n >= 2 (serial and parallel divide and conquer), every dimension supported", "why_tests_cant": "The number of neighbours examined in the slab is a constant; that it always suffices is a packing argument over all configurations.", "anchors": ["src/closestPair/closestPair.cpp: divideConquerSerial, divideConquerParallel, numToCheck, findSlab, bruteForceSerial"]}
{"id": "C22", "title": "Batch kd-tree contains/find sees every stored point", "statement": "After a build, contains(p) is true iff p equals some stored point, and find locates its position.", "quantifier": "for every point list, every leaf cluster size, both split heuristics", "why_tests_cant": "Depends on ties between coordinates and split values, which random data does not contain.", "anchors": ["include/batchKdtree/shared/kdtree.h: contains, find", "include/batchKdtree/shared/kdnode.h"]}
{"id": "C23", "title": "Batch kd-tree orthogonalQuery is exact", "statement": "orthogonalQuery(lo, hi) returns, with multiplicity, exactly the present points inside the closed box.", "quantifier": "for every tree state (including partially erased), every query box", "why_tests_cant": "Boundary contact and erased points interplay for unboundedly many inputs.", "anchors": ["include/batchKdtree/shared/kdtree.h: orthogonalQuery", "include/batchKdtree/shared/box.h: boxCompare, itemInBox"]}
{"id": "C24", "title": "Batch kd-tree k-nearest queries are exact", "statement": "knn(queries, k) gives every query the k present points with the smallest distances.", "quantifier": "for every tree state with at least k present points, every query point, and for the single, batched and dual-tree algorithms", "why_tests_cant": "Exactness over all inputs and all traversal orders cannot be sampled.", "anchors": ["include/batchKdtree/shared/kdtree.h: knnSinglePoint, knn, dualKnnBase", "include/batchKdtree/shared/dual.h: DualKnnHelper", "include/batchKdtree/shared/knnbuffer.h"]}
{"id": "C25", "title": "Batch erase removes exactly the given points", "statement": "bulk_erase(points) leaves the multiset difference of the present points and the batch (each listed point removes one present equal point, if there is one, and nothing else); bounding boxes still contain all present points; size() is the number of present points.", "quantifier": "for every tree state and every batch of points", "why_tests_cant": "Depends on tie breaking and on history.", "anchors": ["include/batchKdtree/shared/kdtree.h: bulk_erase, bulk_erase_helper, bulk_erase_leaf, erase"]}
{"id": "C26", "title": "Log-structured tree: occupancy follows a binary counter", "statement": "After any history of batch insertions the set of occupied trees of the log-structured kd-tree is the binary representation of the number of full buffers inserted, tree i holds exactly 2^i buffers worth of points, and the small buffer never overflows. A batch throws, leaving everything unchanged, exactly when the points would exceed the capacity 2^T * B of buffer and trees, or would reach it with an empty buffer and a batch of a multiple of B points.", "quantifier": "for every history of insert batches of any sizes, every buffer size B >= 1 and number of trees", "why_tests_cant": "Carry propagation depends on the whole history of batch sizes.", "anchors": ["include/batchKdtree/log-tree/logtree.h: insert"]}
{"id": "C27", "title": "Log-structured tree stores exactly what was inserted", "statement": "After any history of insert batches every inserted point is stored exactly once across the buffer and the trees.", "quantifier": "for every history of insert batches", "why_tests_cant": "A batch may be cut at many places by the cascade of merges; losing one slice needs a specific size combination.", "anchors": ["include/batchKdtree/log-tree/logtree.h: insert, gatherFullTrees, size"]}
{"id": "C28", "title": "A tree emptied by erase can be refilled", "statement": "After all points of a batch tree were erased and new points inserted, contains/knn/orthogonalQuery see exactly the new points.", "quantifier": "for every erase/insert history that empties the tree", "why_tests_cant": "Requires a particular history (erase everything without rebuild, then insert).", "anchors": ["include/batchKdtree/binary-heap-layout/bhlkdtree.h: insert, bulk_erase", "include/batchKdtree/shared/kdtree.h: clear, present"]}
{"id": "C29", "title": "Binary-heap node layout stays in bounds and is injective", "statement": "The implicit heap layout used by the batch kd-tree gives every node of a tree over n points a distinct index smaller than the allocated node count.", "quantifier": "for every n and every leaf cluster size", "why_tests_cant": "Off-by-one depth errors appear only for particular n.", "anchors": ["include/batchKdtree/binary-heap-layout/bhlkdtree.h: buildKdtRecursive", "include/batchKdtree/shared/kdtree.h: num_nodes"]}
{"id": "C30", "title": "Cache-oblivious bucket sizes are an exact balanced partition", "statement": "The bucket sizes computed for the cache-oblivious layout sum to the number of points and differ by at most one, matching repeated median splitting.", "quantifier": "for every number of points and every number of levels", "why_tests_cant": "The bit-reversal split points interact with n mod 2^levels; only small cases are testable.", "anchors": ["include/batchKdtree/cache-oblivious/utils.h: computeSplitPoints, initializeSplitPoints"]}
{"id": "C31", "title": "Bloom filter has no false negatives", "statement": "might_contain(p) is true for every inserted point, for any interleaving of concurrent insertions.", "quantifier": "for every filter size, every set of inserted points, every interleaving of the bit-setting steps", "why_tests_cant": "Concurrent bit setting in shared words can lose updates only under specific schedules.", "anchors": ["include/batchKdtree/shared/bloom.h"]}
{"id": "C32", "title": "Planar quickHull has the same convex hull as its input", "statement": "Every input point lies in the convex hull of the points at the returned indices, and every returned index is a valid input index.", "quantifier": "for every list of at least one planar point", "why_tests_cant": "Quantifies over all point sets, including collinear and duplicated ones.", "anchors": ["include/convexHull2d/quickHull/hull.h: compute, quickHullHelper, triArea"]}
{"id": "C33", "title": "Planar quickHull output is in clockwise convex position", "statement": "Every input point lies on or to the right of each consecutive edge of the returned cyclic sequence.", "quantifier": "for every list of planar points that are not all identical", "why_tests_cant": "Ordering errors show only for special configurations.", "anchors": ["include/convexHull2d/quickHull/hull.h: compute, quickHullHelper"]}
{"id": "C34", "title": "Divide-and-conquer planar hull equals the hull of the input", "statement": "divideConquer::compute returns indices whose hull contains all input points.", "quantifier": "for every input size and number of workers", "why_tests_cant": "Depends on the number of workers of the machine and on n modulo that number.", "anchors": ["src/convexHull2d/divideConquer/hull.cpp"]}
{"id": "C35", "title": "prefix-doubling loop is equivalent to the serial loop", "statement": "parallel_prefix processes the conflicts in the same order, and ends in the same state, as the serial loop, for any conflict/clean-up pair such that cleaning up at i leaves no conflict at indices up to i.", "quantifier": "for every length, every prefix start and threshold, every state type and conflict predicate", "why_tests_cant": "Round boundaries and rescans depend on conflict positions.", "anchors": ["include/enclosingBall/prefixFor.h: serial_prefix, parallel_prefix"]}
{"id": "C36", "title": "Welzl's algorithm returns the minimum enclosing ball", "statement": "With exact arithmetic, welzl (plain, move-to-front, pivoting) returns a ball that contains all points, and no ball with smaller radius does.", "quantifier": "for every point list in general dimension (affinely independent supports), any order", "why_tests_cant": "Minimality quantifies over all balls.", "anchors": ["include/enclosingBall/welzl/welzl.h", "include/enclosingBall/ball.h"]}
{"id": "C37", "title": "Orthant-scan and sampling enclosing balls contain all points when they return", "statement": "If the scan or sampling enclosing-ball routine returns, every input point is within the returned radius (plus the library epsilon).", "quantifier": "for every input with n >= 3*dim", "why_tests_cant": "The termination test is the only guarantee; must hold whatever happened in the iterations.", "anchors": ["src/enclosingBall/scan/seb.cpp: miniDiscOrt", "src/enclosingBall/sampling/seb.cpp: miniDiscOrt"]}
{"id": "C38", "title": "Morton codes are injective and monotone on grid cells", "statement": "The code interleaves the 16-bit cell coordinates: different cells get different codes, and a cell that is coordinate-wise larger or equal gets a larger or equal code; the sort returns a permutation of the input ordered by code.", "quantifier": "for all 16-bit cell coordinates and all point lists with at least two different locations (with a single location the box size is zero and the conversion is undefined)", "why_tests_cant": "2^32 (2D) and 2^48 (3D) cell combinations and all permutations.", "anchors": ["include/mortonSort/mortonSortImpl.h: shift, zorder2d, zorder3d, zorderSort2d, zorderSort3d"]}
{"id": "C39", "title": "Text tokenisation and printing round trip", "statement": "Splitting the printed text of a sequence into words gives back the words printed, in order; every maximal run of non-separator characters of any text is exactly one word.", "quantifier": "for all texts and all sequences of printable words", "why_tests_cant": "Unbounded strings; adjacent separators, leading/trailing separators, NUL padding.", "anchors": ["include/pargeo/IO.h: stringToWords, seqToString, is_space"]}
{"id": "C40", "title": "Reservation rounds pick independent winners and make progress", "statement": "In a round where every contender writes its id with a priority write on all its cells and wins iff it still owns all of them, two winners never share a cell, the highest-priority contender always wins, and after the check phase every reservation cell is back to the neutral value.", "quantifier": "for every set of contenders and cells and every interleaving of the reserve steps and of the check/reset steps", "why_tests_cant": "Independence must hold for all interleavings.", "anchors": ["src/delaunayTriangulation/incremental/delaunay.cpp: reserve_for_insert, insert", "src/convexHull2d/randInc/hull.cpp", "include/convexHull3d/parallelQuickHull/hullImpl.h: computeFrontierAndReserve, confirmReservation, resetReservation"]}
{"id": "C41", "title": "Mesh updates keep the neighbour relation symmetric", "statement": "Starting from a mesh where neighbour pointers are mutual across shared edges, splitting a triangle at an interior point, flipping an inner edge, extending a boundary edge and building the initial fan do not abort, give a mesh with the same property in which every vertex points to a triangle it belongs to, and change the number of triangles by +2, 0, +1 and to boundary_size - 2.", "quantifier": "for every mesh, every simplex handle and every rotation of the triangles involved", "why_tests_cant": "Pointer surgery must be right for every rotation of the involved triangles and every neighbourhood.", "anchors": ["src/delaunayTriangulation/incremental/topology.h: simplex::split, flip, across, extend, splitBoundary, triangle::update, locate", "src/delaunayTriangulation/incremental/delaunay.cpp: generate_boundary"]}
{"id": "C42", "title": "Quad/oct-tree k-nearest search is exact", "statement": "k_nearest of the triangulation's point locator returns the k closest other vertices of the tree.", "quantifier": "for every tree and every query vertex", "why_tests_cant": "Pruning by epsilon boxes must be right for every configuration.", "anchors": ["src/delaunayTriangulation/incremental/neighbors.h: kNN, nearest_nghs, within_epsilon_box", "src/delaunayTriangulation/incremental/oct_tree.h"]}
{"id": "C43", "title": "Edge de-duplication of Gabriel and Delaunay graphs", "statement": "From the multiset of triangle edges, delaunayGraph keeps each edge shared by two triangles exactly once; gabrielGraph keeps of these exactly the edges whose test passes in both triangles.", "quantifier": "for every edge multiset in which each edge appears at most twice", "why_tests_cant": "Sorting and comparing neighbours has boundary cases at the ends of the array.", "anchors": ["src/spatialGraph/gabrielGraph/gabrielGraph.cpp", "src/spatialGraph/delaunayGraph/delaunayGraph.cpp"]}
{"id": "C44", "title": "Beta-skeleton lune emptiness equals brute force", "statement": "The kd-tree test for a point inside the lune of an edge answers true iff some stored point other than the edge's end points lies in the lune.", "quantifier": "for every tree, every edge and every beta", "why_tests_cant": "Pruning with two circle boxes must be right for every configuration.", "anchors": ["src/spatialGraph/betaSkeleton/betaSkeleton.cpp", "src/spatialGraph/betaSkeleton/kdt.h: nonEmptyLuneHelper, nonEmptyLune"]}
{"id": "C45", "title": "Concurrent hash set inserts are linearizable", "statement": "For concurrent insertions into the open-addressing table with spare room, exactly one inserter of each distinct key is told it was new, no key is stored twice, and a later lookup of a key succeeds iff it was inserted.", "quantifier": "for every table size and hash function, every list of concurrent keys with fewer distinct keys than slots, every interleaving", "why_tests_cant": "Probe sequences of racing inserters interleave in unboundedly many ways.", "anchors": ["include/convexHull3d/gift/sparse_table.h: insert, contains"]}
{"id": "C46", "title": "EMST component marking is exact", "statement": "After mark, a tree node carries a component id iff all its items are in one component of the current forest, so pairs dropped by the filter never join two different components.", "quantifier": "for every tree, every union-find state and every previous marking produced by a coarser forest", "why_tests_cant": "Depends on the history of markings across rounds.", "anchors": ["src/euclideanMst/memoGfk/mark.h: mark, markAll", "src/euclideanMst/memoGfk/wspdFilter.h"]}
{"id": "C47", "title": "Facet linking keeps 3D hull adjacency mutual", "statement": "Linking a facet with its three neighbours makes the facet and each neighbour point to each other across the shared edge, whatever the order in which the three neighbours are given.", "quantifier": "for every facet and every three facets sharing one edge each with it", "why_tests_cant": "Depends on vertex rotations and orientation swaps of the four facets.", "anchors": ["include/convexHull3d/hullTopology.h: linkFacet"]}
{"id": "C48", "title": "3D divide-and-conquer hull covers the input", "statement": "divideConquer::compute for 3D points considers every input point.", "quantifier": "for every input size and number of workers", "why_tests_cant": "Depends on n modulo the number of blocks, which depends on the machine.", "anchors": ["src/convexHull3d/divideConquer/hull.cpp: concurrentHull"]}
{"id": "C49", "title": "Brute-force 3D hull reports exactly the supporting triangles", "statement": "The brute-force 3D hull (used for at most 10 points) returns a facet for a triple of positions iff all other points are strictly visible from it or all are not visible.", "quantifier": "for every list of points", "why_tests_cant": "Quantifies over all triples and all points.", "anchors": ["src/convexHull3d/bruteforce/hull.cpp", "src/convexHull3d/serialQuickHull/hull.cpp"]}
{"id": "C50", "title": "Ball equality and containment", "statement": "Two balls compare equal iff centre and radius agree; contain(p) is true iff p is within the radius plus the library epsilon.", "quantifier": "for all balls and points", "why_tests_cant": "A comparison that is constantly true passes every test that expects equality.", "anchors": ["include/enclosingBall/ball.h: operator==, contain"]}
{"id": "C51", "title": "union_roots keeps the union-find structure usable", "statement": "After union_roots on two different roots, find still terminates inside the array and gives equal results exactly for connected ids.", "quantifier": "for every n and every history of find/union_roots operations", "why_tests_cant": "The failure depends on the encoding of ranks, which only a later find on the new root observes.", "anchors": ["include/euclideanMst/unionFind.h: unionFind::union_roots, find, is_root"]}
{"id": "C52", "title": "Dimension read from a point file", "statement": "readHeader returns the dimension of the points that writePointsToFile or writePointsToFilePbbs wrote to the file.", "quantifier": "for all non-empty sequences of points of any dimension (2 to 9 with the PBBS header), coordinates that fit their slot, all chunk sizes and all executions of the parallel printing loop", "why_tests_cant": "Unbounded files; the count depends on the exact separators the parallel printer leaves after removing padding.", "anchors": ["include/pargeo/pointIO.h: readHeader, countEntry, isGenericHeader, writePointsToFile, writePointsToFilePbbs", "include/pargeo/IO.h: seqToString, writeSeqToFile"]}
{"id": "C53", "title": "Incremental Delaunay insertion handles every vertex once", "statement": "The main loop of the incremental triangulation ends after at most n rounds, accesses no array outside its bounds, and inserts every vertex exactly once, as long as every round with contenders has a winner; and every such round has one.", "quantifier": "for all vertex lists, all outcomes of the rounds and all interleavings inside a round", "why_tests_cant": "The buffer of a round mixes left-over and fresh vertices by index arithmetic; a lost or doubled vertex needs particular success patterns.", "anchors": ["src/delaunayTriangulation/incremental/delaunay.cpp: incrementally_add_points, reserve_for_insert, insert"]}
{"id": "C54", "title": "Balls through given points", "statement": "Constructing a ball from at least two affinely independent points, or growing a ball by a further affinely independent point, gives the smallest ball with all these points on its boundary: its support is the given list, all of the support is at the returned radius from the returned centre, and any other sphere through the support has a larger radius.", "quantifier": "for every dimension, every number of support points, every prior content of the ball's matrices", "why_tests_cant": "The inverse matrix is updated incrementally; an error shows only for particular numbers of points, and minimality quantifies over all spheres.", "anchors": ["include/enclosingBall/ball.h: ball, grow, center, radius"]}
{"id": "C55", "title": "Log-structured tree: queries see all parts", "statement": "After any history of insert and erase batches a box query of the log-structured tree returns exactly the stored points in the closed box, contains answers whether a position is stored, and every row of knn holds k stored points of smallest distance to its query, although the points are spread over a buffer and several trees searched one after the other or in parallel with results combined.", "quantifier": "for every reachable state, every box, query point and k up to the number of stored points, serial and parallel variants", "why_tests_cant": "How points are spread depends on the whole history; the carry-over of the neighbour buffer from tree to tree fails only for particular sizes of the first tree.", "anchors": ["include/batchKdtree/log-tree/logtree.h: contains, orthogonalQuery, gatherFullTrees, knn, knn2, knn3"]}
{"id": "C56", "title": "Log-structured tree: erasing batches", "statement": "Erasing a batch from the log-structured tree removes exactly the listed positions: afterwards the stored positions are those inserted and not erased, size counts them, contains finds exactly them, and moving the points of half-empty trees back through insert never fails.", "quantifier": "for every history of insert and erase batches", "why_tests_cant": "Deletion marks points in several trees, depleted trees are dissolved and reinserted; the combinations depend on the whole history.", "anchors": ["include/batchKdtree/log-tree/logtree.h: erase, bulk_erase, insert", "include/batchKdtree/shared/kdtree.h: bulk_erase, moveElementsTo"]}
{"id": "C57", "title": "Dynamic kd-tree: sibling pointers", "statement": "When an insertion replaces both children of a node, the two new children end up as each other's siblings, also when the two sides are processed in parallel, and no deleted node is used.", "quantifier": "for every interleaving of the two sides", "why_tests_cant": "The failing interleaving needs one thread between two adjacent statements of the other.", "anchors": ["include/dynamicKdTree/dynKdTree.h: internalNode::insert, setSiblin"]}
{"id": "C58", "title": "betaSkeleton keeps exactly the edges with empty neighbourhood", "statement": "For beta > 0, betaSkeleton returns exactly the pairs of points whose beta-neighbourhood (for beta >= 1 the lune of two discs of diameter beta*|uv| touching u and v, for beta < 1 the lens of the two discs of radius |uv|/(2*beta) through u and v) contains no other point; skeletons are nested in beta, beta = 1 gives the Gabriel graph and beta = 2 the relative neighbourhood graph.", "quantifier": "for every point list, every beta and every edge list that contains the Gabriel edges", "why_tests_cant": "The geometric identity of the discs and the reduction to Delaunay edges concern all positions and all real beta.", "anchors": ["src/spatialGraph/betaSkeleton/betaSkeleton.cpp: betaSkeleton", "src/spatialGraph/betaSkeleton/kdt.h: nonEmptyLune, buildKdt"]}
{"id": "C59", "title": "Inserting a point keeps the triangulation Delaunay", "statement": "If the mesh is a Delaunay triangulation (mutual pointers, all triangles counterclockwise with disjoint interiors, no vertex strictly inside a circumcircle, convex outline) and the new point is not a vertex, lies strictly within the outline and in the closed triangle handed over, then the cavity search of reserve_for_insert ends, lists each corner of the triangles whose circle holds the point exactly once, and insert (split, then the flips of the queue) ends without aborting in a Delaunay triangulation of the old vertices and the new one, with two more triangles, the same outline, and no change to triangles whose circle does not hold the point. A point equal to a vertex always leaves a triangle without area.", "quantifier": "for every Delaunay mesh, cocircular vertices included, and every new point inside or on an edge of one of its triangles", "why_tests_cant": "The cavity may have any size and shape; the deferred flips must meet, in every neighbourhood, the triangles the search saw.", "anchors": ["src/delaunayTriangulation/incremental/delaunay.cpp: findCavity, reserve_for_insert, insert", "include/delaunayTriangulation/geometry.h: counterClockwise, inCircle"]}
{"id": "C60", "title": "The point location walk ends in the right triangle", "statement": "In a Delaunay triangulation with n triangles, find started at any triangle ends after at most 3n+2 triangles; for a point within the outline or on it the result is a triangle that contains the point, for any other point it is such a triangle or an outline edge with the point strictly beyond it. In particular the triangles cover everything within the outline.", "quantifier": "for every Delaunay mesh, every start triangle and every point", "why_tests_cant": "A visibility walk can run in circles in a triangulation that is not Delaunay; that it cannot here is a statement about all meshes.", "anchors": ["src/delaunayTriangulation/incremental/delaunay.cpp: find", "src/delaunayTriangulation/incremental/topology.h: outside, across, rotClockwise"]}
{"id": "C62", "title": "A parallel round of insertions is deterministic and keeps the triangulation Delaunay", "statement": "One round of incrementally_add_points (locate, find cavities and reserve in one parallel loop; check and insert in the next) on a Delaunay triangulation, with new distinct vertices inside the outline, gives for every interleaving of the threads' memory accesses the same mesh and the same flags: a vertex is inserted iff its id exceeds that of every other vertex of the buffer whose cavity has a corner in common, at least one is inserted, the new mesh is a Delaunay triangulation of the old vertices and those inserted, no thread calls abort, all reservations are withdrawn, and all threads finish.", "quantifier": "all meshes, buffers, ids, starting triangles, and all interleavings of single memory accesses", "why_tests_cant": "conflicts need two threads to work on overlapping cavities at the same time; a test run sees a few interleavings of a few inputs, and corrupted neighbour pointers may only show much later", "anchors": ["src/delaunayTriangulation/incremental/delaunay.cpp:115-153 reserve_for_insert, insert", "src/delaunayTriangulation/incremental/delaunay.cpp:269-277", "include/pargeo/atomics.h:68-82 write_max"]}
{"id": "C61", "title": "delaunay returns a Delaunay triangulation, the same one for every interleaving", "statement": "delaunay(P) for at least two pairwise different points returns P followed by ten points on a circle around P, and 2|P|+8 index triples which are a Delaunay triangulation of all these points: indices are in range, each point is a corner, corners are counterclockwise, triangles do not overlap, no point is strictly inside a circumscribed circle, and the triangles cover the polygon of the ten points, which has all of P strictly inside. Given the permutation and the nearest neighbour structure the result is the same for all interleavings of the threads, and with enough turns for each thread the call returns.", "quantifier": "all point lists without repetition of length at least 2, all permutations, all nearest neighbour searches which return a member of the set searched, all interleavings of single memory accesses", "why_tests_cant": "cocircular and collinear points, the choice of boundary, the batch sizes and all races act together; a test can check a triangulation it sees but not those of other inputs and schedules", "anchors": ["src/delaunayTriangulation/incremental/delaunay.cpp:191-221 generate_boundary", "src/delaunayTriangulation/incremental/delaunay.cpp:228-301 incrementally_add_points", "src/delaunayTriangulation/incremental/delaunay.cpp:308-369 delaunay"]}
{"id": "C63", "title": "The sampling convex hulls keep every point that can be on the hull", "statement": "The filter of the sampling convex hulls (planar and spatial) keeps every input point that is not inside the hull of the sample, so that the hull of the points kept is the hull of the input, and the planar sampling hull returns positions of input points that span all input points.", "quantifier": "for every point set, every sample of it and every interleaving of the parallel calls that set the flags", "why_tests_cant": "Whether a point is lost depends on the order of the points in a leaf, on which flags other calls set before and on the position of the boxes of the tree relative to the facets; tests with one worker and random points compare only sizes and rarely reach the boundary cases.", "anchors": ["include/convexHull2d/sampling/filter.h:flagVisible", "include/convexHull2d/sampling/filter.h:filter2", "include/convexHull3d/sampling/filter.h:flagVisible", "src/convexHull2d/sampling/hull.cpp:compute", "src/convexHull3d/sampling/hull.cpp:compute"]}
{"id": "C64", "title": "Sequential 3D quickhull returns the convex hull", "statement": "serialQuickHull::compute, called with points in general position, terminates without following a freed pointer and without throwing, and the triangles it returns are exactly the facets of the convex hull of the points: the corners are input points, all other points lie strictly on one side, every supporting triangle is returned, none twice, the corners span the hull and are its extreme points, and every edge lies on exactly two triangles. A returned triangle has the points on its positive side if the coordinate origin lies in the interior of the hull, and comes out inverted if the coordinate origin lies beyond it.", "quantifier": "for every finite list of points with no four (almost) in a plane and no three in a plane with the interior point, every epsilon, of every size", "why_tests_cant": "The set of inputs is infinite and the surface after each insertion depends on all earlier choices; tests look at a few random clouds and check sizes only.", "anchors": ["src/convexHull3d/serialQuickHull/hull.cpp: compute", "include/convexHull3d/serialQuickHull/quickHull.h: quickHullSerial", "include/convexHull3d/hullTopology.h: dfsFacet, dfsEdge, computeFrontier, linkFacet, getFacet", "include/convexHull3d/serialQuickHull/hullImpl.h: redistribute, facetWalk, furthestApex", "include/convexHull3d/initialize.h: initSerial", "include/convexHull3d/facet.h: facet"]}
{"id": "C65", "title": "computeVertex returns the extreme points", "statement": "serialQuickHull::computeVertex, called with points in general position, returns exactly the extreme points of their convex hull, ordered by operator<, each of them once.", "quantifier": "for every finite list of points in general position, every epsilon, every sort that meets its contract", "why_tests_cant": "Only the number of facets is looked at in tests; whether a vertex is repeated depends on ties in the order of the points.", "anchors": ["src/convexHull3d/serialQuickHull/hull.cpp: computeVertex", "include/convexHull3d/hullTopology.h: getVertex", "include/pargeo/point.h: operator<, operator=="]}
{"id": "C66", "title": "The parallel 3D quickhull returns the facets of the hull for every interleaving", "statement": "`hull3d::parallelQuickHull::compute` (serial branch below 64 facets, then rounds in which apexes reserve facets, the successful ones change the surface concurrently, and reservations are reset) returns exactly the facets of the convex hull, with no access to freed memory and no null pointer, whatever the thread interleaving, the addresses of facets, the choice of apexes (furthest or random) and the number of processors; every fair execution ends; and two executions return the same facets.", "quantifier": "for all point lists in general position, all numbers of processors, all rules for choosing apexes, all allocations, all orders of the conflict list, and all interleavings of the single memory accesses in both concurrent phases of each round", "why_tests_cant": "A test runs a few schedules on a few inputs; overlapping cavities, lost reservations and stale pointers show only in rare interleavings, and a null dereference through a method call may appear to work.", "anchors": ["include/convexHull3d/parallelQuickHull/quickHull.h:quickHullParallel", "include/convexHull3d/parallelQuickHull/hullImpl.h:reserve", "include/convexHull3d/parallelQuickHull/hullImpl.h:confirmReservation", "include/convexHull3d/parallelQuickHull/hullImpl.h:resetReservation", "include/convexHull3d/parallelQuickHull/hullImpl.h:redistribute", "include/convexHull3d/parallelQuickHull/hullImpl.h:furthestApexParallel", "src/convexHull3d/parallelQuickHull/hull.cpp:compute"]}
{"id": "C67", "title": "Dual-tree k nearest neighbours over the log-structured tree", "statement": "After any history of insert and erase batches, dualKnn(queries, tree, k) on a LogTree returns for every query k stored points such that no stored point left out is nearer than one of them, provided at least k points are stored.", "quantifier": "for all histories of batches, all query sets, all k >= 1, all numbers of trees and buffer sizes, any lower bound on box distances", "why_tests_cant": "the result depends on how the points are spread over the buffer and the static trees and on which node pairs are pruned; a test runs one spread", "anchors": ["include/batchKdtree/log-tree/logtree.h: dualKnnBase, gatherFullTrees", "include/batchKdtree/shared/dual.h: dualKnn, DualKnnHelper", "include/batchKdtree/shared/kdnode.h: updateDualDist"]}
{"id": "C68", "title": "Brute-force planar hull returns the extreme points in order round the hull", "statement": "hull2d::bruteforce::compute returns each index of an extreme point exactly once, in the order of the hull boundary (all input points on one side of every line through cyclically consecutive returned points), and every input point lies in the convex hull of the returned points.", "quantifier": "for every input array of points in the plane (false with fewer than three points and with three points on a line)", "why_tests_cant": "The boundary walk depends on the whole set of facets found; collinear triples, orderings of the array and small inputs change the facet list, and only a proof over all arrays shows when the facets form one cycle.", "anchors": ["src/convexHull2d/bruteforce/hull.cpp: pargeo::hull2d::bruteforce::compute, facet::connect, facet::getConnect, triArea"]}
{"id": "C69", "title": "The cache-oblivious kd-tree build is repeated median splitting, whatever the layout and the schedule", "statement": "Building the cache-oblivious batch kd-tree over n items (1 <= n <= capacity) returns, writes only inside its node array, puts the nodes at pairwise different places among the first 2n-1, and gives the same item order, the same splits and the same boxes as splitting the items at the median again and again (the binary-heap build). The order in which the iterations of the parallel loops run does not matter. Box queries, k nearest neighbours and (for items without equal coordinates) contains are exact on the result.", "quantifier": "for all item lists within the capacity, all leaf sizes and thresholds with leaf size below the threshold, serial and parallel builds, all permutations of the parallel iterations, all initial contents of the node array, all selection and sorting routines that meet their contracts", "why_tests_cant": "The place of every subtree depends on two memo tables, on the parity of sizes at every level and on how the levels split; a wrong place overwrites another node only for some sizes, and the schedule of the parallel loops cannot be enumerated by tests.", "anchors": ["include/batchKdtree/cache-oblivious/cokdtree.h: buildKdtRecursive, buildKdtRecursiveParallel, buildKdtTop, buildKdtBottom, build", "include/batchKdtree/cache-oblivious/utils.h: numLevels, bottomNumLevels, initializeChildIndices, computeLeftEndpoints, computeBottomChildSizes", "include/batchKdtree/shared/kdnode.h: recomputeBoundingBoxSubtree"]}
{"id": "C70", "title": "The pseudo hull is the convex hull", "statement": "hull3d::pseudo::compute(P) returns exactly the facets of the convex hull of P. The filter it runs first (pseudoHull) stops, returns points of P only, none more often than it is in P, and what it throws away does not change the convex hull; the parallel quickhull of the rest then returns the facets of the hull of all of P, under every interleaving.", "quantifier": "all finite inputs, all numbers of threads, all choices of apexes, all addresses and all interleavings of the quickhull", "why_tests_cant": "The filter throws away almost everything; that it never throws away an extreme point, and that the recursion (whose pieces share corners) ends, is a statement about all point sets and all depths. The inputs on which it fails (a repeated corner, a small scale, a small hull) are not in the test data.", "anchors": ["src/convexHull3d/pseudoHull/hull.cpp: internalFacet, pseudoHullHelper, pseudoHull, compute", "include/convexHull3d/pseudo/hull.h: pargeo::hull3d::pseudo::compute", "include/convexHull3d/parallelQuickHull/hullImpl.h"]}
{"id": "C71", "title": "Cache-oblivious kd-tree: insertions and erasures keep the multiset", "statement": "A cache-oblivious kd-tree is created with capacity 2^k and then updated by any history of insert, bulk_erase<true> and bulk_erase<false>. Afterwards size(), contains and orthogonalQuery see exactly the multiset of points that the history leaves, whatever the order of the parallel builds. In every reachable state (equal coordinates included) size() is the number of stored items, orthogonalQuery and knn are exact, insert adds exactly the given points, and the erasures remove only listed points, at most one for each listed point.", "quantifier": "for all histories, all points, all capacities up to 2^47, all leaf sizes of at least 1, all orders of the parallel iterations, all contents of the node array before each build, all results of nth_element and sort that meet their contracts", "why_tests_cant": "A failure needs a particular history, for example an insertion after an erasure that emptied the tree without a rebuild, or equal coordinates across a split; the order of the parallel build differs between runs, and no finite set of histories covers the interplay of stale flags, item order and rebuilt nodes.", "anchors": ["include/batchKdtree/cache-oblivious/cokdtree.h: CO_KDTree::build, insert, bulk_erase", "include/batchKdtree/shared/kdtree.h: KDTree::bulk_erase, moveElementsTo, orthogonalQuery, contains"]}
{"id": "C72", "title": "Uniform data generators put every point where they say", "statement": "uniformInPolyPoints returns n points, all in the ball (shape 0) or cube (shape 1) of the given scale; uniformOnPolyPoints returns n points, all within thickness*scale of the sphere (shape 0) or of a face of the cube (shape 1), dealt out to outside and inside, or to the faces, in the documented shares. A negative scale stands for n. This holds for every hash function, every monotone conversion to floating point and every order of the parallel loops, as soon as the rejection loops stop.", "quantifier": "for all n, all scales, all thicknesses (at least 0 and less than 1 on a sphere, positive on a cube), all dimensions (2 and 3 for the surface of a cube), all hash functions to 64-bit numbers, all orders of the parallel iterations", "why_tests_cant": "The tests look at 100 points of one hash function with scale 1 and thickness 0 or 0.1; the shares of the two shells, the remainder that goes to the last face, other thicknesses and other dimensions are not looked at.", "anchors": ["include/dataset/uniform.h: randFloat, randRange, randNd, randInUnitSphere, randOnUnitSphere, uniformInPolyPoints, uniformOnPolyPoints"]}
{"id": "C73", "title": "Seed spreader generators: clusters, moves and noise", "statement": "simdenGenerator and vardenGenerator return n points. The first ceil((1-rhoNoise) n) are those of a spreader that starts in the box [0,100000]^d: every point is within the current radius of the spreader, which moves by exactly the current shift after every 100 points at a place, and otherwise stays or jumps to a place in the box; the remaining points lie in the box. All points lie in the box.", "quantifier": "for all n, all shares of noise, all dimensions, all sequences of random numbers between 0 and 1 on which the rejection loops stop", "why_tests_cant": "The tests only look at the number of points, for n = 1000 in dimension 2 and one seed; where points are put depends on the whole sequence of random numbers.", "anchors": ["src/dataset/seedSpreader.cpp: randomDouble, spreader::restart, spreader::shift, spreader::random, spreader::_next, vardenSpreader::step, simdenGenerator, vardenGenerator", "include/dataset/seedSpreader.h"]}
{"id": "C74", "title": "Batch kd-tree: erasing points one at a time", "statement": "erase(point) and erase(sequence of points) of a batch-dynamic kd-tree remove, for each given point that is stored, exactly one stored copy, and change nothing else: size, contains, box queries and the next erase see the multiset of stored points minus the given points, and the stored items are the ones a bulk_erase of the same points leaves. erase(point) returns true exactly if contains said true. Erasing all points leaves an empty tree that answers further calls.", "quantifier": "for all reachable trees (after any insertions, batch erasures and single erasures), all points and sequences of points, both values of the template argument log_tree, all split configurations that meet the contracts", "why_tests_cant": "The structural cases (which child is promoted, whether the emptied leaf hangs on the root) depend on the shape left by the whole history; the tests erase a few sequences and look at the size.", "anchors": ["include/batchKdtree/shared/kdtree.h: KdTree::erase, KdTree::find", "include/batchKdtree/log-tree/logtree.h: LogTree::erase"]}
{"id": "C75", "title": "Parallel Kruskal is deterministic under interleaving of single memory accesses", "statement": "kruskal and batchKruskal return what the sequential scan of the edges by weight selects, for every interleaving of the individual loads, stores and compare-and-swap operations of the iterations that run concurrently: two finds with path shortcutting, the overwritten end points and two write_min loops per reserve step; two or three loads, the reset, the link and the record per commit step. No access leaves its array, and every schedule that lets each iteration run long enough finishes.", "quantifier": "for all edge lists with end points below n, all starting forests (batchKruskal), all granularities, all round sizes, all schedules of memory accesses in both loops of every round, compare-and-swap operations that fail spuriously included", "why_tests_cant": "The number of interleavings of memory accesses is astronomically large and tests see a few of them; a lost reservation or a link seen half-way shows only under particular ones.", "anchors": ["include/euclideanMst/kruskal.h: UnionFindStep, EdgeUnionFindStep, kruskal, batchKruskal", "include/euclideanMst/speculativeFor.h: reservation, speculative_for", "include/euclideanMst/unionFind.h: unionFind::find, unionFind::link, edgeUnionFind::link"]}
{"id": "C76", "title": "The 3D gift wrapping hull returns the facets of the hull", "statement": "gift::compute returns exactly the facets of the convex hull of its input, each once: the first facet and every facet found by pivoting over an edge is a facet of the hull, the loop ends, and all facets are reached.", "quantifier": "for all finite inputs in general position (no four points in a plane), all choices of max_element and min_element among equal keys, all points at which the sequence of facets moves its buffer", "why_tests_cant": "Whether a pivot by largest angle lands on a hull facet, whether the search over edges reaches every facet and whether the table of edges has room are statements about all point sets and sizes; tests with small or special inputs miss the orientation by the origin, the table size and pointers into a moved buffer.", "anchors": ["include/convexHull3d/gift/hull.h: facetAngle, pivotOnFacet0, pivotOnFacet, pairHash, compute", "include/convexHull3d/gift/sparse_table.h: sparse_table, insert, contains"]}
{"id": "C77", "title": "gridSample returns one input point for every non-empty grid cell", "statement": "gridSample(P, m) divides the bounding cube of P into a grid with ceil(m^(1/3)) cells per side and returns points of P such that every point of P shares its grid cell with exactly one returned point, whichever thread inserts a cell first.", "quantifier": "for all inputs, all numbers of cells per side, all orders in which the concurrent insertions into the table take effect", "why_tests_cant": "Which point represents a cell depends on the schedule, and cells collide only for points on the upper faces of the bounding cube; a test sees one schedule and rarely compares cells.", "anchors": ["include/convexHull3d/sampling/sampling.h: gridSample"]}
{"id": "C78", "title": "The 3D sampling hulls return the facets of the hull of the input", "statement": "hull3d::sampling::compute, random, grid and projection return exactly the facets of the convex hull of P, whatever the sample is: below 1000 points by quickhull, above by filtering with the hull of a sample and the parallel quickhull on what remains.", "quantifier": "for all inputs in general position, all samples, all interleavings of the filter and of the parallel quickhull, all numbers of threads", "why_tests_cant": "The sample, the filter and the parallel hull each depend on the schedule; a lost hull vertex shows only for some orders of flags and the result is still a closed surface.", "anchors": ["src/convexHull3d/sampling/hull.cpp: compute, random, grid, projection", "include/convexHull3d/sampling/sampling.h: randomSample, randomProjection, gridSample", "include/convexHull3d/sampling/filter.h: filter2"]}
{"id": "C79", "title": "hull2d::randInc::compute returns the planar hull", "statement": "hull2d::randInc::compute returns the indices of the vertices of the convex hull of its points: it always returns, follows no null or deleted facet pointer whatever the order of the iterations of its parallel loops, and the ring of facets it builds encloses every point and is made of input points.", "quantifier": "for every non-empty list of points (repeated, collinear), every number of workers, every order of the iterations of the three parallel loops of each round, every choice of extreme points among ties", "why_tests_cant": "Reservations conflict in unboundedly many ways and a deleted facet that is read afterwards usually still holds plausible values; termination quantifies over all inputs.", "anchors": ["src/convexHull2d/randInc/hull.cpp: compute, findVisible, facet::visibleFrom, facet::reserve, packRemain", "include/convexHull2d/randInc/hull.h: compute"]}
{"id": "C80", "title": "The array buffer of the log-structured tree is a bag of points", "statement": "LogTreeBuffer (the buffer of LogTree with LOGTREE_BUFFER = ARR_BUFFER) behaves as a bag of at most 2^log2size points: contains, orthogonalQuery and knn answer for the points inserted and not erased, size is their number, moveElementsTo returns exactly them, and an insertion that fits beside them succeeds.", "quantifier": "for every sequence of insert, erase, clear, moveElementsTo and queries, every order of the iterations of the parallel loops, every capacity", "why_tests_cant": "Whether an insertion still fits and what size and knn answer depend on the whole history of erasures; a wrong neighbour or a default object among the points looks like a point.", "anchors": ["include/batchKdtree/log-tree/buffer.h: LogTreeBuffer", "include/batchKdtree/log-tree/logtree.h: dynamicTree, insert"]}
{"id": "C81", "title": "The brute-force reference routines are exact", "statement": "kdTree::bruteforceOrthRange returns exactly the indices of the points in the cube, batchKdTree::knnBuf::bruteforceKnn returns k nearest points of every point, and closestPair's bruteForceParallel returns two points at different positions of least distance.", "quantifier": "for all arrays of points (repeated points included), all k, all interleavings of the parallel loops", "why_tests_cant": "These routines are the oracles other tests compare with; bruteforceOrthRange pushes into one vector from a parallel loop, so an index is lost only under some interleavings.", "anchors": ["include/kdTree/rangeSearchImpl.h: bruteforceOrthRange", "include/batchKdtree/shared/knnbuffer.h: bruteforceKnn", "src/closestPair/closestPair.cpp: bruteForceParallel"]}
{"id": "C82", "title": "The sparse hash table is a finite map over its whole sequential life", "statement": "After any sequence of insert_seq, mark_seq, contains, find, entries and clear calls on a table constructed for m keys, all calls return and answer like a finite map (insert tells whether the key is new, find returns the value stored, entries lists the map); resize keeps the map for every interleaving of its concurrent copying loop and makes room for at least `incoming` more keys. In the code deleted keys stay behind as entries with key empty_key-1: entries returns them, contains(empty_key-1) may become true, and they use up room until queries never return.", "quantifier": "all key and value types, hash functions, sizes m, call sequences, interleavings of the copying loop", "why_tests_cant": "Probing depends on the hash function, the order of insertions and the positions of deleted keys; exhausting the table needs long histories, and the copying loop of resize is concurrent.", "anchors": ["include/convexHull3d/gift/sparse_table.h: insert_seq, mark_seq, contains, find, entries, map, clear, resize, sparse_table(size_t, T, KeyHash, long)"]}
{"id": "C83", "title": "The command line gives back what the user wrote", "statement": "For a command line made of the program's name, options in any order (switches and names with a value) and the input file: getOption is true exactly for the names written, getOptionValue returns the value behind the first option of that name or nothing, getOptionIntValue/LongValue return a decimal value that fits the type and never a negative one, getArgument(i) is the i-th word from the end and prints the usage iff it is missing, -h and -help print the usage. In the code a missing input file is replaced by the last option's value, a non-numeric integer value counts as 0, and a non-numeric floating-point value gives an unwritten variable.", "quantifier": "all lists of options, names, values, files and numbers; all behaviours of the scanning routine", "why_tests_cant": "Unbounded words and option lists; values that look like options; boundary of the loops at argc-1.", "anchors": ["include/pargeo/parseCommandLine.h: commandLine, getArgument, IOFileNames, sizeAndFileName, getOption, getOptionValue, getOptionLongValue, getOptionIntValue, getOptionDoubleValue"]}
{"id": "C84", "title": "Traversals and integrity checkers of the 3D hull", "statement": "On a hull in memory whose reachable facets are allocated and have their three pointers, dfsFacet calls its action once for every facet that can be reached and for nothing else; hullSizeDfs returns their number and getHullPts exactly the points stored with them; printHull raises an error exactly if some facet does not lead back to the hull pointer; and checkHull raises an error exactly if two neighbours do not point to each other across a shared edge.", "quantifier": "for every memory of facets, linked correctly or not, and every start facet", "why_tests_cant": "The checkers are what the tests would rely on; that they accept wrong hulls shows only on hulls that are wrong.", "anchors": ["include/convexHull3d/hullTopology.h: dfsFacet, hullSizeDfs, printHull, checkHull, getHullPts"]}
{"id": "C85", "title": "Top-level dual-tree nearest neighbours under concurrency", "statement": "dualKnn(queries, tree, k) on a batch kd-tree, a cache-oblivious kd-tree or a log tree returns, for every query, k stored points of smallest distance; row i belongs to the query at place i of `queries` after the call, which holds the same queries rearranged; and the outcome does not depend on how the concurrent branches of the search interleave. With no queries it returns nothing.", "quantifier": "for all reachable trees, all query vectors, all k, and all interleavings of the concurrent recursive calls and loop iterations", "why_tests_cant": "Two recursive calls run at once on the fields dualKnnDist of the query nodes and on the candidate buffers, without atomics in the default mode; a race would show only under particular schedules and tree shapes.", "anchors": ["include/batchKdtree/shared/dual.h: dualKnn, DualKnnHelper", "include/batchKdtree/shared/kdnode.h: updateDualDist, update_dual_knn_dist, dualKnnRecurseInParallel", "include/batchKdtree/shared/kdtree.h: dualKnnBase, knn", "include/batchKdtree/log-tree/logtree.h: dualKnnBase"]}
{"id": "C86", "title": "The kd-tree in memory, under every interleaving of its construction", "statement": "However the branches and loops of the parallel construction interleave, build() returns a root whose pointers form the tree of C01: the item array is a permutation of the input, every node reachable through left/right is inside the allocated node array, has the exact bounding box of its slice, its children divide its slice and are each other's sibling, and the result does not depend on the schedule. No access leaves an array or reads memory that was not written.", "quantifier": "all dimensions, non-empty inputs, leaf sizes >= 1, numbers of workers, block sizes, serial and parallel construction, and all schedules", "why_tests_cant": "A test sees the few interleavings the scheduler happens to produce; a race between two branches on the node, item or flag array would show only rarely.", "anchors": ["include/kdTree/treeImpl.h: node::constructParallel, node::constructSerial, splitItemSerial, build", "include/kdTree/kdTree.h: tree, node"]}
{"id": "C87", "title": "Pair collection in per-worker buffers under every interleaving", "statement": "However the branches of the parallel pair searches interleave and whichever worker runs each branch, wellSeparatedPairDecomp, spanner and euclideanMst collect in their per-worker buffers exactly the pairs their sequential searches emit, none lost and none twice; hence the returned decomposition covers every pair of points once with well-separated pairs, the graph is a t-spanner, and the tree is a minimum spanning tree.", "quantifier": "all point sets of at least two points, all separation constants and stretch factors, all numbers of workers, all schedules, all assignments of branches to workers, all orders of the parallel copy", "why_tests_cant": "A test sees the few interleavings and worker assignments the scheduler happens to produce on one machine, with one number of workers; an input with fewer points than workers writes past the end of an empty buffer, which often goes unnoticed.", "anchors": ["include/kdTree/wspdImpl.h: wspdNormalParallel, computeWspdParallel, findPairParallel, wellSeparatedPairDecomp", "include/pargeo/parBuffer.h: parBuf, parBufCollect", "src/spatialGraph/spanner/spanner.cpp: spanner", "src/euclideanMst/memoGfk/wspdFilter.h: wspGetParallel, filterWspdParallel"]}
{"id": "C88", "title": "The self-check verify() of the batch kd-trees", "statement": "On a tree with stored points, verify() follows no null pointer; it returns true exactly if at every inner node the right side holds as many stored points as the left side or one more, and throws otherwise. It returns true on every tree the operations of the library leave behind.", "quantifier": "all points, leaf sizes, layouts and reachable states (histories of insertions and erasures)", "why_tests_cant": "A test runs the check on a few trees; whether it can reject a correct tree, or crash on a tree with missing children, depends on the history.", "anchors": ["include/batchKdtree/shared/kdnode.h: verify, countPoints", "include/batchKdtree/shared/kdtree.h: verify"]}
{"id": "C89", "title": "Edge-list files hold one line per edge, in order", "statement": "writeEdgeSeqToFile writes for a non-empty sequence of edges a file with exactly one line per edge, in order, holding the two end points; writeWghEdgeSeqToFile in addition the weight. Reading the words of the file gives back the end points.", "quantifier": "all non-empty sequences of edges with 64 bit end points, all chunk sizes, all executions of the parallel loops", "why_tests_cant": "The text is written by parallel iterations into slots of fixed width, in chunks; whether neighbouring slots or chunk borders disturb each other depends on the schedule, the values and the length.", "anchors": ["include/pargeo/graphIO.h: writeEdgeSeqToFile, writeEdgeSeqToStream, edgeSeqToString, writeWghEdgeSeqToFile, writeWghEdgeSeqToStream, wghEdgeSeqToString"]}
{"id": "C90", "title": "The self-check of the Delaunay triangulation", "statement": "On a triangulation, check_delaunay prints no line about an edge exactly if no vertex lies strictly inside the circumcircle of any triangle (not only of the neighbouring ones it looks at), and the line about the boundary exactly if the number of edges without neighbour is not the expected one.", "quantifier": "all triangulations, all expected sizes, all executions of the parallel loop", "why_tests_cant": "The check only looks at pairs of neighbouring triangles; that this settles all pairs is a theorem about every triangulation. Its counters are shared between iterations, so the outcome depends on the schedule.", "anchors": ["src/delaunayTriangulation/incremental/delaunay.cpp: check_delaunay"]}
{"id": "C91", "title": "The kd-tree and its range searches in rounded arithmetic", "statement": "With every arithmetic operation rounded (as double arithmetic does), the construction still returns a tree with exact boxes and all items; the box search returns exactly the items in the computed query box; and the ball search answers like bruteforceRange, computed with the same rounding: it returns exactly the items whose computed distance is at most the radius.", "quantifier": "all monotone, odd roundings of bounded relative error (in particular round to nearest even with any number of bits), all dimensions, item lists, leaf sizes, queries and radii", "why_tests_cant": "Tests use points in general position and radii that are no computed distance; disagreement needs a distance that rounds to the radius exactly, or points one unit in the last place apart.", "anchors": ["include/kdTree/rangeSearchImpl.h: rangeHelper, rangeTraverse, rangeSearch, orthogonalRangeSearch, bruteforceRange", "include/kdTree/treeImpl.h: constructSerial, constructParallel", "include/kdTree/kdTree.h: findWidest, boxCompare", "include/pargeo/point.h: distSqr, dist"]}
{"id": "C92", "title": "The bichromatic closest pair in rounded arithmetic", "statement": "With every arithmetic operation rounded (as double arithmetic does), bichromaticClosestPair returns one point of each tree whose computed distance is the smallest computed distance of all pairs, the same distance as the brute-force routine computes; its exact distance is within a factor of a few roundings of the smallest exact one.", "quantifier": "all monotone odd roundings (for the accuracy: of bounded relative error), all dimensions, non-empty item lists, leaf sizes, orders in which node pairs are visited", "why_tests_cant": "The search prunes node pairs by the computed box distance; that rounding never makes a box look farther than the points in it is a statement about all inputs, and a counterexample would need distances that differ in the last bits only.", "anchors": ["include/kdTree/bccpImpl.h: bcpBruteforce, nodeDistance, bcpHelper, bichromaticClosestPair", "include/pargeo/point.h: dist"]}
{"id": "C93", "title": "The k nearest neighbours in rounded arithmetic", "statement": "With every arithmetic operation rounded (as double arithmetic does), batchKnn gives every query k different stored indices, and the computed distance of a returned point exceeds that of a point not returned by no more than a few roundings; sorted results come in order of the computed distance. It does so for all sets of different points.", "quantifier": "all roundings of relative error u with 9u at most 1, all dimensions, point sets, leaf sizes, k, all selection and sorting routines allowed by their contracts", "why_tests_cant": "Failures need points one unit in the last place apart, where the split value rounds to a coordinate and sibling boxes overlap.", "anchors": ["include/kdTree/knnImpl.h: knnRange, knnRangeHelper, knnHelper, batchKnn", "include/kdTree/treeImpl.h: constructSerial, constructParallel"]}
{"id": "C94", "title": "The well-separated pair decomposition in rounded arithmetic", "statement": "With every arithmetic operation rounded (as double arithmetic does), wellSeparatedPairDecomp on a kd-tree of leaf size 1 never throws, covers every unordered pair of different points exactly once, and every reported pair is well separated with the requested constant up to a factor of a few roundings and the rounding of the box centres.", "quantifier": "all monotone odd roundings (for the separation: of relative error u < 1), all dimensions, lists of distinct items, separation constants, tree construction parameters, serial and parallel", "why_tests_cant": "That the recursion never meets two leaves that the computed test rejects, and how far rounding can weaken the separation, are statements about all inputs; a violation would show in the last bits only.", "anchors": ["include/kdTree/wspdImpl.h: geomWellSeparated, findPairSerial, findPairParallel, computeWspdSerial, computeWspdParallel", "include/kdTree/kdTree.h: lMax"]}
{"id": "C95", "title": "The Euclidean minimum spanning tree in rounded arithmetic", "statement": "With every arithmetic operation rounded (as double arithmetic does), euclideanMst returns n-1 edges between different input indices that connect all points, each with the computed distance of its ends as weight, whatever the rounding does to ties and to the tests that cut the traversals; and the sum of the weights exceeds the length of the shortest tree by no more than a factor of a few roundings and the rounding of the box centres.", "quantifier": "all monotone odd roundings (for the length: of relative error u where d+7 roundings change a number by less than a factor two), all dimensions, lists of at least two points (repetitions allowed), schedules, tie breakings", "why_tests_cant": "The rounds drop pairs by comparing computed distances with bounds found in other rounds; that no pair is lost between two rounds because of rounding is a statement about all inputs and schedules, and a lost pair would leave the loop running for ever.", "anchors": ["src/euclideanMst/memoGfk/emst.cpp: euclideanMst", "src/euclideanMst/memoGfk/wspdFilter.h: rhoUpdateParallel, wspGetParallel, filterWspdParallel", "include/kdTree/treeImpl.h: nodeDistance, nodeFarDistance"]}
{"id": "C96", "title": "The t-spanner in rounded arithmetic", "statement": "With every arithmetic operation rounded (as double arithmetic does), spanner(S, t) on at least two points returns edges between different input indices that connect all points; and if two input points are equal or far apart against the rounding of the coordinates, any two points are joined by a walk whose length is at most tau times their distance, where tau exceeds t only by the roundings.", "quantifier": "all monotone odd roundings (for the stretch: of relative error u < 1), all dimensions, lists of at least two points (repetitions allowed), t > 1, worker counts and block sizes", "why_tests_cant": "The stretch is claimed for all pairs of points of all inputs; the separation constant and the separation test are both rounded, so exact reasoning does not settle it and a test compares against one rounding of one input.", "anchors": ["src/spatialGraph/spanner/spanner.cpp: spanner", "include/kdTree/wellSeparatedPairDecomposition/wspd.h: wellSeparatedPairDecomp, geomWellSeparated"]}
{"id": "C97", "title": "delaunay with its self-check switched on prints nothing", "statement": "If delaunay is compiled with CHECK set, then for at least two different points it returns the same Delaunay triangulation, and the check, run on the triangles that the parallel insertion left behind, prints no line: no edge is inside out or has a corner in a circle, and the outline has the ten expected edges.", "quantifier": "all lists of at least two pairwise different points, all permutations, nearest neighbour searches, interleavings of the rounds and of the check", "why_tests_cant": "The claim is about the triangles after every interleaving of the insertion; that the printed line about the boundary depends on how the iterations of the check itself interleave shows only in rare executions.", "anchors": ["src/delaunayTriangulation/incremental/delaunay.cpp: delaunay, check_delaunay"]}
{"id": "C98", "title": "The measures of planar triangles mean what their names say", "statement": "triangleCircumcenter of three points not on a line is the only point as far from each of them; triAreaNormalized lies between -1 and 1, is the sine of the angle at the first corner up to sign, and is positive exactly for a counterclockwise triple; inCircleNormalized lies between -1 and 1, is positive exactly inside the circle, 0 on it and tends to -1 out at infinity; angle is the angle in degrees; minAngleCheck is true exactly if one of the three angles is below the given number of degrees.", "quantifier": "all triangles in the real plane, all query points, all bounds between 0 and 180 degrees", "why_tests_cant": "The claims are about all triangles; a test on a few of them, with a tolerance, sees neither the constant 3.14159 in place of pi nor the behaviour far away.", "anchors": ["include/delaunayTriangulation/geometry.h: triAreaNormalized, inCircleNormalized, angle, minAngleCheck, triangleCircumcenter"]}
{"id": "C99", "title": "Planar quickhull on doubles", "statement": "hull2d::quickHull::compute, run in rounded double arithmetic on at least one point, ends without reading outside an array and returns the hull of the points: indices of input points, each once, whose hull contains every input point and all of whose points are corners of it.", "quantifier": "all non-empty lists of points, all roundings, all choices of the reductions among equal values", "why_tests_cant": "Rounding changes the sign of an area only for points that are almost on a line; random tests hardly meet them, and a test on some of them says nothing about termination on the others.", "anchors": ["include/convexHull2d/quickHull/hull.h: triArea, quickHullHelper, compute"]}
{"id": "C100", "title": "Nearest neighbours of the batch kd-tree on doubles", "statement": "knn of the batch kd-trees (single-tree search with every setting of its two template flags) and dualKnn (dual-tree search, also with its branches interleaved), run in rounded double arithmetic, return for every query k stored points such that no stored point left out has a smaller computed distance. The pruning by the rounded query box and by the rounded distance of bounding boxes loses nothing.", "quantifier": "all trees reachable by inserting and erasing, all queries, all k between 1 and the number of stored points, all roundings to nearest", "why_tests_cant": "A wrongly pruned subtree shows only when a rounded box edge passes a point by a unit in the last place; whether that can happen is a question about all floating-point numbers.", "anchors": ["include/batchKdtree/shared/kdnode.h: knnAddToBuffer, knnPrune, knnHelper", "include/batchKdtree/shared/kdtree.h: knnSinglePoint, knn, dualKnnBase", "include/batchKdtree/shared/dual.h: DualKnnHelper, dualKnn", "include/batchKdtree/shared/box.h: BoundingBoxDistance", "include/batchKdtree/shared/geometry.h: dist"]}
{"id": "C101", "title": "Building a batch kd-tree on doubles and finding its points", "statement": "A batch kd-tree built, in double arithmetic, over points whose coordinates are pairwise different in every dimension returns from build, and contains and find then see exactly the points built. (False: with neighbouring doubles the computed middle of two coordinates can be the smaller of them. After a parallel object-median build contains then denies a stored point; a spatial-median build with leaves of one point recurses for ever.)", "quantifier": "all point sets with pairwise different floating-point coordinates, all leaf sizes, both split heuristics, all choices of which slices are split in parallel", "why_tests_cant": "The failing inputs have two median coordinates that are neighbouring doubles; random tests over a wide range do not hit them, and the successes have to be shown for all other inputs.", "anchors": ["include/batchKdtree/shared/utils.h: split_val, parallelMedianPartition, serialMedianPartition, parallelSpatialPartition, serialSpatialPartition", "include/batchKdtree/binary-heap-layout/bhlkdtree.h: buildKdtRecursive, build", "include/batchKdtree/cache-oblivious/cokdtree.h: build", "include/batchKdtree/shared/kdtree.h: contains, find"]}
{"id": "C102", "title": "The dynamic kd-tree on doubles", "statement": "In double arithmetic, after any sequence of constructing, inserting and erasing: (a) kNN returns the min(k, N) stored points with the smallest computed distances, in ascending order; (b) construction and insertion store exactly the points given, and erase removes only listed positions; (c) erase removes every stored point whose position is listed, so that the tree is the multiset of the positions inserted and not erased. ((c) is false even for distinct points of the plane: if two coordinates are neighbouring doubles the computed middle of the box can be its lower end; the tree then splits at the median of the next coordinate, and if the points agree there one of them cannot be found again.)", "quantifier": "all histories, all points with floating-point coordinates, all queries, all k >= 1, all leaf sizes from 2 on, any behaviour of the library's partition, selection and queue within their contracts", "why_tests_cant": "Whether a rounded search box or a rounded middle ever loses a point is a question about all floating-point numbers and all histories.", "anchors": ["include/dynamicKdTree/dynKdTree.h: internalNode, dataNode, insert, erase, kNNRange, kNNHelper, kNNRangeHelper, rootNode::kNN", "include/pargeo/point.h: dist"]}
{"id": "C103", "title": "Nearest neighbours with the oct-tree on doubles", "statement": "In double arithmetic, for vertices at two or more points: (a) the oct-tree is built and a search for k neighbours of a vertex reports min(k, N) other vertices, sorted by computed distance, nulls at the end; (b) no vertex left out is nearer, by computed distance, than a reported one. ((b) is false: the test of a box subtracts the current distance from a coordinate and compares strictly; if the distance is far below the last bit of the coordinate nothing is subtracted and a box with a nearer vertex is skipped.) (c) What holds instead of (b): a vertex left out is not nearer, or along one axis its exact distance is at least the reported distance up to a relative error u of that distance and of the coordinate of the vertex. (d) With rounding to nearest a nearer vertex is left out only if the reported distance, added to or subtracted from one of its coordinates, is rounded to the coordinate of the query.", "quantifier": "all vertex lists with at least two points, all queries, all k >= 1, all roundings with relative error u < 1 that are monotone and odd, any sorting of the tags and any binary search within its contract", "why_tests_cant": "Whether a rounded test of a box ever hides a nearer vertex depends on all floating-point coordinates and on where the tree is cut.", "anchors": ["src/delaunayTriangulation/incremental/neighbors.h: update_nearest, within_epsilon_box, k_nearest_rec, k_nearest, nearest", "src/delaunayTriangulation/incremental/oct_tree.h: interleave_bits, tag_points, build, set_center"]}
{"id": "C104", "title": "The Morton sort on doubles", "statement": "For every input with two different locations, the Morton sorts (2D and 3D) return, in double arithmetic, a permutation of the input ordered by code; a point that is larger or equal in every coordinate has a larger or equal code; points with equal codes are closer in every coordinate than 1/64000 of the extent of the input. (False for inputs whose extent is a small multiple of the smallest positive double: the box size underflows, and the conversion to a cell is undefined or the sort throws.)", "quantifier": "all point lists with two different locations, all results of the sorting routine that meet its contract", "why_tests_cant": "That rounding never pushes a cell past 16 bits has to hold for every extent and every offset; the failing inputs are at the bottom of the range of doubles.", "anchors": ["include/mortonSort/mortonSortImpl.h: zorderSort2d, zorderSort2d_2, zorderSort3d, zorderSort3d_2"]}
{"id": "C105", "title": "insert_check and insert_f of the hash table", "statement": "insert_check of sparse_table always returns, also on a full table: it inserts the pair if the key is new, returns whether it was, and sets the abort flag, leaving the table as it is, only when no slot is left for the key. After any sequence of insert_f calls find gives, for every key, the values of its calls combined by the given function in the order of the calls, starting from the value of the cleared table, and each call tells whether its key was new. When insert_f calls run at the same time with an atomic function, the values are combined in some order of the calls, the same for all keys, each call exactly once.", "quantifier": "for every hash function, every table that holds a map, every key and value; for every combining function and every sequence of calls with at most as many different keys as the table was made for; both also for concurrent calls under every interleaving", "why_tests_cant": "The limit of 10000 probes is only met by large tables with many collisions or by full tables; the combined values depend on the whole history and on the probe sequences of all keys.", "anchors": ["include/convexHull3d/gift/sparse_table.h: sparse_table::insert_check", "include/convexHull3d/gift/sparse_table.h: sparse_table::insert_f", "include/convexHull3d/gift/sparse_table.h: sparse_table::find"]}
{"id": "C106", "title": "The planar gridSample returns one input point for every non-empty grid cell", "statement": "The planar gridSample(P, m) divides the bounding square of P into a grid with ceil(sqrt(m)) cells per side and returns points of P such that every point of P shares its grid cell with exactly one returned point, whichever thread inserts a cell first; the number of a cell never overflows.", "quantifier": "for all inputs, all numbers of cells per side, all orders in which the concurrent insertions into the table take effect", "why_tests_cant": "Which point represents a cell depends on the schedule, and cells collide only for points on the upper side of the bounding square; a test sees one schedule and rarely compares cells.", "anchors": ["include/convexHull2d/sampling/sampling.h: gridSample"]}
{"id": "C107", "title": "The reservation check and the statistics of the parallel hull", "statement": "On a hull whose facets are allocated and linked to other facets, checkReset returns true exactly if no facet that can be reached from the hull pointer is reserved, and stats prints the number of these facets, the number of those with points, the total number of their points, and the smallest and largest number of points of a facet with points.", "quantifier": "for every memory of facets, linked correctly or not, and every assignment of reservations and points", "why_tests_cant": "The checkers are meant for broken hulls, of which there are infinitely many; tests run them on correct ones.", "anchors": ["include/convexHull3d/parallelQuickHull/hullImpl.h: checkReset", "include/convexHull3d/parallelQuickHull/hullImpl.h: stats", "include/convexHull3d/hullTopology.h: dfsFacet"]}
{"id": "C108", "title": "Lookups in the hash table during insertions", "statement": "contains and find of sparse_table, called while other threads insert, end in a bounded number of their own steps as long as the table has a free slot. They find every key that was in the table when they were called, in particular every key whose insertion has returned; they report no key that is not in the table; and find returns a value that was inserted with the key.", "quantifier": "for every hash function, every table that holds a map, every family of concurrent insertions with room for all keys and one more, every moment of the call and every interleaving", "why_tests_cant": "The outcome depends on the moment of every read relative to the steps of all insertions; the window between the claim of a slot and the write of its value is a few instructions long.", "anchors": ["include/convexHull3d/gift/sparse_table.h: sparse_table::contains", "include/convexHull3d/gift/sparse_table.h: sparse_table::find", "include/convexHull3d/gift/sparse_table.h: sparse_table::insert"]}
