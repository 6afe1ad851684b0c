# Formal model of ParGeo

Lean 4 model of the library in `/repo`, with theorems for the properties in `properties.jsonl`.
`MANIFEST.json` maps each property to the exact theorem names and its status.

## Layout

* `lean/Verif/<Component>/Model.lean`: the model of the code. Every definition cites file and lines in `/repo`.
* `lean/Verif/<Component>/Lemmas*.lean`: helper lemmas.
* `lean/Verif/<Component>/Props.lean`: the property theorems, with their specification and non-vacuity examples.
* `seeded/LOG.jsonl`: mutation experiments (model edited as a bug would, theorems that failed).

## Trusted base

* The Lean 4.33 kernel, and the axioms `propext`, `Classical.choice`, `Quot.sound`. No other axiom is used.
* The reading of the C++ code into the model (cited per definition).
* Floating point numbers are modelled by an exact ordered field `K` (a real field where roots are needed).
  Rounding, overflow, NaN and infinities are not modelled, except that the following properties round every operation:
  C91 to C96 (kd-tree, range, closest pair and nearest neighbour searches, pair decomposition, spanning tree, spanner),
  C99 (planar quickhull), C100 and C101 (batch kd-tree), C102 (dynamic kd-tree), C103 (oct-tree) and C104 (Morton sort,
  with gradual underflow). Overflow is left out there as well. `std::numeric_limits<floatT>::max()` as a start value
  for a minimum is modelled by a top element (`none`).
* Distances: where the code compares `sqrt` distances the model compares squared distances; for non-negative numbers this is
  the same order.
* `std::nth_element`, `std::sort`, `parlay::sort`, `parlay::scan` and the like are modelled by their documented contract
  (any result allowed by the contract).
* `par_do` / `parallel_for` over disjoint data are modelled by a sequential order; code where iterations share data is modelled
  with explicit interleavings of atomic steps (sequentially consistent memory; weak memory is not modelled).
* Pointers to items are modelled by the items themselves; item identity is kept because the item type is arbitrary and carries
  a position function, so two items with the same coordinates are still different items.
* Out-of-bounds accesses, null dereferences and exceptions are explicit outcomes of the model where they can occur.
* Memory allocation failure, stack depth and running time are not modelled.

## Plan per property

| id | property | how it is modelled and proved |
|---|---|---|
| C01 | kd-tree build keeps every item and every node is sound | `KdTree/Build`: `splitItemSerial`, `split_two`, `findWidest`, `boundingBox*`, `constructSerial/Parallel` as total functions with an explicit `throw` outcome. Induction on item count (fuel = length, proved sufficient). Spec: permutation, box = min/max, leaf size. |
| C02 | kd-tree node storage never overflows and is never shared | `KdTree/Slots`: the slot arithmetic of the constructors over an arbitrary split oracle returning 0<m<n; proves in-range and injective by induction. |
| C03 | Spherical range search returns exactly the points in the ball | `KdTree/Range`: `boxCompare`, `rangeHelper` over the built tree, against a list filter. |
| C04 | Orthogonal range search returns exactly the points in the box | `KdTree/Range`: `orthRangeHelper` against a list filter. |
| C05 | The k-nearest buffer keeps the k smallest costs for every insertion history | `KdTree/KnnBuf`: buffer as list + write index with stale slots, `nth_element` as a relation; invariant over histories. |
| C06 | batchKnn returns the exact k nearest neighbours | `KdTree/Knn`: `knnHelper`/`knnRangeHelper`; exactness under disjoint sibling boxes; witness for duplicated points (negation). Partial. |
| C07 | Bichromatic closest pair is the exact minimum | `KdTree/Bccp`: `bcpHelper` with squared distances against min over the product list. |
| C08 | WSPD covers every pair of points exactly once | `KdTree/Wspd`: generic separation predicate; counting theorem by induction on trees. |
| C09 | Every reported WSPD pair is geometrically well separated | `KdTree/Wspd`: `geomWellSeparated` with bounding spheres; soundness over reals; never throws with singleton leaves. |
| C10 | Parallel collection buffers lose nothing and duplicate nothing | `ParBuf`: buffers per worker, history of increments as list of (worker, value); any interleaving is a history. initSize = 0 shown to write out of bounds. |
| C11 | split_two / split_k are stable partitions | `Split`: blocked counting/offset algorithm = stable partition. |
| C12 | Union-find represents exactly the equivalence generated by the links | `UnionFind`: parent array with negative roots, path compression; invariant: parents decrease; equivalence closure spec. |
| C13 | Atomic priority writes and counters are schedule independent | `Atomics`: small-step semantics of CAS loops, any schedule; invariant by induction on traces. |
| C14 | Deterministic reservations make parallel Kruskal equal sequential Kruskal | `Mst/Kruskal*`: rounds with reservations as arbitrary-order steps; equality with sequential greedy by induction on rounds. |
| C15 | Kruskal returns a minimum spanning forest | `Mst/Weight`, `Mst/KruskalProps`: exchange argument over finite edge sets. |
| C16 | Euclidean MST is a minimum spanning tree of the complete distance graph | `Emst/Model`: the memoGfk version (rho traversal, edge traversal, batch Kruskal, marking, doubling of beta). `Emst/Filter`: filtered traversals against the full decomposition; `Emst/Round`: one round connects all distances below the new rho at bottleneck level (induction on the tree, well separation); `Mst/Bottleneck`: bottleneck forests are minimum; `Emst/Props`: loop invariant, termination, the theorem. The loop takes its three shared-memory routines as parameters (`Routines`, specification `RoutinesOk`). `c16_emst`: function models of the traversals; the order of pairs, buffers and what the racy reads of rho see are parameters (reads assumed at least the final value). `Emst/Fine`: every batch run access by access (C75) (`c16_emst_fine`). `Par/ForkJoin`: fork-join programs executed access by access under any schedule (every execution ends, by well-founded recursion) with a rely-guarantee rule. `Emst/Conc*`: the rho traversal (loads of rho, compare-and-swap loop of `write_min`) and `mark` (every read and write of `parents`) as such programs; nothing is assumed about the racy reads, and no `write_min` needs more than n*n+2 attempts (`c16_rho_conc`). `c16_emst_conc` is the whole property for all interleavings of all three routines; what remains a parameter is the order of ties and of the collected buffers (C10). |
| C17 | spanner returns a t-spanner | `Spanner`: induction on pair distances using C08 and C09. |
| C18 | kNN graph edges | `KnnGraph`: compaction loop given the C06 specification of its input; negation when the query is missing from its list. |
| C19 | Dynamic kd-tree behaves like a multiset under insert and erase | `DynKd/Model`, `Lemmas`, `Props`: construction, insert, erase and `check` function by function, leaf counters as integers, writes behind the rebuild container as UB. Any points: `check` holds, insert adds exactly the batch, erase removes only listed positions. Histories with a ghost multiset: exact when no two stored positions agree in two successive dimensions (in the plane: no copies) and no position is erased twice; negations with witnesses otherwise. |
| C20 | Dynamic kd-tree kNN is exact | `DynKd/KnnLemmas`, `Props`: the sibling search with a fixed radius per sibling, priority queue by contract, boxes that only grow. Proved for every reachable state and any tie breaking; `k = 0` proved to be UB. |
| C21 | closestPair returns a globally closest pair | `Verif/ClosestPair`: `pointPair`, `closer`, `bruteForceSerial`, `findSlab`, `numToCheck`, the serial and the parallel divide and conquer with their recursion over coordinates. Reads behind the end of an array are undefined (`strict`) or give an unused value (lenient). Proved for all inputs: plane, serial: defined and closest (`c21_plane`, `c21_plane_points`); dimensions 2-4, serial and parallel: undefined or closest, and closest in lenient runs (packing argument: 2^(2d-1) cells of half the slab width, with the widest of the nested slabs); dimensions above 4: up to 2^(2d-1) points (`c21_highdim_partial`). Negations: a slab with one point in space (`c21_single_false`), parallel scans of more than 100 slab points (`c21_parallel_false`), the racing brute-force loop (`c21_race_false`; atomic calls would be right, `c21_atomic_partial`). Missing: more than 2^(2d-1) points in dimensions 5-7. |
| C22 | Batch kd-tree contains/find sees every stored point | `BatchKd/TreeModel`, `QueryLemmas`, `Props`: induction over the tree with the invariants Good and Searchable; negation with ties. |
| C23 | Batch kd-tree orthogonalQuery is exact | `BatchKd/Props`: orthogonalQuery equals the filter of the present items in every reachable state (invariant Good). |
| C24 | Batch kd-tree k-nearest queries are exact | `BatchKd/KnnModel.lean` models the buffer with its `cached` flag, `knnAddToBuffer`, `knnPrune`, `knnHelper` (both template flags), `knn`, `DualKnnHelper` and `dualKnnBase`. `KnnLemmas` shows that a search extends the inserted items so that what is left out is dominated by `k` inserted items; `DualLemmas` adds the invariant that `dualKnnDist` bounds the radius of all queries below the node. `KnnProps`: `c24_knn_exact`, `c24_dual_exact`, `c24_euclidean` (box distance of `box.h` over the reals), `c24_too_few_throws`. |
| C25 | Batch erase removes exactly the given points | `BatchKd/EraseLemmas`: eraseAt removes the multiset difference, keeps boxes, counts and searchability; negation with ties. |
| C26 | Log-structured tree: occupancy follows a binary counter | `LogTree/Model`, `SimLemmas`, `InsertLemmas`, `Props`: the loop that simulates the carries (mask, gather lists, moves), the moves in any order, exceptions as outcome. Invariant over histories of batches: tree `i` has `2^i` buffers iff bit `i`; exact condition for the exception. |
| C27 | Log-structured tree stores exactly what was inserted | `LogTree/MoveLemmas`, `Props`: contents as multisets moved between slices of the batch, buffer and trees; the gather lists of different moves are disjoint, so any order gives the same multiset. For every configuration whose splits are two-sided; instance for the default one, any points. |
| C28 | A tree emptied by erase can be refilled | `BatchKd/Props`: history theorem over a multiset specification; negation for the variant without rebuild. |
| C29 | Binary-heap node layout stays in bounds and is injective | `BatchKd/BuildLemmas` (Below, preorder intervals): index arithmetic by induction over the build. |
| C30 | Cache-oblivious bucket sizes are an exact balanced partition | `BatchKd/SplitPoints*`: split points, bucket sizes, scan and endpoints as computed; spec = repeated halving of a list of lengths; induction on levels. |
| C31 | Bloom filter has no false negatives | `BatchKd/Bloom*`: bit array with check / compare-and-swap steps of any number of threads under any schedule; invariant over traces, wait-freedom by a measure. An empty filter is undefined behaviour (modulo zero), stated as a theorem. |
| C32 | Planar quickHull has the same convex hull as its input | `Hull2d/Quick*`: recursion on index lists, reductions and `minmax_element` by contract. Each call keeps: the list holds exactly the points strictly left of the line; a point right of both new edges lies in the triangle. Result stated with Mathlib convexHull. |
| C33 | Planar quickHull output is in clockwise convex position | `Hull2d/Quick*`: invariant `Cone`: seen from either end of the current line, points not left of it are behind all points left of it (Plücker relation of signed areas); it is passed on to both sub-calls because the pivot is farthest. |
| C34 | Divide-and-conquer planar hull equals the hull of the input | `Hull2d/Dc*`: block loop and final hull over the quickHull model; C32 twice. Negation for the dropped tail, undefined behaviour below ten points. |
| C35 | prefix-doubling loop is equivalent to the serial loop | `Seb/Prefix*`: both loops as fuelled functions over an arbitrary state, racing writes of `conflict` as an arbitrary choice among the writers; equality of final state and of the clean-up sequence. The side condition is shown necessary. |
| C36 | Welzl's algorithm returns the minimum enclosing ball | `Seb/Welzl*`: serial and parallel recursion of the three variants on one state (points, ball); feasibility and minimality with prescribed boundary points; mixing two balls gives a strictly smaller one, which yields uniqueness, the boundary lemma and independence of a conflicting point; the parallel recursion reduces to the serial one by C35. Epsilon is a parameter; minimality is proved for epsilon zero and refuted for positive epsilon. |
| C37 | Orthant-scan and sampling enclosing balls contain all points when they return | `Seb/Scan*`: block-wise and serial orthant scans with their tables, both main loops, out-of-range slices as undefined behaviour. Containment by the scan specification; termination without epsilon because the radius strictly grows and every ball is the smallest one of a subset of the input. |
| C38 | Morton codes are injective and monotone on grid cells | `Morton/*`: the mask-and-shift steps on 64-bit naturals, bit by bit; spec = digit interleaving by recursion; monotone, injective, blocks contiguous; the sort with grid cells from the exact bounding box, any sorting routine satisfying its contract. All-equal input: undefined behaviour, stated as a theorem. |
| C39 | Text tokenisation and printing round trip | Modelled in `IO/Model.lean`: separators, `stringToWords`, printers with fixed slots, the parallel printing loop as an arbitrary interleaving of character writes, filtering of padding, chunks, integer/edge/point files. `c39_words` for all texts against the independent relation `IsWords` (unique by `c39_words_unique`); round trips by computing every cell of the buffer for every interleaving. False for doubles that need 19 characters: `c39_double_overflow_false`, `c39_double_race_false`; the last word of an unterminated file is `ub`. `IO/TwoSeq.lean`: `write2SeqToFile`, whose file has the words of both sequences in order (`c39_two_words`) and is read back as one sequence (`c39_two_ints`). |
| C40 | Reservation rounds pick independent winners and make progress | Model `Reserve/Model`: threads with load and compare-and-swap steps; reserve phase by an invariant (each cell the maximum so far of its contenders), termination by a potential; check phase by an invariant relating cells to their value at the barrier. Plain `int` accesses in the Delaunay check are taken as atomic. The cells of the planar hull are modelled as a ring walk; witness of a wrong reservation. |
| C41 | Mesh updates keep the neighbour relation symmetric | Model `Delaunay/MeshModel` (function by function from topology.h; triangles and vertices are array slots, aborts are `throws`). Closed forms of the result of each operation, then the invariant `WF` (mutual pointers with reversed edges, no triangle twice a neighbour, three different corners) and `VertexPointers`. `flip` needs different opposite corners and, to keep `WF` for the next operation, no vertex of degree three; without these it is false (`c41_flip_same_corner_false`, `c41_flip_degree_three_false`). `splitBoundary` leaves a wrong vertex pointer (`c41_splitBoundary_vertex_false`). |
| C42 | Quad/oct-tree k-nearest search is exact | `OctTree/Model.lean` (`tags`, `interleaveBits`, `buildRec`, `build`, `updateNearest`, `withinBox`, `nearestRec`, `nearRec`, `kNearest`, `nearest`, `near`; real coordinates, any dimension), `Lemmas.lean` (the buffer keeps the nearest of what was seen or pruned), `BuildLemmas.lean` (boxes, leaves, bits of the tags), `Props.lean`: `c42_kNearest`, `c42_nearest`, `c42_near`, `c42_tags`, and `c42_octNear`, `c61_octtree`, which put the search into C61. `parlay::sort` and `binary_search` by contract. When all points are equal (always so for the first tree of `delaunay`, which has one vertex) the tags are computed from 0/0: `c42_equal_ub`. |
| C43 | Edge de-duplication of Gabriel and Delaunay graphs | Model `TriEdges/Model`: triangles are the input (the triangulation is C41), sort by contract. The statement is false of the code in the strict sense: `c43_flag_loop_ub_false` (loop bound off by one), `c43_gabriel_reads_outside_false`. Partial theorems take the value read outside the array as arbitrary; for each such value the result is proved exact, by induction over the sorted list (`picks_spec`), the parallel scatter for every order of its writes. |
| C44 | Beta-skeleton lune emptiness equals brute force | `Verif/SpatialGraph/LuneModel`, `LuneProps`: `nonEmptyLune`, `nonEmptyLuneHelper` on the kd-tree model of C01, circle boxes, items compared by identity; the item array of the tree with its lifetime (`alive`). Proved for every built tree, circles and edge while the array exists (`c44_lune_partial`). Negation: `buildKdt` returns nodes pointing into a destroyed local array, so every run with `beta >= 1` and an edge is undefined (`c44_dangling_false`). Not modelled: rounding of the two distances to `float`. |
| C45 | Concurrent hash set inserts are linearizable | `Hash/Model.lean`: threads as small-step machines over the shared key array (test, CAS, value write, compare each one step), executions are arbitrary lists of thread ids. Invariant `Inv` (probe-path invariant `WF`, unique claimer) by induction on the schedule; `c45_insert` for every fair schedule, `c45_contains`, `c45_find`, and `c45_full_diverges` for a full table. |
| C46 | EMST component marking is exact | `Emst/Model` (`mark`, `markAll`), `Emst/MarkProps`: induction on the tree; after `mark`, a node has id `r` iff all its points have root `r`; ids stay usable when components merge further. `Emst/Conc*`: the same for every interleaving of the accesses to `parents` by the branches of `par_do` (`c46_mark_conc`). |
| C47 | Facet linking keeps 3D hull adjacency mutual | `Hull3d/Link*`: facets in a heap with vertex values and three pointers; `findFacet`, `linkEdge`, both `linkFacet` overloads. Specification by undirected edges; frame conditions on all other pointers. |
| C48 | 3D divide-and-conquer hull covers the input | `Hull3d/Dc*`: block loop over an arbitrary inner hull routine. Negation: the tail has no influence. Positive part by convex hull monotonicity. `QHull/DcWhole`: the same loop with the modelled `computeVertex` and parallel quickhull put in; for inputs all of whose parts are in general position (`GenAll`) every run returns exactly the facets of the hull of the full blocks (hulls of at least 64 facets) or follows the null pointer of C66. `QHull/DcWitness`: such inputs exist for every size (points of the moment curve whose parameters avoid the zeros of finitely many polynomials). |
| C49 | Brute-force 3D hull reports exactly the supporting triangles | `Hull3d/Brute*`: the triple loop with both inner loops; exact list of reported triples, signed volumes as specification; supporting planes for epsilon zero; negation for coplanar faces. |
| C51 | union_roots keeps the structure usable | `UnionFind`: false of the code, negation theorem with a witness. |
| C52 | Dimension read from a point file | `IO`: `readHeader` on the exact text that the writers produce; a witness shows the count is wrong for other files with repeated separators. |
| C53 | Incremental Delaunay insertion handles every vertex once | Model `Reserve/Loop`: the loop with its buffers, outcome of a round as an arbitrary list of flags; invariant: done and left-over vertices are a permutation of a prefix of the input. |
| C54 | Balls through given points | `Seb/Ball*`: constructor, `grow` and the incremental inverse with arbitrary prior matrix content. Invariant: the stored matrix is the inverse Gram matrix (Schur complement step). The constructor is proved; `grow` after the constructor adds a stale offset to the centre (negation with witness), and is proved for balls without offset. |
| C55 | Log-structured tree: queries see all parts | `LogTree/KnnLemmas`, `Props`: each query as the fold over the full trees that the code does, on top of the single-tree theorems of `BatchKd`. Box queries exact for all points; `contains` for points without equal coordinates (C22 fails with ties); `knn` exact if the first searched tree has `k` points, and proved to throw otherwise (negation with witness); parallel combination proved without its missing final selection. |
| C56 | Log-structured tree: erasing batches | `LogTree/EraseLemmas`, `Props`: ghost multiset of positions over histories. Proved when coordinates are distinct and the batch does not empty the buffer (reinsertion never throws because half-empty trees hold at most half of the weight they free); negations with witnesses for copies and for emptied buffers. For all points: only listed points disappear, at most one per tree each. Covers `erase<true>` (batch) and `erase<false>` (one point after the other), flag `bulk`. |
| C50 | Ball equality and containment | `Seb/Ball*`: negation of the equality claim (the code compares fields with themselves); containment proved over the reals against the Euclidean distance. |
| C57 | Dynamic kd-tree: sibling pointers | `DynKd/Siblin*`: interleavings of the statements of the two lambdas. Proved for all executions without use of a deleted node (both serial orders among them); witness of an interleaving that uses a deleted node. |
| C58 | betaSkeleton keeps exactly the edges with empty neighbourhood | Same files: `betaSkeleton` with the circle centres and radii of the code, Delaunay edges given. For `beta >= 1` and a live item array the result is exactly the set of pairs with empty closed lune (`c58_skeleton_partial`, contract on the Delaunay edges: they contain the Gabriel edges), nested in beta (`c58_nested_partial`); `inLune_one`, `inLune_two` identify beta 1 and 2. Negation for `beta < 1`: the circles are put around the end points (`c58_lens_false`). |
| C59 | Inserting a point keeps the triangulation Delaunay | `Delaunay/InsertModel` (`findCavity`, `reserve_for_insert` without the reservation of C40, `insert`) over an ordered field, on the memory model of C41. Specification `IsDelaunay` (FindLemmas) speaks of positions, circles and arrays only; `DMesh` is the equivalent invariant. Proof: induction over the tree of the cavity search (`CT`, `process`): after each flip the triangles at the new vertex are a star over the part of the cavity seen so far. New circles are empty by the pencil of circles through a link edge (`empty_inner`, `empty_outer`); the search misses nothing because a triangle whose circle holds the point has a chain to the point along which the power does not fall (`complete`). A point on an edge is the limit of points inside the triangle (`LimitLemmas`): the combinatorial run is the same, and the areas stay positive. Negative: `c59_duplicate_false`. |
| C60 | The point location walk ends in the right triangle | `find` of `Delaunay/InsertModel`, fuel counting triangles. Along the walk the power of the point with respect to the circumcircle does not fall, and where it stays the same (cocircular triangles) the number of vertices of that circle beyond the crossed edge falls; so no (triangle, edge) pair repeats (`ahead_lt`), which gives the bound 3n+2. Negative: for a point beyond the outline `insert` splits the triangle next to the returned edge and makes a clockwise triangle (`c60_outside_false`). |
| C62 | A parallel round of insertions is deterministic and keeps the triangulation Delaunay | `Delaunay/ProgModel.lean` (insertions as programs with single accesses), `RoundModel.lean` (`insertRound`), `Par/Prog.lean` (interleaving of programs with disjoint footprints), `RoundLemmas.lean`, `ProgLemmas.lean`, `ParLemmas.lean`, `Reserve/Fair.lean`, `RoundProps.lean`. Two winners share no reserved vertex (C40); every triangle a winner touches has two reserved corners or is one of its own two, hence the footprints are disjoint, each interleaving gives the mesh of the sequential execution, and a job stays right while others are carried out. Schedules that give each thread `roundBound` steps finish. Accesses are taken as atomic and sequentially consistent; coordinates are exact. |
| C61 | delaunay returns a Delaunay triangulation, the same one for every interleaving | `Delaunay/LoopModel.lean` (`addRound`, `addPoints`, `delaunayWith`), `BoundaryModel.lean` (`boundaryPoints`, `delaunay`, over the reals), `LoopLemmas.lean` (invariant of the loop from C53 and C62), `BoundaryLemmas.lean` (ten points with angles 2·3.14159·i/10 are convex, the fan over them is Delaunay, a point within 0.15 of the radius of the centre is strictly inside), `DelaunayProps.lean` (`c61_delaunay`). Negative cases: no point is undefined (`P[0]`), one point gives a boundary of radius zero (`c61_single_false`), a repeated point gives triangles of zero area (`c61_duplicate_false`). Coordinates are exact reals; the oct-tree search is taken by its contract (result is in the set); `knn` rebuilds are in the model. |
| C63 | The sampling convex hulls keep every point that can be on the hull | `SampleHull/Model.lean` models both filters with one definition (a facet is its signed volume and its corners; `facet2`, `facet3` are the two constructors, `corners2`, `corners3` the corners of a box in code order): `nodeVol`, `flagVisible`, the compare-exchange with its local variable `F`, `filter2` on the kd-tree of C01, `randomSample`, `randomProjection` and the planar `compute`. The parallel calls are threads, one compare-exchange per step, any schedule. False of the code in four ways, each proved: `c63_lost_false` (a failing compare-exchange stores `true` in `F`, so the next point of the loop is not flagged), `c63_origin_false` (spatial facets are oriented by the origin), `c63_covered_false`/`c63_line_ub` (a node that only touches the sample hull is skipped although its points are hull vertices; all points can be dropped and quickHull reads an empty array), `c63_index_false` (positions refer to the filtered points). What holds is `c63_filter_partial` and `c63_compute_partial`. Not modelled: spurious failures of the weak compare-exchange, `gridSample`, `filter1` (unused), and the quickHulls of the spatial version. |
| C64 | Sequential 3D quickhull returns the convex hull | `Verif/QHull`: `Model.lean` models `initSerial`, the loop `quickHullSerial`, `furthestApex`, `facetWalk`, `computeFrontier` with `dfsEdge`, the allocation, linking and deletion of facets, `redistribute` and `getFacet` on a heap of linked facets; following a pointer to a deleted facet is `Err.ub`. The specification `IsHull3` (`Output.lean`) speaks only about the input points and the returned triangles. Proof: the loop invariant `Good` says that the live facets form a closed, mutually linked surface that is convex and star-shaped around the interior point, that every facet's conflict list holds points beyond it, and that every point in no conflict list is inside. `Dfs*.lean` prove that the recursive edge traversal returns the horizon of the apex as one closed cycle (planar-map argument: `Surf`, `Geo`), `Frontier.lean` transfers this to `computeFrontier`, `LinkStep.lean`/`Round*.lean` show that the new cone of facets closes the surface again and is convex, `Loop.lean` termination and the traversals, `Init.lean` the first simplex, `Output.lean`/`Extreme.lean` the specification. Small inputs (at most ten points) use the brute-force routine, proved against the same specification. `c64_quickhull`, `c64_corners_extreme`; orientation: `c64_orientation_inside`, `c64_orientation_inverted`, `c64_orientation_false`; without general position: `c64_flat_false`. |
| C65 | computeVertex returns the extreme points | `VertexModel.lean`: `getVertex` and `computeVertex` on the same heap; the external `sort` by contract (permutation, no element smaller than an earlier one with respect to `operator<`, which compares sums of coordinates), `unique` as removal of elements equal to their predecessor. `c65_vertices_partial`: set of returned points = extreme points (Mathlib `Set.extremePoints`), order, and no repetition if different extreme points have different sums. `c65_once_false`: the four corners of a tetrahedron come out as eight points. |
| C66 | The parallel 3D quickhull returns the facets of the hull for every interleaving | `QHull/ParModel.lean` models `quickHullParallel` with the serial branch, apex selection, reservation (priority writes interleaved at single accesses, `Verif.Reserve`), confirmation, the concurrent change of the surface (one small program per winner over shared facet objects, interleaved at single object accesses), reset, and the loop. Addresses, orders, interleavings and the last writer of `H` come from an oracle. `ParProg.lean`: a winner's program alone does what the sequential round does and touches only its own facets. `ParIndep.lean`, `ParCommit.lean`: programs with disjoint footprints commute, so any interleaving equals the rounds one after the other. `ParRound.lean`: reservations make winners' footprints disjoint (C40) and at least one wins. `ParLoop.lean`, `ParProps.lean`: induction over rounds; `par_outcome` gives all outcomes. The property is false for hulls with fewer than 64 facets (`c66_small_ub` for every such input, `c66_small_false` concretely); `c66_par_quickhull_partial` proves it for all others, `c66_deterministic` for pairs of runs. An access to an object (all fields of a facet with its `seeList`) is one step, which is coarser than the code; winners never touch the same object, so finer steps would not change results. Not modelled: `initParallel`'s own parallel loops (same corners and distribution as the serial ones by contract of parlay), the parallel loop inside `redistribute`. |
| C67 | Dual-tree k nearest neighbours over the log-structured tree | `LogTree/DualModel`: `dualKnnBase` of the log-structured tree in the default mode, one tree after the other over one query tree and one set of buffers, with `updateDualDist` after the buffer tree. `c67_dual_partial`: exact whenever the buffer is empty or has at least `k` points and at least `k` points are stored. False otherwise: `c67_small_buffer_throws` (every state whose buffer has fewer than `k` points, witness `c67_small_buffer_false`); `c67_too_few_false` (fewer than `k` points and an empty buffer: reads pointers never written instead of throwing). |
| C68 | Brute-force planar hull returns the extreme points in order round the hull | `Hull2d/Brute*`: facet test, list `H` in loop order and the connecting walk as written. In general position the facets are shown to be the edges of one cycle: the cycle comes from C32/C33, an end of a supporting edge is cut off by a tilted line, and two supporting edges leaving one point are equal. The walk along a cycle is by induction (`CycleOf.walk`). Negations: fewer than two points, two points, collinear triples (missing corner; exception). |
| C69 | The cache-oblivious kd-tree build is repeated median splitting, whatever the layout and the schedule | `BatchKd/CoModel`, `CoTrees`, `CoSplit`, `CoRun`, `CoLemmas`, `CoProps`: the node array is a memory of cells with pointers; an access to an unset cell, a write beyond `2 * max_size - 1` or a table row beyond the 24 levels is undefined. The serial and the parallel recursion are modelled as they are, including the table of child positions and the placement arithmetic. Proof: trees with holes and their encoding in the memory; complete top trees and their buckets compose (van Emde Boas recursion); one step lemma (pointer stored, subtree built in a region disjoint from all earlier ones) serves the serial loop and the parallel loop in any order; bucket sizes from C30. `c69_build`, `c69_order`, `c69_queries`. Simplified: iterations of a parallel loop are atomic (they write disjoint cells, apart from the two pointer fields of a shared parent); assertions are not modelled; `log2` of a natural number is exact. |
| C70 | The pseudo hull is the convex hull | `QHull/PseudoModel.lean` follows `pseudoHull/hull.cpp` function by function (`mkPF`, `pVisible`, `pFurthest`, `pApex`, `pParts`, `pHelper`, `pseudoHull`, `pseudoCompute`), on top of the parallel quickhull of C66. `PseudoLemmas.lean`: the recursion, by induction on the fuel, with the number of points strictly beyond the facet as measure; a point that sees none of the three new facets is in the simplex of the facet and the apex, the corners are never thrown away. `PseudoTop.lean`: the first simplex and the orientation of its facets. `PseudoProps.lean`: `c70_filter_partial` (points in one plane allowed), `c70_pseudo_partial` (general position, at least 64 facets), and what is false: `c70_small_ub`, `c70_duplicates_diverge`, `c70_duplicates_false`, `c70_scale_false`. Coordinates are exact; in the code the translation to the centre and back rounds, so that the points returned may differ from the input in the last bits. |
| C71 | Cache-oblivious kd-tree: insertions and erasures keep the multiset | `BatchKd/CoDynModel.lean` models the constructor, `insert` and `bulk_erase` of the cache-oblivious tree over the build of C69 (every operation has its own schedule and its own garbage in the node array); the erasure, gathering and query functions are those of the base class modelled for C22-C28. `c71_history_partial`: every allowed history returns and ends with the specified multiset (the specification is that of C28). `c71_states`: facts about every reachable state, equal coordinates included. Partial because the property is false with equal coordinates (`c71_ties_false`), when an insertion follows `bulk_erase<false>` that emptied the tree (`c71_refill_false`), and beyond the capacity in a release build (`c71_overflow_false`, write outside the node array). |
| C72 | Uniform data generators put every point where they say | `Dataset/UniformModel.lean` models `include/dataset/uniform.h` function by function over exact reals, with the hash function, the conversion to floating point and the order of the parallel loops as parameters; the parallel loops write into a sequence, and a write outside it is undefined behaviour. `c72_in_ball`, `c72_in_cube`, `c72_on_sphere`, `c72_on_cube`, `c72_shapes` (other shapes throw). Partial because the property is false on a cube of thickness 0 (`c72_thin_cube_false`: throws) and on a sphere of thickness above 1 (`c72_thick_sphere_false`: writes outside the sequence). Rounding is not modelled, except that of the conversion. |
| C73 | Seed spreader generators: clusters, moves and noise | `Dataset/SpreaderModel.lean` models `src/dataset/seedSpreader.cpp` over exact reals; the values of `rand()` are any sequence of numbers in [0,1]. The specification is the relation `Walk`. `c73_simden`, `c73_varden`: every returned sequence obeys it; `c73_returns`: when they return; `c73_simden_near_partial`: how far a point may be outside the box. Partial because points may lie outside the box (`c73_box_false`) and a negative share of noise writes outside the sequence (`c73_negative_false`). |
| C74 | Batch kd-tree: erasing points one at a time | `BatchKd/EraseOneModel.lean` models `kdtree.h:515-598` with `find` (249-280) as one walk down the tree. `c74_erase_one` (all states, equal coordinates allowed), `c74_erase_each` (histories; exact multiset; same items as a batch erasure) with `log_tree`; single erasures are also steps of the histories of C23, C24, C25, C28, C71 and of the log-structured tree (C55, C56, C67, flag `bulk`). Without `log_tree` it is false: `c74_last_point_false` (erasing all points of a tree that is one leaf dereferences null), `c74_half_false` (after one side of the root is empty a lookup dereferences null); `c74_keep_partial` (spec `BothSides`): it is exact as long as both sides of the root keep a point. The round trip of indices through pointer differences with null is modelled by its obvious meaning. |
| C75 | Parallel Kruskal is deterministic under interleaving of single memory accesses | `Mst/FineModel.lean` refines the two loops of `speculative_for` from C14: an iteration is a machine (`RPc`, `CPc`) with one step per access to shared memory (own cells `E[i]` are accessed together with the next shared access), a schedule lists which iteration moves next and whether a compare-and-swap fails spuriously. Reserve loop: invariant with fixed root function (shortcuts only), reservations are the least index among the iterations that are through with the cell. Commit loop: the final memory equals that of atomic commits in the order of the recording steps (refinement with a ghost state), so the theorems of C14 apply. `specLoopR` is the loop over an arbitrary round. Schedules that end early give the outcome `fuel`; `c75_finishes`: not if every iteration occurs often enough. Sequentially consistent memory. |
| C76 | The 3D gift wrapping hull returns the facets of the hull | `Gift/Model.lean`: `facetAngle` over the reals with `Real.arccos` (NaN as in the code gives 0), the two pivots with `max_element` by contract, the sequence `H` with pointers (generation of the buffer, index), the table of edges by the contract of C45 with its capacity (a full table never answers for an absent key), the loop with the queue. `Gift/Geo.lean`: the point of largest angle gives a supporting triangle (two-dimensional comparison of cotangents and a Lagrange identity). `Gift/Loop.lean`: invariant (all facets supporting, oriented by the origin, darts in the table, finished facets have all neighbours), the facets found form a closed surface, hence all (`Mesh` of C64). Proved if the origin is in the hull and in general position to the points, the buffer does not move and three times the number of facets is at most the size of the table; negations: origin beyond the first facet gives one triangle, a move of the buffer gives undefined behaviour, a table that is too small never ends. |
| C77 | gridSample returns one input point for every non-empty grid cell | `SampleHull/SpatialModel.lean`: bounding box, cell side, cell number `x di^2 + y di + z` by floors over an ordered field with floor, the insertions in an order given by a permutation (the table by contract: the first insertion of a key returns true), the filter of empty points. `SampleHull/GridProps.lean`: for every order the sample is a sublist of the input with different cell numbers that covers all cell numbers of the input, so it shares cells with every point if the box is longest in x; the numbers fit in 64 bits. Negations: cells on the upper faces of y and z have the numbers of other cells; equal points give the undefined conversion of NaN. |
| C78 | The 3D sampling hulls return the facets of the hull of the input | `SampleHull/SpatialModel.lean`: the four entry points from `filter2` (C63), the sequential quickhull (C64) and the parallel one (C66), with the limit of 1000 points as a parameter. `SampleHull/SpatialProps.lean`: below the limit the hull (C64); above, a returned value is the hull of what the filter kept, hence the hull of the input iff every extreme point was kept, and it is returned whenever the kept points span the input and the hull has at least 64 facets. Negations: no run returns the hull if it has fewer than 64 facets; `SampleHull/SpatialWitness.lean` has an instance in which a hull vertex is lost and a wrong surface is returned. |
| C79 | hull2d::randInc::compute returns the planar hull | `RandInc/Model.lean` models the whole of `src/convexHull2d/randInc/hull.cpp` with facets as heap cells (next, prev, token, list of points) whose deletion makes later reads undefined. The property is false: the function always returns an empty sequence (line 380, "dummy return"): `c79_empty_false`. Proved instead: for every non-empty input, every `eps >= 0`, every batch size and all orders it returns without touching a null or deleted facet (`c79_returns_partial`), and with exact tests (`eps = 0`) the ring it builds and drops has only input points as vertices, no input point sees a facet, and the hull of its vertices is the hull of the input (`c79_ring_partial`). How: `RandInc/Lemmas.lean` (the pointer loops of `findVisible` and of the ranges, for a run of visible facets between two hidden ones), `Reserve.lean` (tokens: the least vertex of a batch wins, ranges of winners are disjoint, all tokens are free again after the checks), `Ring.lean`/`Process.lean`/`Step.lean` (four chains between the extreme points; a vertex only sees facets of its own corner or beyond none, so its run is well formed; one insertion), `Rounds.lean` (every round inserts at least one vertex), `Geo.lean`/`Conv.lean`/`ConvStep.lean`/`Final.lean` (convexity: directions of a chain stay in a quadrant and turn right; every point that sees nothing is in the hull of the ring). Not modelled: iterations of a loop are atomic (a reservation is one `write_min`, and winners touch disjoint facets); `H` is written by concurrent iterations without synchronisation, formally a data race, read only under `RAND_HULL_2D_VERBOSE`; overflow of `numProc*4`. |
| C80 | The array buffer of the log-structured tree is a bag of points | `LogTree/BufModel.lean` models the whole class; `LogTree/BufProps.lean` compares it with a bag of points (`ideal`). False: erasing does not lower `cur_size`, so `size()` counts erased points, moving the points out yields default objects, no room is won back (`c80_size_false`), and the branch that should move the points together always writes outside the arrays, or throws in debug builds (`c80_no_room`, for all histories); `knn` reads the first `k` candidates without a last `keepK`, so it can miss the nearest point (`c80_knn_false`). Proved: while at most `2^log2size` points were inserted since the last emptying, every history runs, `contains` and `orthogonalQuery` are exact and the wrong sizes are exactly those (`c80_run_partial`); `knn` is exact if `k` divides the number of points (`c80_knn_partial`). |
| C81 | The brute-force reference routines are exact | `Brute/Model.lean`; the loop of `bruteforceOrthRange` is modelled access by access (test, read size, write element, store size). False: two overlapping iterations lose an index (`c81_orthRange_false`). Proved: under every schedule only indices of points in the cube appear, none twice (`c81_orthRange_sound`); without overlap the result is exact (`c81_orthRange_partial`); `c81_bruteforceKnn` and `c81_bruteForceParallel`, `c81_single` cover the other two, with the contracts of `nth_element` and `min_element`. Not modelled: the move of the vector to a larger array (under overlap a use after free). |
| C82 | The sparse hash table is a finite map over its whole sequential life | `Verif/Hash/SeqModel.lean`: the table as a size and two arrays, `insert_seq`, `mark_seq`, `contains`, `find`, `entries`/`map`, `clear`, the constructor's size (`1.1 * m` exact) and `resize`, whose copying loop is the access-level machine of C45 under any schedule. Specification `SeqLemmas.lean`: a function `K → Option V` with counters. `c82_run_partial`: every sequence of calls that leaves a slot free answers like the map, with one extra entry `empty_key - 1` per deleted key in `entries`; `c82_entries_exact`: without deletions `entries` is the map; `c82_capacity`, `c82_fits`: `m` insertions always fit; `c82_resize`, `c82_resize_room`: growing keeps the map for every fair interleaving. Negations: `c82_entries_false`, `c82_contains_false`, `c82_room_false` (empty map, `contains` never returns). Not modelled: `insert_f`, `insert_check`, the constructor over a given array, `int` overflow of `1 << k` in `resize`. |
| C83 | The command line gives back what the user wrote | `Verif/IO/CmdModel.lean`: `argv` as a list of words, every loop with its index and bounds, reads outside `argv` and numbers that do not fit as undefined behaviour, the usage message as an outcome; `atoi`/`atol` by contract (white space, sign, digits), `sscanf` as a parameter. Specification: a list of options rendered into words. `c83_switch`, `c83_value`, `c83_argument`, `c83_file_partial`, `c83_int_partial` (round trip with decimal printing), `c83_default`, `c83_int_nonneg`, `c83_double_partial`, `c83_help` by induction over the loops. Negations: `c83_file_false`, `c83_int_false`, `c83_double_false`. `c83_ioFiles`, `c83_sizeAndFile` and `c83_size_false` (a negative size wraps) cover the two-word forms. |
| C84 | Traversals and integrity checkers of the 3D hull | `Hull3d/CheckModel`: the traversal with an action that may throw, on any heap of facets, null and dangling pointers as undefined behaviour; `isAdjacent` as written. Specification: reachability by pointers (`ReflTransGen`), cardinality of the reachable set, mutual pointers across undirected edges. The order of the traversal is independent of the action (`dfs_order`), so the theorems hold for all actions (`c84_dfs`, `c84_size`, `c84_print`, `c84_print_check`, `c84_pts`). False for `checkHull`: `isAdjacent` is true of all pairs of facets (`isAdjacent_true`), so it accepts every linked memory (`c84_check_partial`), also a tetrahedron with wrong links (`c84_check_false`). Not modelled: the room in the hash table of marks, the text format. |
| C85 | Top-level dual-tree nearest neighbours under concurrency | `dualKnn` of `dual.h:34-79` from the caller's vector to the rows and back: build of the cache-oblivious query tree, `DualKnnHelper`, `updateDualDist` and the buffer search as fork-join programs over the shared `dualKnnDist` fields and candidate buffers (`BatchKd/DualConcModel.lean`, `LogTree/DualConcModel.lean`), every schedule. Proved by a general theorem on race-free fork-join programs (`Par/RaceFree.lean`: if the accesses of concurrent branches commute, every schedule has the outcome of the sequential run), footprints of subtrees (places of nodes are different by C69, slices are disjoint), equality of the sequential run with the functions of C24 and C67, and those theorems. Partial: with an empty vector of queries the code converts `ceil(log2(0))` to `int` (`c85_empty_false`); on the log tree the conditions of C67 remain (buffer empty or at least `k` points). Work on one buffer for one leaf is one step; `parallel_for` is a nest of forks; the build of the query tree is the model of C69 (its own order parameter). |
| C86 | The kd-tree in memory, under every interleaving of its construction | Modelled (`Verif/KdTree/ConcModel.lean`): the constructors of `tree` and `node` as a fork-join program on the item array, the flag array and the node array with pointers `left`, `right`, `sib`; every iteration of the parallel loops and both branches of `par_do` run in parallel; writes outside an array or reads of unwritten entries are undefined. Reading a slice (box, `split_two`) and a serial split are single accesses, since the slice belongs to one thread. Proved (`c86_build`, `c86_nodes`): accesses of parallel parts are local to disjoint locations (`Verif/Par/Local.lean`), so by `FJ.run_seq` every schedule gives the memory of the sequential run, which holds the tree of C01. Not modelled: `id`, `malloc` failure, the representation of `intT`. |
| C87 | Pair collection in per-worker buffers under every interleaving | Modelled (`Verif/Emst/BufModel.lean`): the parallel pair searches as fork-join programs whose only shared accesses are `parBuf::increment` on the buffer of the worker that runs the branch; the worker of each access and the schedule are parameters, the final parallel copy is a permutation; a write behind the last block's end or into an empty block is undefined. An increment is one step (the buffer belongs to one worker at a time). Proved through a general theorem on programs that only emit (`Verif/Par/Emit.lean`): with at least as many points as workers every execution collects a permutation of the sequentially emitted pairs (`c87_wspd_partial`, `c87_spanner_partial`, `c87_emst_partial`). False in general: buffers are created with size `n / numWorkers`, so with 2 <= n < workers every execution is undefined (`c87_wspd_false`, `c87_spanner_false`, `c87_emst_false`). |
| C88 | The self-check verify() of the batch kd-trees | Modelled (`Verif/BatchKd/VerifyModel.lean`): `verify` and `countPoints` on the trees of C22-C30 and C69. Proved: in every reachable state with stored points the check is defined, and returns or throws according to a specification that counts the present items of the slices (`c88_verify_exact`); `countPoints` gives the size of the tree (`c88_count`); with object medians it accepts every tree after a build, an insertion or an erasure that rebuilds, in both layouts (`c88_object_partial`, `c88_co_partial`). False in general: it rejects correct trees with spatial splits (`c88_spatial_false`) and after an erasure without a rebuild (`c88_erase_false`); and it accepts a tree in which a stored point is not found (`c88_blind_false`). Not modelled: `int` overflow of counts. |
| C89 | Edge-list files hold one line per edge, in order | Modelled (`Verif/IO/EdgeModel.lean`): the edge writers with their chunks, on the character array of C39. Proved: the exact text of the file for unweighted edges (`c89_edge_file`), read back by `c89_edge_words`; for weights that print in 18 characters (`c89_weighted_file_partial`). False for negative weights with three-digit exponents (`c89_weighted_false`; weights of the library are distances, hence not negative). An empty sequence is undefined (reads `A[0]`). Not modelled: opening the file. |
| C90 | The self-check of the Delaunay triangulation | Modelled (`Verif/Delaunay/CheckModel.lean`): `check_delaunay`, with the increments of `boundary_count` as separate loads and stores of interleaved iterations. Proved: the check of neighbours settles all circles (`c90_edges`, through the Delaunay lemma `IsTriangulated.local_global`); the size of the boundary is right if the iterations run one after the other, and never found too large (`c90_boundary_partial`). False in general: the inner `i` hides the outer one, so iterations share three counters, and increments get lost (`c90_race_false`); with fewer than three triangles a counter does not exist (`c90_small_false`); and a mesh that winds twice around a vertex passes (`c90_overlap_false`). Not modelled: reading the field `initialized`, which is never set. |
| C91 | The kd-tree and its range searches in rounded arithmetic | Modelled (`Verif/Float/Round.lean`, `Verif/KdTree/FloatModel.lean`): the construction, both range searches and `bruteforceRange` over the reals with a rounding function applied after every operation; `rne p` is round-to-nearest-even with `p` bits and unbounded exponent (no overflow, underflow, NaN), shown to round to a nearest representable number (`rne_nearest`) and to satisfy the assumptions with `u = 2^-p` (`isRounding_rne`). With the identity as rounding the models are those of C01 and C03 (`constructFl_id`, `rangeSearchFl_id`). Proved for every rounding: `c91_build`, `c91_orthogonal`, the ball search between two filters (`c91_range_partial`) and its accuracy in exact distances (`c91_accuracy`). False: agreement with the brute-force search (`c91_agree_false`) and the separation of the children for distinct points (`c91_separated_false`). |
| C92 | The bichromatic closest pair in rounded arithmetic | Modelled (`Verif/KdTree/BccpFloatModel.lean`): the brute-force loop, the distance of two boxes and the recursive search of `bccpImpl.h` over the reals with a rounding after every operation. Proved for every monotone odd rounding, so also with underflow to zero: `c92_bccp` (least computed distance), `c92_bruteforce` (same distance as the brute-force routine); with bounded relative error `c92_accuracy` (in exact distances). The key fact is that the computed box distance never exceeds the computed distance of any two points in the boxes, since all operations are monotone. |
| C93 | The k nearest neighbours in rounded arithmetic | Modelled (`Verif/KdTree/KnnFloatModel.lean`): `knnRange`, `knnHelper` and `batchKnn` with the computed distance and the computed query box. Proved (`c93_knn_partial`; `c93_few_partial` for the exception when `n < k`) for points whose coordinates are equal or more than a few roundings apart, with no position shared by more than `leafSize` points: `k` different indices, right up to `(1-u)^(d+5) ((1-9u) c - 3uM) <= c'`. False for closer points, even if all are different (`c93_duplicates_false`). |
| C94 | The well-separated pair decomposition in rounded arithmetic | Modelled (`Verif/KdTree/WspdFloatModel.lean`): `lMax`, `geomWellSeparated` and the recursion of `wspdImpl.h` with a rounding after every operation. Proved: `c94_cover` (no exception, every pair of points covered once, for every monotone odd rounding, so also with underflow) and `c94_separated` (two balls whose radii and distance meet the requirement up to `d + 7` roundings and `6 sqrt(d) u M` for the centres). |
| C95 | The Euclidean minimum spanning tree in rounded arithmetic | Modelled (`Verif/Emst/FloatModel.lean`): the filtered traversals, the tests and bounds of `wspdFilter.h`, and the rounds of `emst.cpp`, with a rounding after every operation. Proved: `c95_spanning` (a spanning tree with computed weights, for every monotone odd rounding: the computed distance of two points lies between the computed near and far distances of the nodes that hold them, so no pair is lost between rounds), `c95_near_minimal` ((2a-b) * weight <= b^2 * (length of any connecting list + its number of edges times `6 sqrt(d) u M`), with `a = (1-u)^(d+7)` and `b = (1+u)^(d+7)`), `c95_small`. With exact arithmetic (`u = 0`) the bound is C16. |
| C96 | The t-spanner in rounded arithmetic | Modelled (`Verif/SpatialGraph/SpannerFloatModel.lean`): the separation constant `4*(t+1)/(t-1)` and `spanner`, with a rounding after every operation, over the rounded kd-tree and pair decomposition of C91 and C94. Proved: `c96_connected` (every monotone odd rounding, if `t-1` does not round to zero), `c96_stretch` (stretch at most `tau`, for every `tau` that meets the inequality of the exact algorithm up to the factors of the roundings; the input is assumed to have no two different points closer than `delta`, where `6 sqrt(d) u M <= kappa delta`), `c96_small`. With exact arithmetic (`u = kappa = 0`) it is met by `tau = t`, which is C17. |
| C97 | delaunay with its self-check switched on prints nothing | Modelled (`Verif/Delaunay/DriverModel.lean`): `delaunay` with `CHECK` set, that is C61 followed by the check of C90 on the resulting triangles. Proved: `c97_checked_partial` (the result of C61; in every execution the check is defined and prints no line about an edge; if its iterations run one after the other it does not print the line about the boundary: the outline has ten edges, `outlineSize_ten`). False in general, on every input: the iterations increment shared counters without synchronisation, and there are complete executions in which an increment is lost and the line about the boundary is printed (`c97_race_false`). |
| C98 | The measures of planar triangles mean what their names say | Modelled (`Verif/Delaunay/ShapeModel.lean`): the five functions over the reals, with the code's constant 3.14159; a division by zero is a separate outcome. Proved: `c98_circumcenter`, `c98_circumcenter_line` (points on a line: division by zero), `c98_area`, `c98_inCircle_partial` (range and signs, by Hadamard's inequality), `c98_angle_partial` (never below, at most 0.0002 degrees above the angle), `c98_minAngle_partial` (exact, for the bound converted with 3.14159). False: far away the normalised in-circle value tends to 0, not -1 (`c98_infinity_false`, at most 6/distance^2); it is 0/0 at a corner (`c98_inCircle_corner`); no angle but 0 is returned exactly (`c98_angle_false`); the check misses an angle just below the bound (`c98_minAngle_false`). Rounding of doubles is not modelled here. |
| C99 | Planar quickhull on doubles | Modelled (`Verif/Hull2d/FloatModel.lean`): the routine of C32/C33 with every operation of `triArea` rounded; assumptions on the rounding as in C91. Proved: `c99_defined_partial` (with any monotone odd rounding the recursion ends, stays inside the arrays, and returns indices of input points, among them both lexicographic extremes and, on either side of the line through them, a point if one is computed to lie there: the chosen point has computed area exactly 0 and so is never kept); `c99_grid_partial` (coordinates that are multiples of one power of two by integers of at most 25 bits: nothing is rounded, and C32 and C33 hold for the result). False in general: for four `double` points the routine returns one index twice and a point strictly inside the triangle of the others (`c99_twice_false`). Missing: how far the result can be from the hull for other coordinates. |
| C100 | Nearest neighbours of the batch kd-tree on doubles | Modelled (`Verif/BatchKd/KnnFloatModel.lean`): the searches of C24 with the query box, the distance and the distance of boxes rounded operation by operation; the buffer does no arithmetic on distances and is that of C24; the trees are those of C22-C25 and C69/C71 (their shape does not matter for the answers). Assumptions on the rounding: monotone and odd (dual-tree search); moreover idempotent and `r <= fl(sqrt(fl(r*r)))` for floating-point numbers `r >= 0` (single-tree search), which `Verif/Float/Sqrt.lean` proves for rounding to nearest, ties to even, with any number of bits and no bound on the exponents. Proved for all reachable trees: `c100_knn`, `c100_coknn` (cache-oblivious tree), `c100_dual`, `c100_dual_interleaved`: the rows are exact with respect to the computed distance. `c100_true` says what that means for true distances. Not covered: overflow, and underflow in the single-tree search. |
| C101 | Building a batch kd-tree on doubles and finding its points | Modelled (`Verif/BatchKd/SplitFloatModel.lean`): the builds of C22 with the split value `(a + b) / 2` rounded after the sum and after the division; the rest of a build and the searches only compare. Rounding: to nearest, ties to even, `p` bits, no bound on the exponents. Proved: `c101_serial_partial` (object median, no parallel split: different coordinates are enough), `c101_spatial_coarse_partial` (spatial median, leaves of at least two points: enough as well), `c101_object_partial` and `c101_spatial_partial` (any split, any leaf size, provided a floating-point number lies strictly between any two coordinates). Negations with `p = 53`: `c101_object_false` (for every number `2 m` of points that is split in parallel: the build returns and `contains` denies a stored point) and `c101_spatial_false` (two points, leaves of one point: the split has an empty side, outcome `ub` of the model). The cache-oblivious build (`Verif/BatchKd/CoFloatModel.lean`, the machine of C69 with the rounded split value): `c101_co_partial`, `c101_co_serial_partial` and the negation `c101_co_false`, for every order of the parallel loops. Missing: overflow of the sum. |
| C102 | The dynamic kd-tree on doubles | Modelled (`Verif/DynKd/FloatModel.lean`): construction, insertion and nearest neighbour search of C19/C20 with the middle of a box, the ends of the search box and the distance rounded operation by operation; erasing and boxes only compare. Proved: `c102_kNN` (a) for every rounding that is monotone, odd, idempotent and has `r <= fl(sqrt(fl(r*r)))`, which rounding to nearest is (`Verif/Float/Sqrt.lean`); `c102_steps` (b) for any function in place of the rounding; `c102_history_partial` (c) for rounding to nearest when no two stored positions agree or are neighbours in one dimension and agree in the next (and no position is erased twice, as in C19). Negation of (c): `c102_erase_false`, two points of the plane. Not covered: overflow and underflow. |
| C103 | Nearest neighbours with the oct-tree on doubles | Modelled (`Verif/OctTree/FloatModel.lean`): tags, centres, lengths and the test of a box of C42 rounded operation by operation; boxes and the cuts only compare. Proved: `c103_kNearest_partial` and `c103_nearest_partial`, (a) and (c), and `c103_missed_partial`, (a) and (d), by the invariant of the buffer of C42 with the relation between the first entry and the vertices left out as a parameter. Negation of (b): `c103_kNearest_false`, 32 vertices with `x = 1` and `y = n / 2^60`, through the real tags, the sorting and the cut; all distances are computed exactly. Not covered: overflow and underflow (the largest double as the first entry is a top element). |
| C104 | The Morton sort on doubles | Modelled (`Verif/Morton/FloatModel.lean`): spans, box size (with the rounded literal 1.01) and cells of C38 rounded operation by operation; extrema and codes as in C38. Proved for every rounding with relative error at most 2^-30: `c104_sort2d_partial`, `c104_sort3d_partial` (returns, permutation in the order of the codes, codes monotone, equal codes only for close points). Negations with doubles including gradual underflow (`rneSub`): `c104_underflow_false` (two points at 1 to 32000 times the smallest double: undefined conversion) and `c104_range_false` (65536 to 97000 times: throws). Missing: what happens at other extents below the normal range; overflow. |
| C105 | insert_check and insert_f of the hash table | `Verif/Hash/CheckModel.lean`: `insert_check` with its counter and flag, `insert_f` with any combining function, both for calls one after the other; concurrent calls of both as machines on top of the one of C45; a call of the function of `insert_f` is one atomic step there. Proved: `c105_check` (always returns, three outcomes exactly), `c105_check_room_partial` (never gives up on tables of at most 10001 slots with a free slot), `c105_fold` (all sequences of `insert_f`), `c105_concurrent_partial` (every interleaving, tables of at most 10001 slots with room: the flag stays unset and the result is that of C45; by simulation), `c105_concurrent_abort` (nothing happens after the flag was set), `c105_concurrent_fold` (`insert_f`, every interleaving: table and results as in C45, and one order of all calls that explains the value of every key; by simulation and a log of the calls, in `Verif/Hash/FoldProps.lean`). That it gives up only on full tables is false: `c105_check_false`, 10001 keys of one hash value in a table of 32768 slots. |
| C106 | The planar gridSample returns one input point for every non-empty grid cell | `Verif/SampleHull/Grid2Model.lean`: the planar `gridSample`, written like the spatial one (C77). Proved for every order of the insertions: `c106_grid_partial` (a sublist of the input, no two points of one cell, every cell represented if no point lies on the upper side), `c106_no_overflow`. False otherwise: `c106_collision` in general, `c106_collision_false` with three points; undefined if all points are equal (`c106_equal_ub`). Exact arithmetic; the table by contract. |
| C107 | The reservation check and the statistics of the parallel hull | `Verif/Hull3d/StatsModel.lean`: both traversals on the memory of C84. Proved with the traversal theorem `c84_dfs`: `c107_reset`, `c107_stats`, with reachability, cardinality, sums and least elements as the specification. The counters of type `double` are natural numbers in the model (exact below `2^53`); the printed format is not modelled. |
| C108 | Lookups in the hash table during insertions | `Verif/Hash/ReadModel.lean`: one lookup with its two or three reads per slot as separate steps, interleaved with the insertions of C45 in any order, called at any moment. Proved by an invariant on top of that of C45: `c108_read_partial` (ends, finds all keys present at the call, finds only keys in the table; the value is that of an insertion of the key, or the old content of the slot; exact for keys that were there before and for insertions that had returned). That the value is always an inserted one is false: `c108_value_false`, a lookup between the compare-and-swap of `insert` and its write of the value. Memory order of the hardware is not modelled. |

## Findings in the code

Recorded as negation theorems where modelled (see MANIFEST notes).

* `parBuf` with initial size 0 never grows, so the first write is out of bounds; this happens when n is below the worker count.
* `parBuf::incrementParent` allocates the pointer array with `sizeof(T)` per entry: for elements smaller than a pointer the 1024th insertion (initial size 1) is out of bounds.
* `batchKnn` for a query outside the root box throws or gives wrong answers when the query is not stored in the tree.
* `batchKnn` inserts points twice when sibling boxes coincide (many identical points), so indices repeat.
* `unionFind::union_roots` stores ranks below -1, which `find` then uses as an index (unused in the repository).
* `ball::operator==` compares each field with itself and is always true.
* Planar and spatial divide-and-conquer hulls drop the last `n mod blocks` points.
* Sampling planar hull returns indices into the filtered subset; `randInc` returns an empty sequence.
* Dynamic kd-tree: erasing a point twice decrements the size twice; a point equal to the split value in the left part cannot be erased.
* Batch kd-tree with object-median split: points tied with the split value in the left half are missed by contains/find/erase.
* Batch kd-tree: after erasing everything without rebuild the presence flags stay false; points inserted next are invisible.
* `closestPair` brute force updates a shared pair inside `parallel_for` without synchronisation.
* `knnGraph` writes k+1 edges for a query that does not appear in its own neighbour list.
* Morton sort of points that are all at one location divides by a zero box size and converts NaN to an integer.
* `ball::grow` after the constructor mixes coordinates: `center()` adds the constructor's offset to an absolute centre.
* `contain` tolerates the library epsilon, so `welzl` may return a ball that misses points by up to 1e-5.
* Parallel pivoting Welzl can access `P[P.size()]`; the scan and sampling balls read behind the array for fewer than `3 * dim`
  points, and sampling also in its last slice when `n / 100` does not divide `n`.
* The flag loop of the Delaunay and Gabriel edge lists reads one entry past its array.
* Brute-force hull in space: a face with four or more coplanar points may be missing from the result.
* `linkFacet` with two facets sets `bcFacet` instead of `caFacet` of the second facet in one case (unused overload).
* Divide-and-conquer planar hull below ten points divides by zero.
* Log-structured tree: a batch that fills the structure exactly is refused if it arrives at an empty buffer with a multiple of
  the buffer size, although there would be room.
* Log-structured tree: `knn` with a non-empty buffer of fewer than `k` points throws whatever the trees hold.
* Log-structured tree: one erase of a position removes a copy from every tree; an erase batch that empties the buffer while a
  tree becomes half empty loses the points moved into the buffer (its presence flags stay false after the refill, C28).
* Dynamic kd-tree: erasing a position twice (also after inserting it again) makes leaf counters too small; a later insertion into that leaf writes
  behind its container.
* Dynamic kd-tree: insertion of 2000 points or more may replace both children in parallel; one thread then writes the sibling
  pointer of a node that the other has deleted.
* `closestPair.cpp:109`: `bruteForceSerial` reads `P[0]` and `P[1]` before looking at the size; in dimension 3 and higher the slab of a divide step can have a single point, so the second read is behind the end of the array (`c21_single_false`).
* `closestPair.cpp:239`: the parallel slab scan builds `pp(Pp[i], Pp[i+j+1], floatMax)` exactly when `i+j+1 >= np`, i.e. reads behind the slab in every run with more than 100 slab points (`c21_parallel_false`).
* `closestPair.cpp:110-114`: the iterations of the `parallel_for` of `bruteForceSerial` call `A.closer` on a shared pair without synchronisation; an overlap can end with a pair that is not closest (`c21_race_false`).
* `betaSkeleton/kdt.h:265, 287`: the array `items` is a local variable of `buildKdt`; the nodes of the returned tree keep slices of it, so `nonEmptyLune` reads destroyed memory (`c44_dangling_false`).
* `betaSkeleton.cpp:43-44`: for `beta < 1` the two circles are centred at the end points of the edge instead of passing through them, so edges of the skeleton are dropped (`c58_lens_false`).
* `betaSkeleton/kdt.h:330-331`: distances are rounded to `float` before they are compared with `double` radii (not modelled).
* C41: `simplex::splitBoundary` (topology.h:222) sets `v2->t = t` although `v2` is no longer a corner of `t` afterwards (`c41_splitBoundary_vertex_false`); the function has no caller. `simplex::flip` on an edge at a vertex of degree three leaves two triangles that are neighbours twice, after which `locate`/`across` return the wrong edge (`c41_flip_degree_three_false`); the insertion never flips such an edge (C59).
* C59: a repeated input point is not rejected: `find` returns a triangle at the copy, the cavity is empty, and `split` creates a triangle with area 0 (`c59_duplicate_false`, for every triangulation).
* C61: the centre of the boundary is `maxP + size/2` and not the middle of the bounding box (delaunay.cpp:205); all points are still within 0.15 of the radius, so the result is right. With a single point (or all points equal) the radius is zero and `delaunay` returns degenerate triangles; with no point it reads `P[0]`. Points given twice leave triangles of area zero in the result.
* C42: `interleave_bits` (oct_tree.h:213) divides by the extent of the bounding box. For a single vertex, as in the first tree of `incrementally_add_points` (delaunay.cpp:243-244), this is 0/0, and converting NaN to `unsigned int` is undefined behaviour. `c61_octtree` shows that the triangulation is right whatever tag comes out.
* C63: `flagVisible` (`include/convexHull2d/sampling/filter.h:99, 106`, the same in 3D) passes the local `F` as expected value of `atomic_compare_exchange_weak`; after a flag that was set already `F` is true, so the next unset flag is not set and that point is lost (`c63_lost_false`).
* C63: nodes with `volMax <= 0` are skipped although they may contain vertices of the hull of the sample (a vertex in the corner of its box); if the sample hull covers the box of the input, no point is kept and the final quickHull dereferences an empty array (`c63_covered_false`, `c63_line_ub`: 1000 points on a horizontal line).
* C63: `facet` in `include/convexHull3d/facet.h:13-17` orients facets relative to the origin; for inputs away from the origin the spatial filter drops hull vertices (`c63_origin_false`).
* C63: `hull2d::sampling::compute` returns positions in the filtered points, not in the input (`c63_index_false`); `randomProjection` reads `P[P.size()]` if the hash is a multiple of the size (`c63_projection_ub`).
* C64 (`include/convexHull3d/facet.h`): the constructor of a returned triangle orients it by the sign of the determinant of its corners, i.e. relative to the origin of the coordinates and not to the hull. For points away from the origin the triangles that face the origin come out inverted (`c64_orientation_inverted`, `c64_orientation_false`), although the comment promises a common orientation.
* C64: for coplanar input the sequential quickhull ends normally and returns degenerate triangles that do not span the hull (`c64_flat_false`).
* C65 (`include/pargeo/point.h:75-83`, `hullTopology.h:425-426`): `operator<` compares sums of coordinates while `unique` compares coordinates, so equal points need not be adjacent after sorting and `computeVertex` returns vertices several times (`c65_once_false`: eight points for a tetrahedron).
* `furthestApexParallel` and `randomApex` (`include/convexHull3d/parallelQuickHull/hullImpl.h:147-157`, `407-417`) start with a null `apex` and evaluate `!apex->isEmpty()` after visiting a facet; if the first facet visited has no points the null pointer is dereferenced. The serial branch of `quickHullParallel` ends only this way, so every run on an input whose hull has fewer than 64 facets has undefined behaviour (`c66_small_ub`).
* C67: `LogTree::dualKnnBase` throws whenever the buffer tree is not empty but has fewer than `k` points, although enough points are stored (`logtree.h:1110-1115` through `kdtree.h:306`). With an empty buffer and fewer than `k` stored points it returns uninitialised pointers. `updateDualDist` gives a leaf without `k` candidates the radius zero, which would prune everything; only the exception keeps this from happening.
* `src/convexHull2d/bruteforce/hull.cpp`: for 0 or 1 points `H[0]` of an empty sequence is read; for 2 points only index 0 is returned; with three collinear points the facet list is not a cycle, and the result lacks a hull corner (`c68_collinear_false`) or an exception is thrown (`c68_throws_false`). C68 is partial for this reason.
* `src/euclideanMst/wspd/emst.cpp` is not part of the build and calls `wspdParallel` and `bccp`, which no file declares; it is not modelled.
* C70: if the corner with the smallest coordinate on which the first simplex is built is in the input four times, `pseudoHullHelper` calls itself for ever (`visible` is true of every copy of a corner, so the pieces never get smaller than four); see `c70_duplicates_diverge`. With a scale so small that the volumes are below the constant 1e-5 the filter throws away extreme points (`c70_scale_false`). Hulls of fewer than 64 facets end in the null pointer of C66 (`c70_small_ub`).
* C71: `CO_KDTree::insert` into a tree that `bulk_erase<false>` emptied keeps the cleared `present` flags: the point is counted by `size()` but no query sees it. Beyond the capacity, a release build writes outside the node array.
* C72: `uniformOnPolyPoints` on a cube throws for thickness 0, though the sphere accepts it; on a sphere in even dimension a thickness above 1 makes `n1 > n`, and the first loop writes outside the sequence.
* C73: the clustered points of both seed spreader generators may leave the box `[0, 100000]^d`; a negative `rhoNoise` is not rejected and writes outside the sequence.
* C74: `erase` without `log_tree` dereferences a null parent when the last point of a tree that is a single leaf is erased; when one side of the root becomes empty, the root keeps a null child and later lookups on that side dereference it.
* C76: `gift::compute` keeps pointers into `H` in its queue and reads `f->a` after `H.emplace_back`; both dangle when the sequence grows. The constructor `fc` orients by the sign of the determinant, which is only right if the origin is inside the hull; if the origin is beyond the first facet, one triangle is returned. The table of edges has room for the next power of two from 4.4 n + 1, but a hull has up to 6 n - 12 directed edges: with 13 or 14 points in convex position the insertion never returns.
* C77: `gridSample` numbers cells by `x*di*di + y*di + z` with `z` up to `di` inclusive, so that the top cell in z (or y) has the number of the bottom cell of the next row; a cell may get no sample. If all points are equal, `r` is 0 and `size_t(floor(0/0))` is undefined.
* C78: `sampling::compute`, `random`, `grid`, `projection` in space inherit C63 and C66: a hull of fewer than 64 facets is never returned, and the filter can lose hull vertices, after which a wrong hull is returned. `compute` and `projection` are the same function.
* `hull2d::randInc::compute` (src/convexHull2d/randInc/hull.cpp:380) returns an empty sequence for every input; the ring it computed is dropped and leaked.
* `include/batchKdtree/log-tree/buffer.h`: `bulk_erase` does not update `cur_size`, so `size()` counts erased points, `LogTree::insert` moves default objects into its trees, and erased places are never used again; the branch of `insert` that gathers the points (96-111) is only reached when it writes outside the arrays, and would leave all its points not present (C80).
* `include/batchKdtree/log-tree/buffer.h:176-194`: the search reads the first `k` of up to `2k - 1` unordered candidates (C80).
* `include/kdTree/rangeSearchImpl.h:204-216`: `bruteforceOrthRange` calls `push_back` on one vector from a parallel loop; overlapping iterations lose indices (C81).
* C82: `sparse_table::mark_seq` replaces a deleted key by `empty_key - 1`. `entries`/`map` report these as entries, `contains(empty_key - 1)` becomes true, and the slots are never reused, so that a table whose map is empty can make `contains`, `find`, `insert_seq` and `mark_seq` loop for ever (`c82_entries_false`, `c82_contains_false`, `c82_room_false`).
* C83: `commandLine::getOptionDoubleValue` rejects only an empty value (`sscanf(...) == EOF`); for a word that is no number `sscanf` returns 0 and the unwritten `val` is returned (`c83_double_false`). `getOptionIntValue` turns such a word into 0 (`c83_int_false`). `getArgument` counts option values as arguments, so that without an input file the value of the last option is opened (`c83_file_false`).
* C84: `checkHull` (`hullTopology.h:358-386`) never reports anything: `isAdjacent` fills its array with `f1->a, f2->b, f2->c` instead of the vertices of `f1`, and then always finds the edge `b c` of `f2` itself. A tetrahedron whose links are all turned passes both `checkHull` and `printHull`.
* C85: `dualKnn` with an empty vector of queries: `(int)std::ceil(std::log2(0))` is undefined (`dual.h:42`, 66).
* C87: `wellSeparatedPairDecomp`, `spanner` and `euclideanMst` are undefined for every execution when there are fewer points than workers: the per-worker buffers are created with block size `n / num_workers() = 0` and the first `increment` uses a place of an empty array.
* C88: `verify()` throws on correct batch kd-trees: always possible with spatial splits, and after `bulk_erase<false>`; it does not notice the tie defect of C22.
* C89: writing an empty edge sequence reads `A[0]`; a negative weight below 1e-99 in absolute value is written with its exponent cut.
* C90: in `check_delaunay` the inner loop variable hides the outer one, so `boundary_count[i]++` races on three shared counters and can report a wrong boundary for a correct triangulation. The check is compiled out by default (`CHECK 0`).
* C91: in `double` arithmetic `rangeSearch` and `bruteforceRange` disagree: for the stored point 9007199254740998, the query 1 and the radius 9007199254740996 the computed distance equals the radius, but `tmp + radius * 2` is rounded below the point (`c91_agree_false`). And for points one unit in the last place apart the split value is rounded to one of them, the split fails, and the fallback cuts the list without looking at positions, so that leaves of distinct points get overlapping boxes (`c91_separated_false`).
* C93: for four different `double` points at the corners of a square with side 2 at 2^53, leaf size 2 and `k = 4`, the search for the neighbours of the first corner returns a row with a repeated index that misses the opposite corner: the rounded split value makes both leaves cover the whole square, and the search then inserts the points of the second leaf twice (`c93_duplicates_false`).
* C97: with CHECK set, `check_delaunay` increments `boundary_count[0..2]` from all iterations of a parallel loop without synchronisation (delaunay.cpp:173); on every input of at least two different points some complete execution prints a wrong boundary size (`c97_race_false`).
* C98: the comment at geometry.h:393 says that inCircleNormalized is -1 out at infinity; far from the corners the value tends to 0 (`c98_infinity_false`), and at a corner it is 0/0. `angle` and `minAngleCheck` use 3.14159 for pi (geometry.h:436, 448).
* C99: planar quickhull on doubles can return the same index twice and a point strictly inside the hull, e.g. for (0,12), (1,1), (1+2^-52,1), (1,1+2^-52) (scaled by 2^52 in `c99_twice_false`): a point almost on the line can be kept on both sides of the chosen one.
* **Neighbouring doubles hide a point (C101).** `split_val` computes the middle of the two median coordinates as `(a + b) / 2`; when they are neighbouring doubles the result can be `a`. Points with a coordinate equal to the split value are looked for on the right, but the point with coordinate `a` is on the left, so `contains` and `find` (and `erase`, which descends the same way) miss it (`c101_object_false`). For the spatial median the left side is then empty, which with leaves of one point makes the build recurse over the same slice for ever (`c101_spatial_false`).
* **Neighbouring doubles make a point of the dynamic kd-tree unerasable (C102).** `internalNode` splits at `(max + min) / 2`; for neighbouring doubles this can be `min`, the left side is empty, and the code goes on to split at the median element of the next dimension, without breaking ties. Two different points of the plane with neighbouring first and equal second coordinates end on two sides of a split that sends both to the right, so `erase` of the left one does nothing (`c102_erase_false`). In exact arithmetic this needs two points that agree in both dimensions (`c19_history_partial`).
* **The nearest neighbour search of the oct-tree misses the nearest vertex on doubles (C103).** `within_epsilon_box` tests `box.first[i] - epsilon < pt[i]`. If `epsilon` is below half the last bit of `box.first[i]` the difference is `box.first[i]` itself, and for a box that is flat in this dimension at `pt[i]` the strict test fails, although the query lies on the box. For vertices at `x = 1`, `y = n / 2^60` the search from 16 reports 14, not 17 (`c103_kNearest_false`). A test with `<=` would have kept the box. Delaunay triangulation uses the search for a starting triangle only, so its result does not depend on it.
* **Morton sort at the bottom of the doubles (C104).** `boxSize = 1.01 * maxSpan / maxRange` underflows to zero when the extent is at most 32000 times the smallest positive double, so that the cell is the conversion of infinity or NaN (`c104_underflow_false`); between 65536 and 97000 times it is rounded down to the smallest double and the sort throws `zorder range error` (`c104_range_false`).
* `insert_check` (`sparse_table.h:236-239`) sets the abort flag after 10001 probes, also when the table has free slots (`c105_check_false`). `insert_f` calls `key_hash.atomic_compare_and_swap` (line 188), a member that no hash function of the library has.
* The planar `gridSample` (`include/convexHull2d/sampling/sampling.h:76-80`) gives a point on the upper side of the bounding square the number of a cell of the next column (`c106_collision_false`).
* C108: `find` concurrent with `insert` can return the value of the cleared slot for a key that is being inserted, because the key becomes visible (line 169) before the value is written (line 170).
