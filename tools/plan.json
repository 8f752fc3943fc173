{
 "C01": [
  "`Model/Coord`: `getFrac`, `getPos`",
  "floor arithmetic, coordinatewise"
 ],
 "C02": [
  "`Model/Coord`: `normalizePosition`; `Spec/Lattice`: `Congr`, `InBox`",
  "floor arithmetic; uniqueness of the representative in a half-open interval"
 ],
 "C03": [
  "`Model/Coord`: `distance`",
  "triangle inequality: per coordinate `min(|x|, s-|x|)` is subadditive, then Minkowski"
 ],
 "C04": [
  "`Model/Coord`: `distance`; `Spec/Lattice`: `shift`, `eucl`",
  "coordinatewise minimum over integers, sum of squares monotone"
 ],
 "C05": [
  "`Model/Coord`: `connectingVector` with its assertion",
  "coordinatewise; assertion equation from C04's lemma"
 ],
 "C06": [
  "`Model/Coord`: `average`",
  "the vectors to the first position are unwrapped uniquely when the list fits in half a box; counterexample for lower ≠ 0"
 ],
 "C07": [
  "`Model/Coord`: `ofLimits`",
  "min/max symmetric"
 ],
 "C08": [
  "`Model/CellList`, `Model/Container`: `neighbourIterator`, `neighbourDistances`",
  "cells are at least dist_cutoff wide, so a near value lies in one of the 3^d neighbour cells (wrapped if periodic); counterexample"
 ],
 "C09": [
  "`Model/CellList`: `getIndex`, `addPointChecked` (numpy's index rules)",
  "0 ≤ index < number of cells from `frac` in [0,1) / clamping"
 ],
 "C10": [
  "`Model/CellList`: `neighbourValues`",
  "neighbour index list has no duplicates with ≥ 3 cells; exact multiplicity otherwise"
 ],
 "C11": [
  "`Model/CellList`: cache component; `Spec/Container`: cached/uncached runs",
  "invariant: each cached entry equals the computed one, by induction over histories"
 ],
 "C12": [
  "`Model/Container`: `addResult`; `Spec/Container`: histories",
  "induction over histories"
 ],
 "C13": [
  "`Model/Container`: `addResult`",
  "C02"
 ],
 "C14": [
  "`Model/Container`: `fakePotential`",
  "C08 + definition of the fold"
 ],
 "C15": [
  "`Model/Container`: `create`; `Model/Result`: `reload`",
  "induction; normalization idempotent"
 ],
 "C16": [
  "`Model/Queue`; `Spec/Queue`: traces",
  "invariant: handed-out + queued = known, no duplicates"
 ],
 "C17": [
  "`Model/Queue`; `Spec/Queue`: `firstOccurrences`",
  "refinement to the log of first additions"
 ],
 "C18": [
  "`Model/Queue`: `normalizeSimplex`",
  "sorting with a total order is canonical"
 ],
 "C19": [
  "`Model/Queue`: `RunQueue.objects`",
  "invariant running ∪ queued = added minus finished"
 ],
 "C20": [
  "`Model/Queue`: `finished`, `setFinished`",
  "same invariant"
 ],
 "C21": [
  "`Model/Controller`",
  "inductive invariant over all reachable states incl. restarts; counterexample with a repeated simplex"
 ],
 "C22": [
  "`Model/Controller`: ghost list of tasks",
  "bijection invariant between tasks and running queue entries"
 ],
 "C23": [
  "`Model/Controller`: ghost log",
  "accounting invariant (permutation of lists)"
 ],
 "C24": [
  "`Model/Controller`: phases",
  "phase invariant + disk invariant"
 ],
 "C25": [
  "`Model/Controller`: failures, failing saves",
  "phase invariants; inversion of steps"
 ],
 "C26": [
  "`Model/Controller`: `checkPosRefinement`",
  "invariant over the list of refined positions + C08"
 ],
 "C27": [
  "`Model/Controller`: `processResult`, `fillStep`",
  "invariant: every node is covered or queued; counterexamples"
 ],
 "C28": [
  "`Spec/Controller`: `packingBound`, `FairRun`",
  "packing/pigeonhole over the grid of cells; without rechecking, a potential function: a result is queued only in a cell without a refined position, so with m such cells left, A_m (outstanding simplices + queued positions in such cells) + A_(m+1) (other queued positions), A_m = 1 + S + ... + S^(m-1), bounds the refinements to come; ranking function under fairness"
 ],
 "C29": [
  "`Model/Controller`: `fill`",
  "well-founded recursion on a lexicographic measure; invariant; livelock witness"
 ],
 "C30": [
  "`Model/Controller`: `disk`, `snapshot`, `restart`",
  "history invariant: the file is the snapshot of an earlier state"
 ],
 "C31": [
  "`Model/Controller`: `restart`",
  "C24 + C15 + evaluation of a round without work"
 ],
 "C32": [
  "`Model/Controller`: `stencil = none`",
  "invariant"
 ],
 "C33": [
  "`Model/Controller`: `checkSimplex`",
  "the loop counts; C08"
 ],
 "C34": [
  "`Model/Controller`: `checkPosRefinement`",
  "the loop counts; C10"
 ],
 "C35": [
  "`Model/Controller`: `createState`, `checkDimensions`",
  "case analysis"
 ],
 "C36": [
  "`Model/SaveFile`: small-step file-system model with crash/failure at every step",
  "invariant over all steps; refinement to the controller's save step"
 ],
 "C37": [
  "`Model/NelderMead` with call trace",
  "loop invariant: each simplex vertex with its value is in the trace"
 ],
 "C38": [
  "`Model/NelderMead`",
  "loop invariants; NaN counterexample"
 ],
 "C39": [
  "`Model/NelderMead`: `nmStatus`, `nmConverged`",
  "inversion of the final state"
 ],
 "C40": [
  "`Model/NelderMead`: `nmLoop`",
  "well-founded recursion; per-iteration call count"
 ],
 "C41": [
  "`Model/NelderMead`: history",
  "loop invariant"
 ],
 "C42": [
  "`Model/NelderMead`: `nmPoint`, `nmShrink`",
  "loop invariant in the affine span"
 ],
 "C43": [
  "`Model/NelderMead`, `FVal`",
  "finite tolerance forces finite differences; witness for the derivative cutoff"
 ],
 "C44": [
  "`Model/NelderMead`: `runMinimization`",
  "unfolding to two runs + C37"
 ],
 "C45": [
  "controller × minimizer × container (`Spec/NelderMead`: `ReachWith`)",
  "composition of C12, C13, C37, C43 over all reachable states"
 ],
 "C46": [
  "`Model/Mesh`: `initialSimplices`",
  "products, linspace bounds"
 ],
 "C47": [
  "`Model/Mesh`",
  "lexicographic-minimum/affine independence arguments"
 ],
 "C48": [
  "`Model/Mesh`",
  "floor argument per coordinate"
 ],
 "C49": [
  "`Model/Mesh`: `autoStencil`, `circleStencil`, `sphereStencil`",
  "norms; Householder reflections are orthogonal; trigonometry"
 ],
 "C50": [
  "`Model/Mesh`",
  "counting"
 ],
 "C51": [
  "`Model/Cluster`, `Model/Graph`",
  "connected components partition nodes"
 ],
 "C52": [
  "`Model/Cluster`; `Spec/Graph`: `Chain`",
  "BFS closure = reflexive transitive closure"
 ],
 "C53": [
  "`Model/Cluster`",
  "C52"
 ],
 "C54": [
  "`Model/Cluster`: `clusterEdges`",
  "induction over the pair list"
 ],
 "C55": [
  "`Model/Dimension`",
  "induction over the evaluated prefix"
 ],
 "C56": [
  "`Model/Dimension`: sampler as transition relation",
  "sampler invariant (drawn tuples without repetition)"
 ],
 "C57": [
  "`Model/Dimension`, `Model/Identify`",
  "evaluation on a single-node graph"
 ],
 "C58": [
  "`Model/Ballistic`: transition relation",
  "loop invariant"
 ],
 "C59": [
  "`Model/Ballistic`",
  "step measure; distance argument for the guard"
 ],
 "C60": [
  "`Model/Ballistic`: `NextPos`",
  "inversion + linear algebra"
 ],
 "C61": [
  "`Model/ShortestPath`: transition relation",
  "loop invariants, termination measure"
 ],
 "C62": [
  "`Model/DominatingSet`",
  "case analysis over the greedy set; none of the real lines succeeds"
 ],
 "C63": [
  "`Model/Identify`: `createDegreeCount`, `shapeName`; `Spec/Graph`",
  "counting; walking argument for connected graphs of degree ≤ 2"
 ],
 "C64": [
  "`Model/Identify`: `LineToHdf5`, `lineFromHdf5`",
  "graph equality up to order"
 ],
 "C65": [
  "`Model/Identify`: `IdentifyRun`",
  "composition of C51–C62"
 ],
 "C66": [
  "`Model/PlotPaths`: transition relation",
  "edge-multiset invariant, step measure"
 ],
 "C67": [
  "`Model/RunWrapper`",
  "case analysis over calling contexts"
 ],
 "C68": [
  "`Model/Dimension`",
  "Gram determinant of dependent vectors vanishes"
 ],
 "C69": [
  "`Model/Dimension`",
  "average of the single-vector volumes"
 ],
 "C70": [
  "`Model/Controller`, `Spec/Determinism`",
  "every step is a number of events of a deterministic machine (up to the save flags); iterates of a function are totally ordered"
 ],
 "C71": [
  "`Model/Setup` (arguments, defaults, `Controller.__init__`), with `Model/Controller`, `Model/NelderMead`, `Model/Mesh`",
  "the last simplex of a successful minimization (C39) is carried through adding, saving and loading results; C23 and C49 for the starting simplices; the defaults are computed"
 ],
 "C72": [
  "Controller transitions with crashes and restarts (Model/Controller, ReachWith: outcomes of minimizations constrained by a relation R), saved files reloaded into a new container.",
  "Invariant over all reachable states: every simplex that was ever put in the queue is outstanding or explored, and every mesh / stencil simplex of the refined positions is, both for the running state and for the state that the save file would be restored to (using that the container recreated from a save has the same nodes, rejected results and refined positions). Explored is stable because results are never removed."
 ],
 "C73": [
  "Model/NelderMead (moves, shrink, sorting, blow-up), Model/Mesh (mesh, stencils), Model/Controller (queues, restarts).",
  "Determinants: replacing the last vertex by (1+c) mean - c last multiplies the determinant by -c, shrinking by 2^-dim, sorting by a sign; invariant of the loop. Mesh, circle and sphere simplices are shown non-degenerate (the rotation matrices are isometries); an invariant of the controller says that only simplices of the mesh and translated stencil simplices are ever queued, saved or minimized."
 ],
 "C74": [
  "Model/FloatCell: size, normalize_position, get_frac, the number of cells, get_index and add_point with a rounding after every operation, numpy's % for floats; Spec/Float: floats with 53 bits, rounding to nearest",
  "monotonicity of rounding, relative error bounds, floats below 1 are at most 1 - 2^-53; with rnd = id the functions are those of the exact model; a rounding to nearest is constructed; the witnesses hold for every rounding to nearest"
 ],
 "C75": [
  "Model/NelderMead; Spec/Textbook: the rules as a relation between simplices, written with vectors (centroid, points on the line through the worst vertex), independently of the model's helpers",
  "the loop body satisfies the relation (case analysis), induction over the loop; exclusivity of the rules by case analysis"
 ],
 "C76": [
  "`Model/Hdf5`: the tree of groups and datasets that `to_hdf5` writes and `from_hdf5` reads, arrays with shape and row-major entries (so that a list of tuples of different lengths cannot be written), type tags, optional entries, and the constructors called with what was read.",
  "Round-trip lemmas for arrays (chunks of a flattened list), lists and mappings; then the invariants of the reachable states (`hist_reach`, `simpInv_reach`) show that reconstructing the container by adding the loaded results again gives the same contents."
 ],
 "C77": [
  "`Model/Hdf5`: the layout of `IdentificationResultContainer`, `IdentificationResult`, `NodalPoint`, `NodalLine`, with the exception of `group[()]` as a parameter.",
  "Round trip of every part; `C65_results` gives that the graphs of lines are simple, C64 the round trip of a line."
 ],
 "C78": [
  "identify.run on the result container of any reachable search state in which every minimization is a run of the modelled minimizer on the gap function",
  "clusters are chains of steps (C52), so all positions of a cluster are around the same point; the quarter-of-feature_size lemma (C69) gives dimension 0; the average of positions within r of a point is within r of it (a small cluster does not wrap); positions within r of a point from C45"
 ],
 "C79": [
  "a change of coordinates acts on positions, values, results, containers, queues, save files and logs (Spec/Frame); exact real arithmetic",
  "every function of the model commutes with the change of coordinates; induction over the minimizer loop and over executions; the inverse change gives the converse"
 ],
 "C80": [
  "`Model/Plot`: axes as lists of artists with their coordinate arrays",
  "induction over nodes and vertex lists; C45 for the visibility"
 ],
 "C81": [
  "`Model/Plot`: relation, with `Model/PlotPaths`",
  "C66 per line, induction over the results, C65 for the well-formedness"
 ],
 "C82": [
  "The whole of identify (Model/Cluster, Dimension, Ballistic, ShortestPath, DominatingSet, Identify), twice: for the given and for the moved input.",
  "A notion of similar inputs (a bijection on positions which multiplies all distances by the same factor, and connecting vectors which are related by a linear map that preserves scalar products), shown to be preserved by each step of clustering, dimension and line evaluation (Lemmas/Similar*)."
 ],
 "C83": [
  "As C82.",
  "As C82, with the translation modulo lattice vectors as the bijection."
 ],
 "C84": [
  "As C82.",
  "As C82; a map which scales all distances is shown to be affine with an orthogonal linear part, which preserves volumes and angles."
 ],
 "C85": [
  "the whole Nelder-Mead loop in one dimension, on a function that is known only to be unimodal",
  "the position of the minimum relative to the simplex (a real number) is followed through reflection, expansion and contraction; three phases; a budget of steps that decreases with the size of the simplex, hence termination before the limits"
 ],
 "C86": [
  "the controller with crashes, where a completed minimization is a two-step Nelder-Mead run whose fake potential may change from call to call, but is zero except near nodes that are known when it completes; the mesh; the setup of `search.run`",
  "exploration invariant with relations that grow with the nodes (saved state included); a skipped simplex has a node nearby, by C45 that node is below the threshold; a minimized one either met the fake potential, so there is a node nearby, or is a run in a valley, and C85 applies; C48 gives a mesh segment near m"
 ],
 "C87": [
  "the controller with crashes; the minimizer; the setup of `search.run`",
  "a schedule that runs the minimizations one after the other is fair, so by C28 it is finite; with a stencil a scheduling round does not raise, and by the accounting invariant a completed minimization is one of the running set, so the only end is a return"
 ],
 "C88": [
  "the whole chain: setup, controller with crashes, minimizer with fake potential, container, clustering, dimension, evaluation",
  "C86 gives a node in each valley; a point of a valley below the threshold is within r of its bottom, since otherwise a point between them is near no point of Z; C78 gives that the results are points, one for each point of Z that is found"
 ],
 "C89": [
  "nmMove, nmLoop, rootNelderMead, runMinimization, blowup (Model/NelderMead.lean); the function and the simplex in Spec/McKinnon.lean",
  "invariant of the loop: after n iterations the simplex is (0, v(n+1), v(n)) with v(n) = (a^n, b^n), a, b the roots of x^2 = x/4 + 1/2; the reflected point is never better than the worst vertex, the inside contraction always is"
 ],
 "C90": [
  "the existing models of clustering, dimension, ballistic method and shapes (Model/Cluster, Dimension, Ballistic, Identify); Spec/Curve, Spec/OpenLines: slope against a direction, path graphs, points and open lines",
  "an invariant of the ballistic method on a cluster that is ordered by a coordinate (Lemmas/OpenLine): the result graph is a path whose current end is extreme; vectors of slope < 1 have products of the sign of their progress (Lemmas/Straight); the area of two neighbours is below the limit for dimension 2, so all positions vote for dimension 1"
 ],
 "C91": [
  "The whole identification as in C65 (clustering, dimension, ballistic method), with the specifications Spec/Circle and Spec/Loops for the closed lines and the shape of the result.",
  "Lemmas/Around: an invariant of the ballistic method on a cluster arranged round a circle (a path that goes forward from its first edge; the weights force the step that meets the start exactly, and the next step to stay on the graph; then the outer loop finds a dominating set). Lemmas/Round: from positions to one cluster, its dimension and the shape. Lemmas/Winding and Lemmas/Ring, RingRound: both kinds of closed lines satisfy the conditions. Examples: five positions through a periodic square, a hundred on a circle."
 ],
 "C92": [
  "the controller with crashes, queues, result container, save file",
  "invariant over all elementary steps; re-creation of the container from the save file keeps the nodes"
 ],
 "C93": [
  "the controller with crashes, the minimizer; `Spec/Region`: `HighOutside`",
  "nodes have values below the threshold (C45), so they are in the region; refinements happen around nodes only (C92); packing and the potential function of C28. Runaway: each minimization of the zero function ends at a vertex, is refined there, and the stencil simplex lies further right, for ever"
 ],
 "C94": [
  "the existing models of clustering, dimension, shortest-path method and shapes (Model/Cluster, Dimension, ShortestPath, Identify); Spec/LineAlong: a line in a direction, which may be a single node",
  "Lemmas/Weights: what the updates do to the weights of edges, weights of paths add up, no detour in a shortest path; Lemmas/ShortestLine: a shortest path to a node beyond the end of the result goes along the result and then in one direction; Lemmas/ShortestLineRun: after its removal no path is left; Lemmas/ShortestLineInv: invariant of the three loops (the result is a path ordered by the direction, edges of the result have weight zero and all others the initial weight times a factor of the ends)"
 ],
 "C95": [
  "the run of the shortest-path method (as C61), the dimension of the cluster (as C57) and the shape name (as C63)",
  "invariant of the run: the edges of the result have weight zero and all others positive weight, so a shortest path follows the result and, once it leaves it, never touches it again; hence each path adds a branch that hangs on one node of the result, and every set of nodes has one with at most one neighbour in it. Because start and end are at most four steps apart only one path is taken for each pair"
 ],
 "C96": [
  "The whole identification (`RunFromPositions` with method `shortest_path`): clustering, dimension, the transition system `SPStep` of the shortest-path method. Positions as in C91.",
  "Invariant `RingInv` over the transition system: the result graph is an arc that goes forward along the closed line (distances and weights along a cut of the line are monotone), or a ring that goes round once. Key lemmas: shortest paths outside the arc are forward (exchange argument with the strict `between` property and the reduced weights at line ends), the two paths of one round close the arc exactly when it reaches round, and a closed ring stays closed. C61 gives domination."
 ],
 "C97": [
  "`distance`, `connecting_vector` (with its assertion) and `create_clusters` with a rounding after every operation (`Model/FloatDistance`); sums in any order and bracketing (`FL.RndSum`)",
  "error propagation through difference, numpy's %, minimum, squares, sum and square root, with explicit constants; clusters depend on the comparisons only (renaming lemma for graphs); witness with a box of length 2^31; without rounding the model is the exact one (`C97_exact_arithmetic`)"
 ],
 "C98": [
  "calculate_dimension, _has_dimension and _get_dimension with arbitrary shuffles and samples (Model/Dimension), the clusters of Model/Cluster, run_from_positions of Model/Identify.",
  "C98_small_clusters: with at most five neighbours there are at most ten tuples, so all are evaluated and the average is invariant under permutations; of at most six outcomes a dimension has two thirds after five iff it has two thirds of all. C98_exhaustive_possible: draw the tuples in the order of their volume, so that an early decision agrees with the final one. C98_equal_draws: constant volumes have no variance. C98_seven, C98_point_or_line, C98_line_or_plane: explicit positions; both runs are constructed."
 ],
 "C99": [
  "run_from_positions with all methods of Model/Identify; CoordinateSystem of Model/Coord.",
  "C99_reorder, C99_mirror: permutations and reflections are similarities (Lemmas/Similar: clusters, dimensions, and every method commute with similarities), the average commutes with them up to whole box lengths. C99_half_apart: all averages of three positions are computed, with connecting_vector choosing +1/2 in both mirror images."
 ],
 "C100": [
  "create_clusters, run_from_positions of Model/Identify; the search of Model/Controller with the minimization.",
  "C100_components: a preconnected set is joined by chains of arbitrarily small steps, which the sampling turns into chains of positions; separation keeps chains within one piece; C65 gives the bijection. C100_search by C45. Witnesses C100_sparse_splits, C100_close_merge."
 ],
 "C101": [
  "create_clusters and run_from_positions of Model/Identify; the search of Model/Controller.",
  "C101_split, C101_join: the clusters (as graphs, attributes and node order included) of all positions are a permutation of those of the parts. C101_alone, C101_merge by the chains of C65; C101_search by the monotonicity of the node list. Witness C101_near_merge."
 ],
 "C102": [
  "`Model/FloatNM`: `root_nelder_mead` and `run_minimization` with a rounding after every operation",
  "the invariant of the exact minimizer (C37-C44) carried over, as none of it depends on which points are tried; error analysis of the trial points and of the longest edge; a concrete run that collapses"
 ],
 "C103": [
  "the search loop with every arithmetic operation rounded, with numpy's rules for indices (`Model/FloatController`, on top of `Model/Float`, `Model/FloatDistance`): the container, both checks, the refinement, restarts; `Spec/FloatController` has the hypotheses (`FloatSearch`, `FloatGeometry`), the error bounds and fair executions",
  "the invariants of the exact search are proved again for the rounded one (accounting, spread, coverage, work), with C74 for the cells and C97 for the distances; termination by the same measure; `Exact` shows that the models agree without rounding; a complete run with rounding shows that the hypotheses can be met"
 ],
 "C104": [
  "`Model/FloatSetup`: `np.linspace` (as numpy computes it, with the last point set to the limit), the mesh, the mesh stencil, scaling the stencil, the default tolerances and `Controller.__init__`, every operation rounded; the array of the circle or sphere stencil is a parameter near the exact one",
  "error analysis of `linspace` (a point before the last stays below the limit because the number of points is below 2^50), nearness of the lists of simplices by `Forall₂`, separation of the exact mesh and of the exact stencils (norms and chords) against twice the error; then C103"
 ],
 "C105": [
  "`Model/FloatNM` (the rounded Nelder-Mead loop, one dimension), `Spec/NoisyValley`",
  "invariants for one noisy step (`Lemmas/NoisyLine`: the pair of points stays near or ahead of the bottom; two points nearer than the noise are within a bounded number of noise lengths of it), a budget that bounds the number of steps until the pair is short (`Lemmas/NoisyBudget`), induction over the loop (`Lemmas/NoisyRun`)"
 ],
 "C106": [
  "`FL.Step`/`FL.startFrom` (rounded controller) with the minimizations `FL.runMinimization` that see a fake potential depending on the nodes found so far (`Spec.FloatReachLive`, `FloatLiveMinimization`)",
  "the run invariant of C105 for a minimization that is not disturbed; if the fake potential was not 0 somewhere or the simplex was skipped, there is already a node nearby; the goal is carried through schedules, saves and restarts, where positions drift by at most `driftError` (`Lemmas/FloatLive.lean`)"
 ],
 "C107": [
  "`FL.fakePotential`, `FL.allNeighbourDistances` on the rounded container",
  "`C74_near_found` extended to lookups below the box, the error bound of C97, and the invariant of the container (C103)"
 ],
 "C108": [
  "`FL.Step`, `FL.startFrom`, `FL.fill` (rounded controller) with rounded minimizations",
  "the executions that run one minimization at a time either return or are fair and infinite; the latter contradicts C103_terminates; `simpInv_reach` shows that all simplices have dim + 1 vertices, so that every minimization ends"
 ],
 "C109": [
  "`Model/FloatAverage`: `average`, `get_pos` and `_evaluate_point` with a rounding after each operation and sums in any order.",
  "`Props/FloatAverage`: error analysis of sums by induction over the bracketing; the rounded connecting vectors are the differences of the unwrapped positions up to 15 ulp; the remainder modulo the rounded size; a witness for the closed upper limit; with `rnd = id` the results are those of C06."
 ],
 "C110": [
  "the two-step minimization with its call counter, the controller with its save file and restarts, exact and rounded",
  "invariant over all sessions (initial simplices + results of the session <= mesh + stencil * refinements, also for the save file), C40/C44/C102 for one minimization, C28/C93/C103 for the refinements"
 ],
 "C111": [
  "clustering and identification",
  "chains of one sample are moved to the other (triangle inequality of the periodic distance, C03), then the characterization of the results of C65"
 ],
 "C112": [
  "`FL.RunFromPositions`: clusters with computed distances, `_dimension.py` with every operation rounded and sums in any order, LAPACK as a parameter, the evaluation of points with rounding (that of lines may give anything).",
  "The clusters are those of exact distances because no distance is near feature_size (C97); all volumes of single vectors are below the limit despite rounding, so all positions vote for 0; the average is near the exact one (C109)."
 ],
 "C113": [
  "`FL.setup`, `FloatReachLive` with minimizations in floating-point arithmetic, `FL.IdentifyRun` (the default `feature_size` is `dist_cutoff * 3`, rounded).",
  "C106 gives a node near each minimum whose value is below the threshold, so it is within r of one of the points, and only the minimum itself is near enough; C112 identifies the nodes; the results and the points correspond one to one because the positions near a point are in one result."
 ],
 "C114": [
  "Model/FloatBallistic: the state machine of Model/Ballistic with a rounding after every arithmetic operation; norms of rows with any order of summation; matmul and the norm of a single vector by a contract for BLAS; connecting_vector can raise.",
  "Result: invariant over the steps, as in C55. Termination: the measure of C59 needs only that the step from the current node is to a node of the cluster graph; that get_next_pos does not raise needs connecting_vector not to raise (C97) and, when there is a previous direction, a neighbour with a computed vector that is not zero, which the bound for connecting_vector gives. Directions: error bound of normalization by a relative error of 2^-53, then the contract of BLAS. Close positions: bounds on the rounded quotient with feature_size. Counterexample: np.mod gives 1 on -2^-60."
 ],
 "C115": [
  "Model/FloatShortestPath: the state machine of Model/ShortestPath with rounded initial weights and multiplications; the path that Dijkstra's algorithm finds is given by a contract.",
  "The invariant and the measure of C61 do not depend on the weights, only on the path being a path. First path: relative error of an initial weight at most 2^-39, summed over the path, with the contract of Dijkstra."
 ],
 "C116": [
  "Model/FloatRun puts the rounded models of clusters, dimension, points and the three methods for lines (C112, C114, C115, and the new Model/FloatDominatingSet) together",
  "partition and chains from the cluster graph in double precision; every method returns a simple dominating subgraph (ballistic C114, shortest path C115, dominating set by invariants of its two loops); the vote on the dimension never raises since volumes of at most d + 1 positions are computed; a cluster of one position never has dimension 1, so the ballistic method has an edge to start with"
 ],
 "C117": [
  "Model/FloatController, Model/FloatNM, Model/FloatRun (identify.run with the argument evaluate_line_method)",
  "stored positions are near the box at any time, so the identification is in the scope of C116; the rest from the results of the search (C103)"
 ],
 "C118": [
  "Model/FloatDominatingSet (every operation rounded; the computed distances and the path lengths of networkx are arguments, the relations hold for all results within their errors), Model/FloatRun",
  "C118_general for any distance with the triangle inequality and computed distances near it: while holes are patched, a pair of dominating nodes that is at least 0.3 feature_size closer than the current one is already connected by at most twice its distance plus 0.03 feature_size (induction over the sorted patches), so a path that is patched in uses no edge between two dominating nodes, which would be a detour of less than twice the length; two dominating nodes within 1.9 feature_size of each other exist unless there is only one, and are connected by such an edge, which has no weight, so that sorting raises. C118_dominating_set and C118_raises for clusters, with the error bounds of distances of C103; C118_identify for the run."
 ],
 "C119": [
  "the minimizer, `coordinate_system.py` and `_cluster.py` with roundings (`Model/FloatNM`, `FloatController`, `FloatSetup`, `FloatCell`, `FloatDistance`, `FloatAverage`, `FloatIdentify`, `FloatShortestPath`, `FloatBallistic`, `FloatDominatingSet`, `FloatRun`)",
  "ties to even is homogeneous because two floats with even significands are never both nearest; then step by step as C79 (`Lemmas/FloatUnits`, `FloatUnitsCtl`); graphs by relabelling (`Lemmas/GraphMap`)"
 ]
}