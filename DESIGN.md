# NodeFinder in Lean 4: design of the model and of the proofs

(Generated by `tools/gen_design.py`; the first version of this file, written before the proofs, is in the git history.)

| directory of `lean/Verif/` | content |
|---|---|
| `Model/*`  | the model: one Lean definition (or transition relation) per Python function, each with a comment citing file and lines of `/repo` and the simplifications made |
| `Spec/*`   | small specifications, independent of the model's helpers: lattice congruence, chains, FIFO logs, dominating subgraphs, fair executions, … |
| `Lemmas/*` | helper lemmas, invariants, and a concrete search run (`Lemmas/Demo`) used by the non-vacuity examples |
| `Props/*`  | the property theorems `C01_…`, `C02_…`, each followed by an `example` in which a concrete non-trivial case meets its hypotheses |

## Trusted base

* **Lean 4.33.0's kernel**, and Mathlib's definitions that occur in statements (`ℝ`, `Finset`, `List`, `EReal`, `Matrix`, `Relation.ReflTransGen`, …).
* **Axioms**: every property theorem depends on (a subset of) `propext`, `Classical.choice`, `Quot.sound` only; no axiom is added, nothing is left unproved, no compiled evaluation is used (`decide` occurs only in closed examples and trivial side conditions, via the kernel).
* **The model is hand-written.**  That it says what the Python says is checked by reading (every definition cites its lines) and by the mutation tests in `seeded/LOG.jsonl`, not by a machine.

### How the code is modelled

* **Numbers.** Positions, distances and tolerances are exact reals `ℝ`, except in `Model/FloatCell`, `Model/FloatDistance`, `Model/FloatNM`, `Model/FloatController` and `Model/FloatSetup`, which model the same functions with a rounding (any rounding to a nearest 53-bit float, ties arbitrary) after every operation and sums in any order (C74, C97, C102, C103). Overflow, underflow and signed zeros are *not* modelled. Function values, where `inf` and `nan` matter, are `FVal`: extended reals plus NaN with IEEE comparison (every comparison with NaN is false, `inf - inf` is NaN, …) and numpy's sort order (NaN last).
* **Arrays.** A position is `Vec d = Fin d → ℝ`; a queued simplex is a list of positions; a Nelder-Mead simplex is `Fin (d+1) → Vec d`. Shapes are therefore right by typing: numpy shape errors are not modelled.
* **Exceptions** are values (`Except Err`, or error states of a transition system).
* **Mutation** becomes returning the new state; the neighbour-index cache is an explicit component of the state.
* **asyncio.** Between two `await`s code runs atomically; the controller (`Model/Controller`) is a transition system with steps: one scheduling round, a minimization that completes (with *any* result), one that raises, a periodic save, a save that fails, leaving the loop, the final save, a crash and a restart from the file. Theorems quantify over all interleavings of these steps. C36 justifies treating a save as one step.
* **Randomness, set/dict iteration order, argsort ties** are arbitrary: the relation admits every choice, theorems quantify over all of them.
* **The gap function** is a call-indexed oracle: it may be impure (return different values for the same point at different calls) unless a theorem says otherwise.

### Assumptions about what is not this repository's code

* `fsc.async_tools.PeriodicTask`: calls the task repeatedly between awaits, once more when the context is left; an exception of the task surfaces when the context is left.
* `asyncio`: a task's exception is re-raised by `task.result()`; done tasks are found done at the next round; `run_until_complete` returns/raises the coroutine's outcome.
* POSIX: `os.rename` replaces atomically; `tempfile` names are fresh (O_EXCL); `os.remove` of the temporary file.
* `h5py` / `fsc.hdf5_io`: what is written completely is read back as the same value (real numbers, strings, lists; mappings as a permutation of their items); an incomplete file cannot be read. `Model/Hdf5` states the contract in detail (type tags, `SimpleHDF5Mapping`, lists, arrays).
* `numpy`: `argsort` is *some* sorting permutation (NaN last); `linspace`, `product`, `%`, `allclose`, `sign` as documented; `linalg.qr` is LAPACK's Householder QR; `linalg.svd` only through: product of the singular values = sqrt(det of the Gram matrix); `det` = determinant.
* `networkx`: graphs are node/edge lists; `connected_components` is the BFS closure; `shortest_path` with weights returns some path of least weight between connected nodes and raises `NetworkXNoPath` otherwise; `dominating_set` is the greedy algorithm of its source; `subgraph`, `copy`, `degree`, `remove_nodes_from` as documented (copy copies attribute dicts).
* `scipy.special.factorial`, `decorator.decorator`, `cached_property`, `types.SimpleNamespace` as documented.

## Per property: what is modelled, how it is proved

| id | property | modelled by | proof | theorems |
|---|---|---|---|---|
| C01 | Fractional coordinates invert to positions | `Model/Coord`: `getFrac`, `getPos` | floor arithmetic, coordinatewise | `C01_frac_periodic`, `C01_frac_periodic_inverse`, `C01_frac_nonperiodic` |
| C02 | Normalized positions are canonical representatives | `Model/Coord`: `normalizePosition`; `Spec/Lattice`: `Congr`, `InBox` | floor arithmetic; uniqueness of the representative in a half-open interval | `C02_normalize_periodic`, `C02_normalize_nonperiodic` |
| C03 | distance is a metric on (wrapped) space | `Model/Coord`: `distance` | triangle inequality: per coordinate `min(|x|, s-|x|)` is subadditive, then Minkowski | `C03_distance_metric`, `C03_distance_nonperiodic` |
| C04 | Periodic distance is the smallest distance over all images | `Model/Coord`: `distance`; `Spec/Lattice`: `shift`, `eucl` | coordinatewise minimum over integers, sum of squares monotone | `C04_distance_is_min_over_images`, `C04_distance_shift_invariant` |
| C05 | connecting_vector is a shortest vector and its assertion cannot fail | `Model/Coord`: `connectingVector` with its assertion | coordinatewise; assertion equation from C04's lemma | `C05_connecting_vector`, `C05_connecting_vector_shortest` |
| C06 | average of a cluster is a well-defined point of the box | `Model/Coord`: `average` | the vectors to the first position are unwrapped uniquely when the list fits in half a box; counterexample for lower ≠ 0 | `C06_average_is_mean`, `C06_average_order_images`, `C06_average_in_box_of_lower_zero`, `C06_average_outside_limits`, `C06_average_nonperiodic`, `C06_average_empty` |
| C07 | Order of each limits pair is irrelevant | `Model/Coord`: `ofLimits` | min/max symmetric | `C07_limits_order` |
| C08 | Neighbour lookup misses nothing within dist_cutoff | `Model/CellList`, `Model/Container`: `neighbourIterator`, `neighbourDistances` | cells are at least dist_cutoff wide, so a near value lies in one of the 3^d neighbour cells (wrapped if periodic); counterexample | `C08_node_neighbours_complete`, `C08_refined_neighbours_complete`, `C08_small_box_misses_node` |
| C09 | Storing and looking up never goes out of range | `Model/CellList`: `getIndex`, `addPointChecked` (numpy's index rules) | 0 ≤ index < number of cells from `frac` in [0,1) / clamping | `C09_add_never_out_of_range`, `C09_lookup_never_out_of_range`, `C09_num_cells_positive` |
| C10 | Neighbour lookup yields each stored value once | `Model/CellList`: `neighbourValues` | neighbour index list has no duplicates with ≥ 3 cells; exact multiplicity otherwise | `C10_multiplicity_periodic`, `C10_each_value_once`, `C10_count_exact`, `C10_small_periodic_box_overcounts` |
| C11 | The neighbour-index cache is transparent | `Model/CellList`: cache component; `Spec/Container`: cached/uncached runs | invariant: each cached entry equals the computed one, by induction over histories | `C11_cache_transparent` |
| C12 | A result is a node exactly if it succeeded and is not above the threshold | `Model/Container`: `addResult`; `Spec/Container`: histories | induction over histories | `C12_nodes_and_rejected`, `C12_add_result_return`, `C12_minimization_results_complete`, `C12_monotone` |
| C13 | Stored positions are normalized | `Model/Container`: `addResult` | C02 | `C13_stored_positions_normalized` |
| C14 | Fake potential is infinite exactly near known nodes | `Model/Container`: `fakePotential` | C08 + definition of the fold | `C14_fake_potential`, `C14_zero_at_lone_node` |
| C15 | Re-creating a container re-classifies its results | `Model/Container`: `create`; `Model/Result`: `reload` | induction; normalization idempotent | `C15_recreate_same`, `C15_recreate_new_threshold`, `C15_recreate_after_reload` |
| C16 | An object is handed out at most once | `Model/Queue`; `Spec/Queue`: traces | invariant: handed-out + queued = known, no duplicates | `C16_handed_out_at_most_once`, `C16_duplicate_in_one_batch` |
| C17 | The queue is FIFO and loses nothing | `Model/Queue`; `Spec/Queue`: `firstOccurrences` | refinement to the log of first additions | `C17_fifo`, `C17_nothing_lost` |
| C18 | Simplices are identified up to vertex order | `Model/Queue`: `normalizeSimplex` | sorting with a total order is canonical | `C18_simplex_identity`, `C18_entry_same_vertices`, `C18_reordered_simplex_not_requeued` |
| C19 | Saving and reloading a queue keeps all outstanding objects | `Model/Queue`: `RunQueue.objects` | invariant running ∪ queued = added minus finished | `C19_objects_are_outstanding`, `C19_reload_simplices` |
| C20 | finished means that nothing is outstanding | `Model/Queue`: `finished`, `setFinished` | same invariant | `C20_finished_iff`, `C20_set_finished_error_iff`, `C20_num_running` |
| C21 | At most num_minimize_parallel minimizations run at once | `Model/Controller` | inductive invariant over all reachable states incl. restarts; counterexample with a repeated simplex | `C21_parallel_bound`, `C21_duplicates_exceed` |
| C22 | Task bookkeeping never breaks | `Model/Controller`: ghost list of tasks | bijection invariant between tasks and running queue entries | `C22_bookkeeping`, `C22_round_errors` |
| C23 | Every completed minimization is recorded exactly once | `Model/Controller`: ghost log | accounting invariant (permutation of lists) | `C23_accounting` |
| C24 | A search that returns has no work left | `Model/Controller`: phases | phase invariant + disk invariant | `C24_return_means_finished` |
| C25 | Errors of the gap function are never swallowed | `Model/Controller`: failures, failing saves | phase invariants; inversion of steps | `C25_raise_is_failure`, `C25_failure_prevents_return`, `C25_failure_raises` |
| C26 | Refinement centres keep their distance | `Model/Controller`: `checkPosRefinement` | invariant over the list of refined positions + C08 | `C26_centres_spread`, `C26_centres_keep_distance` |
| C27 | Every node is covered by a refinement | `Model/Controller`: `processResult`, `fillStep` | invariant: every node is covered or queued; counterexamples | `C27_raised_threshold`, `C27_negative_cutoff`, `C27_nodes_covered`, `C27_nodes_covered_or_queued` |
| C28 | A periodic search does a bounded amount of work | `Spec/Controller`: `packingBound`, `FairRun` | packing/pigeonhole over the grid of cells; without rechecking, a potential function: a result is queued only in a cell without a refined position, so with m such cells left, A_m (outstanding simplices + queued positions in such cells) + A_(m+1) (other queued positions), A_m = 1 + S + ... + S^(m-1), bounds the refinements to come; ranking function under fairness | `C28_refinements_bounded`, `C28_work_bounded`, `C28_work_bounded_restarts`, `C28_refinements_bounded_without_recheck`, `C28_work_bounded_without_recheck`, `C28_progress`, `C28_terminates` |
| C29 | The search loop cannot stall | `Model/Controller`: `fill` | well-founded recursion on a lexicographic measure; invariant; livelock witness | `C29_no_stall`, `C29_zero_parallel_livelock` |
| C30 | A crash loses no outstanding work | `Model/Controller`: `disk`, `snapshot`, `restart` | history invariant: the file is the snapshot of an earlier state | `C30_file_is_earlier_state`, `C30_restart_restores`, `C30_crash_loses_nothing_saved`, `C30_saved_means_up_to_date`, `C30_no_file` |
| C31 | Restarting a finished search does nothing | `Model/Controller`: `restart` | C24 + C15 + evaluation of a round without work | `C31_restart_finished`, `C31_restart_returns` |
| C32 | Without a stencil no refinement is attempted | `Model/Controller`: `stencil = none` | invariant | `C32_no_stencil`, `C32_no_stencil_with_positions_fails` |
| C33 | A simplex is skipped exactly if too many vertices are near nodes | `Model/Controller`: `checkSimplex` | the loop counts; C08 | `C33_skip_iff`, `C33_negative_cutoff`, `C33_docstring_differs` |
| C34 | A refinement is skipped exactly if too many refined positions are near | `Model/Controller`: `checkPosRefinement` | the loop counts; C10 | `C34_discard_iff`, `C34_small_box_discards` |
| C35 | Initial state selection | `Model/Controller`: `createState`, `checkDimensions` | case analysis | `C35_load_and_initial_state`, `C35_load_fails`, `C35_other_errors`, `C35_fresh`, `C35_previous`, `C35_check_dimensions` |
| C36 | The save file is replaced atomically | `Model/SaveFile`: small-step file-system model with crash/failure at every step | invariant over all steps; refinement to the controller's save step | `C36_save_atomic`, `C36_save_returns`, `C36_save_raises`, `C36_cleanup_raises`, `C36_no_save_file`, `C36_save_refines_controller` |
| C37 | Reported value is the function value at the reported position | `Model/NelderMead` with call trace | loop invariant: each simplex vertex with its value is in the trace | `C37_calls_recorded`, `C37_value_at_position`, `C37_value_pure`, `C37_position_evaluated` |
| C38 | The minimizer never gets worse | `Model/NelderMead` | loop invariants; NaN counterexample | `C38_history_monotone`, `C38_improves_initial`, `C38_best_of_all_calls`, `C38_nan_loses_best` |
| C39 | success means converged | `Model/NelderMead`: `nmStatus`, `nmConverged` | inversion of the final state | `C39_status`, `C39_success_converged` |
| C40 | Iteration and evaluation limits are respected | `Model/NelderMead`: `nmLoop` | well-founded recursion; per-iteration call count | `C40_limits`, `C40_terminates` |
| C41 | History bookkeeping is consistent | `Model/NelderMead`: history | loop invariant | `C41_history`, `C41_no_history` |
| C42 | Evaluations stay in the affine hull of the initial simplex | `Model/NelderMead`: `nmPoint`, `nmShrink` | loop invariant in the affine span | `C42_affine_hull` |
| C43 | NaN or infinite values never make a node | `Model/NelderMead`, `FVal` | finite tolerance forces finite differences; witness for the derivative cutoff | `C43_nodes_finite`, `C43_success_finite`, `C43_nan_success_with_cutoff`, `C43_two_step_finite` |
| C44 | Two-step minimization reports the true function | `Model/NelderMead`: `runMinimization` | unfolding to two runs + C37 | `C44_two_step`, `C44_true_function`, `C44_no_fake` |
| C45 | Returned nodes are below the threshold | controller × minimizer × container (`Spec/NelderMead`: `ReachWith`) | composition of C12, C13, C37, C43 over all reachable states | `C45_nodes_sound`, `C45_nodes_below_threshold` |
| C46 | Initial mesh has the documented size and lies in the box | `Model/Mesh`: `initialSimplices` | products, linspace bounds | `C46_mesh_size_and_position`, `C46_nonperiodic_sticks_out` |
| C47 | Initial simplices are distinct and non-degenerate | `Model/Mesh` | lexicographic-minimum/affine independence arguments | `C47_mesh_distinct_independent`, `C47_stencil_distinct`, `C47_distinct_input` |
| C48 | The mesh covers the box | `Model/Mesh` | floor argument per coordinate | `C48_mesh_covers` |
| C49 | Default stencils lie outside the cutoff sphere | `Model/Mesh`: `autoStencil`, `circleStencil`, `sphereStencil` | norms; Householder reflections are orthogonal; trigonometry | `C49_auto_outside_cutoff`, `C49_circle_sphere_outside` |
| C50 | Stencil shape | `Model/Mesh` | counting | `C50_mesh_stencil`, `C50_circle_sphere`, `C50_auto` |
| C51 | Clusters partition the positions | `Model/Cluster`, `Model/Graph` | connected components partition nodes | `C51_clusters_partition` |
| C52 | Clusters are the chains of steps of at most feature_size | `Model/Cluster`; `Spec/Graph`: `Chain` | BFS closure = reflexive transitive closure | `C52_clusters_are_chains`, `C52_clusters_separated`, `C52_docstring_differs` |
| C53 | Clustering does not depend on order, duplicates or set iteration order | `Model/Cluster` | C52 | `C53_order_independent`, `C53_monotone` |
| C54 | Cluster graph edges carry the distance | `Model/Cluster`: `clusterEdges` | induction over the pair list | `C54_cluster_graph` |
| C55 | Dimension needs a two-thirds majority | `Model/Dimension` | induction over the evaluated prefix | `C55_majority`, `C55_total`, `C55_none_raises`, `C55_zero_raises` |
| C56 | Neighbour sampling draws every tuple once | `Model/Dimension`: sampler as transition relation | sampler invariant (drawn tuples without repetition) | `C56_tuples_once`, `C56_can_finish`, `C56_decision` |
| C57 | An isolated position is a point | `Model/Dimension`, `Model/Identify` | evaluation on a single-node graph | `C57_isolated_dimension`, `C57_isolated_point` |
| C58 | Ballistic line is a dominating subgraph of the cluster | `Model/Ballistic`: transition relation | loop invariant | `C58_ballistic_dominating` |
| C59 | Ballistic evaluation terminates | `Model/Ballistic` | step measure; distance argument for the guard | `C59_ballistic_terminates`, `C59_coinciding_positions_raise` |
| C60 | Ballistic steps never turn back | `Model/Ballistic`: `NextPos` | inversion + linear algebra | `C60_no_turning_back`, `C60_avoids_close_positions` |
| C61 | Shortest-path line is a connected dominating subgraph | `Model/ShortestPath`: transition relation | loop invariants, termination measure | `C61_shortest_path`, `C61_cluster`, `C61_empty_raises`, `C61_first_path` |
| C62 | Dominating-set line evaluation (only works on tiny clusters) | `Model/DominatingSet` | case analysis over the greedy set; none of the real lines succeeds | `C62_general`, `C62_dominating_set`, `C62_terminates`, `C62_raises` |
| C63 | shape_name reflects node degrees | `Model/Identify`: `createDegreeCount`, `shapeName`; `Spec/Graph` | counting; walking argument for connected graphs of degree ≤ 2 | `C63_closed_loop`, `C63_open_line`, `C63_connected`, `C63_two_loops_closed` |
| C64 | A NodalLine survives saving and loading | `Model/Identify`: `LineToHdf5`, `lineFromHdf5` | graph equality up to order | `C64_line_roundtrip`, `C64_degree_count` |
| C65 | Identification accounts for every node | `Model/Identify`: `IdentifyRun` | composition of C51–C62 | `C65_results`, `C65_never_raises`, `C65_dominating_set_raises`, `C65_unknown_method`, `C65_default_feature_size`, `C65_given_feature_size`, `C65_state_needs_feature_size`, `C65_identified_positions` |
| C66 | Plotting draws every edge of a line exactly once | `Model/PlotPaths`: transition relation | edge-multiset invariant, step measure | `C66_paths`, `C66_all_edges`, `C66_one_path`, `C66_plot` |
| C67 | search.run behaves like run_async in every calling context | `Model/RunWrapper` | case analysis over calling contexts | `C67_same_outcome`, `C67_loops`, `C67_base_exception_blocks`, `C67_blocks_only`, `C67_of_search` |
| C68 | Flat clusters never get a higher dimension | `Model/Dimension` | Gram determinant of dependent vectors vanishes | `C68_flat`, `C68_flat_cluster` |
| C69 | Points are told from lines at a quarter of feature_size | `Model/Dimension` | average of the single-vector volumes | `C69_point_or_more` |
| C70 | A search with one minimization at a time is reproducible | `Model/Controller`, `Spec/Determinism` | every step is a number of events of a deterministic machine (up to the save flags); iterates of a function are totally ordered | `C70_same_history`, `C70_same_results`, `C70_same_outcome`, `C70_fake_potential`, `C70_parallel_not_reproducible` |
| C71 | The settings of a search determine the precision of its nodes | `Model/Setup` (arguments, defaults, `Controller.__init__`), with `Model/Controller`, `Model/NelderMead`, `Model/Mesh` | the last simplex of a successful minimization (C39) is carried through adding, saving and loading results; C23 and C49 for the starting simplices; the defaults are computed | `C71_setup_errors`, `C71_settings`, `C71_options`, `C71_precision`, `C71_start_simplices`, `C71_default_search` |
| C72 | A search leaves nothing out | Controller transitions with crashes and restarts (Model/Controller, ReachWith: outcomes of minimizations constrained by a relation R), saved files reloaded into a new container. | Invariant over all reachable states: every simplex that was ever put in the queue is outstanding or explored, and every mesh / stencil simplex of the refined positions is, both for the running state and for the state that the save file would be restored to (using that the container recreated from a save has the same nodes, rejected results and refined positions). Explored is stable because results are never removed. | `C72_nothing_lost`, `C72_exploration_complete` |
| C73 | The simplices of a minimization never degenerate | Model/NelderMead (moves, shrink, sorting, blow-up), Model/Mesh (mesh, stencils), Model/Controller (queues, restarts). | Determinants: replacing the last vertex by (1+c) mean - c last multiplies the determinant by -c, shrinking by 2^-dim, sorting by a sign; invariant of the loop. Mesh, circle and sphere simplices are shown non-degenerate (the rotation matrices are isometries); an invariant of the controller says that only simplices of the mesh and translated stencil simplices are ever queued, saved or minimized. | `C73_volume_steps`, `C73_volume_bounds`, `C73_stays_nondegenerate`, `C73_two_step_nondegenerate`, `C73_search`, `C73_default_search` |
| C74 | Rounding cannot push a position out of the table of cells | Model/FloatCell: size, normalize_position, get_frac, the number of cells, get_index and add_point with a rounding after every operation, numpy's % for floats; Spec/Float: floats with 53 bits, rounding to nearest | monotonicity of rounding, relative error bounds, floats below 1 are at most 1 - 2^-53; with rnd = id the functions are those of the exact model; a rounding to nearest is constructed; the witnesses hold for every rounding to nearest | `C74_normalized`, `C74_store_in_range`, `C74_lookup_in_range`, `C74_exact_arithmetic`, `C74_rounding_exists`, `C74_near_found`, `C74_normalized_in_reach`, `C74_upper_limit_reached`, `C74_unnormalized_fails`, `C74_near_missed` |
| C75 | The minimizer follows the Nelder-Mead rules | Model/NelderMead; Spec/Textbook: the rules as a relation between simplices, written with vectors (centroid, points on the line through the worst vertex), independently of the model's helpers | the loop body satisfies the relation (case analysis), induction over the loop; exclusivity of the rules by case analysis | `C75_textbook`, `C75_rules_exclusive` |
| C76 | A saved search is read back as it was | `Model/Hdf5`: the tree of groups and datasets that `to_hdf5` writes and `from_hdf5` reads, arrays with shape and row-major entries (so that a list of tuples of different lengths cannot be written), type tags, optional entries, and the constructors called with what was read. | Round-trip lemmas for arrays (chunks of a flattened list), lists and mappings; then the invariants of the reachable states (`hist_reach`, `simpInv_reach`) show that reconstructing the container by adding the loaded results again gives the same contents. | `C76_result`, `C76_result_attributes`, `C76_container`, `C76_vertexCount`, `C76_state`, `C76_restart`, `C76_ragged` |
| C77 | Identification results survive saving and loading | `Model/Hdf5`: the layout of `IdentificationResultContainer`, `IdentificationResult`, `NodalPoint`, `NodalLine`, with the exception of `group[()]` as a parameter. | Round trip of every part; `C65_results` gives that the graphs of lines are simple, C64 the round trip of a line. | `C77_roundtrip`, `C77_other_h5py` |
| C78 | Isolated nodal points are identified as points | identify.run on the result container of any reachable search state in which every minimization is a run of the modelled minimizer on the gap function | clusters are chains of steps (C52), so all positions of a cluster are around the same point; the quarter-of-feature_size lemma (C69) gives dimension 0; the average of positions within r of a point is within r of it (a small cluster does not wrap); positions within r of a point from C45 | `C78_points`, `C78_search`, `C78_cones` |
| C79 | The choice of coordinates and units does not matter | a change of coordinates acts on positions, values, results, containers, queues, save files and logs (Spec/Frame); exact real arithmetic | every function of the model commutes with the change of coordinates; induction over the minimizer loop and over executions; the inverse change gives the converse | `C79_minimizer`, `C79_two_step`, `C79_fake_potential`, `C79_periodic`, `C79_setup`, `C79_search`, `C79_nodes` |
| C80 | Plots of the search show all of it, once | `Model/Plot`: axes as lists of artists with their coordinate arrays | induction over nodes and vertex lists; C45 for the visibility | `C80_points`, `C80_other_dimensions`, `C80_nodes_visible`, `C80_simplices`, `C80_stencil` |
| C81 | The plot of the identification shows every object | `Model/Plot`: relation, with `Model/PlotPaths` | C66 per line, induction over the results, C65 for the well-formedness | `C81_result`, `C81_identified`, `C81_visible`, `C81_wrapping_line`, `C81_point_outside` |
| C82 | The identification does not depend on the units | The whole of identify (Model/Cluster, Dimension, Ballistic, ShortestPath, DominatingSet, Identify), twice: for the given and for the moved input. | A notion of similar inputs (a bijection on positions which multiplies all distances by the same factor, and connecting vectors which are related by a linear map that preserves scalar products), shown to be preserved by each step of clustering, dimension and line evaluation (Lemmas/Similar*). | `C82_positions`, `C82_units` |
| C83 | In a periodic space the identification does not depend on where the box begins | As C82. | As C82, with the translation modulo lattice vectors as the bijection. | `C83_periodic_moves` |
| C84 | In a non-periodic space the identification does not depend on the orientation | As C82. | As C82; a map which scales all distances is shown to be affine with an orthogonal linear part, which preserves volumes and angles. | `C84_rigid_motions` |
| C85 | In one dimension a minimization that starts in a valley finds its bottom | the whole Nelder-Mead loop in one dimension, on a function that is known only to be unimodal | the position of the minimum relative to the simplex (a real number) is followed through reflection, expansion and contraction; three phases; a budget of steps that decreases with the size of the simplex, hence termination before the limits | `C85_success_is_minimum`, `C85_finds_minimum` |
| C86 | A one-dimensional search finds a node in every valley that is wide compared to the mesh | the controller with crashes, where a completed minimization is a two-step Nelder-Mead run whose fake potential may change from call to call, but is zero except near nodes that are known when it completes; the mesh; the setup of `search.run` | exploration invariant with relations that grow with the nodes (saved state included); a skipped simplex has a node nearby, by C45 that node is below the threshold; a minimized one either met the fake potential, so there is a node nearby, or is a run in a valley, and C85 applies; C48 gives a mesh segment near m | `C86_fake_potential`, `C86_exploration_complete`, `C86_finds_node`, `C86_search` |
| C87 | A search can be completed after any history | the controller with crashes; the minimizer; the setup of `search.run` | a schedule that runs the minimizations one after the other is fair, so by C28 it is finite; with a stencil a scheduling round does not raise, and by the accounting invariant a completed minimization is one of the running set, so the only end is a return | `C87_can_complete`, `C87_search`, `C87_search_nonperiodic` |
| C88 | In one dimension, search and identification together find the minima exactly | the whole chain: setup, controller with crashes, minimizer with fake potential, container, clustering, dimension, evaluation | C86 gives a node in each valley; a point of a valley below the threshold is within r of its bottom, since otherwise a point between them is near no point of Z; C78 gives that the results are points, one for each point of Z that is found | `C88_exact` |
| C89 | Beyond one dimension, success of a minimization does not mean that a minimum has been found | nmMove, nmLoop, rootNelderMead, runMinimization, blowup (Model/NelderMead.lean); the function and the simplex in Spec/McKinnon.lean | invariant of the loop: after n iterations the simplex is (0, v(n+1), v(n)) with v(n) = (a^n, b^n), a, b the roots of x^2 = x/4 + 1/2; the reflected point is never better than the worst vertex, the inside contraction always is | `C89_stalls`, `C89_success`, `C89_default`, `C89_two_step`, `C89_minimum`, `C89_convex` |
| C90 | A nearly straight nodal line is identified as an open line | the existing models of clustering, dimension, ballistic method and shapes (Model/Cluster, Dimension, Ballistic, Identify); Spec/Curve, Spec/OpenLines: slope against a direction, path graphs, points and open lines | an invariant of the ballistic method on a cluster that is ordered by a coordinate (Lemmas/OpenLine): the result graph is a path whose current end is extreme; vectors of slope < 1 have products of the sign of their progress (Lemmas/Straight); the area of two neighbours is below the limit for dimension 2, so all positions vote for dimension 1 | `C90_open_line`, `C90_points_and_open_lines`, `C90_nonperiodic`, `C90_periodic`, `C90_tube`, `C90_thin_tube` |
| C91 | A closed nodal line is identified as exactly one closed loop that goes round once | The whole identification as in C65 (clustering, dimension, ballistic method), with the specifications Spec/Circle and Spec/Loops for the closed lines and the shape of the result. | Lemmas/Around: an invariant of the ballistic method on a cluster arranged round a circle (a path that goes forward from its first edge; the weights force the step that meets the start exactly, and the next step to stay on the graph; then the outer loop finds a dominating set). Lemmas/Round: from positions to one cluster, its dimension and the shape. Lemmas/Winding and Lemmas/Ring, RingRound: both kinds of closed lines satisfy the conditions. Examples: five positions through a periodic square, a hundred on a circle. | `C91_through_box`, `C91_ring` |
| C92 | Refinements happen around nodes only | the controller with crashes, queues, result container, save file | invariant over all elementary steps; re-creation of the container from the save file keeps the nodes | `C92_refines_around_nodes` |
| C93 | A search in unbounded space does a bounded amount of work if the gap is large far away, and may go on forever if not | the controller with crashes, the minimizer; `Spec/Region`: `HighOutside` | nodes have values below the threshold (C45), so they are in the region; refinements happen around nodes only (C92); packing and the potential function of C28. Runaway: each minimization of the zero function ends at a vertex, is refined there, and the stencil simplex lies further right, for ever | `C93_refinements_bounded`, `C93_work_bounded`, `C93_refinements_bounded_without_recheck`, `C93_terminates`, `C93_runaway` |
| C94 | The shortest-path method keeps a nearly straight line free of branches | the existing models of clustering, dimension, shortest-path method and shapes (Model/Cluster, Dimension, ShortestPath, Identify); Spec/LineAlong: a line in a direction, which may be a single node | Lemmas/Weights: what the updates do to the weights of edges, weights of paths add up, no detour in a shortest path; Lemmas/ShortestLine: a shortest path to a node beyond the end of the result goes along the result and then in one direction; Lemmas/ShortestLineRun: after its removal no path is left; Lemmas/ShortestLineInv: invariant of the three loops (the result is a path ordered by the direction, edges of the result have weight zero and all others the initial weight times a factor of the ends) | `C94_line`, `C94_open_line`, `C94_points_and_lines`, `C94_short_line`, `C94_methods_differ` |
| C95 | The shortest-path method never finds small closed loops | the run of the shortest-path method (as C61), the dimension of the cluster (as C57) and the shape name (as C63) | invariant of the run: the edges of the result have weight zero and all others positive weight, so a shortest path follows the result and, once it leaves it, never touches it again; hence each path adds a branch that hangs on one node of the result, and every set of nodes has one with at most one neighbour in it. Because start and end are at most four steps apart only one path is taken for each pair | `C95_no_small_loop`, `C95_methods_differ` |
| C96 | The shortest-path method identifies large closed nodal lines as one closed loop | The whole identification (`RunFromPositions` with method `shortest_path`): clustering, dimension, the transition system `SPStep` of the shortest-path method. Positions as in C91. | Invariant `RingInv` over the transition system: the result graph is an arc that goes forward along the closed line (distances and weights along a cut of the line are monotone), or a ring that goes round once. Key lemmas: shortest paths outside the arc are forward (exchange argument with the strict `between` property and the reduced weights at line ends), the two paths of one round close the arc exactly when it reaches round, and a closed ring stays closed. C61 gives domination. | `C96_through_box`, `C96_ring` |
| C97 | Rounding errors cannot change distances, shortest vectors or clusters noticeably | `distance`, `connecting_vector` (with its assertion) and `create_clusters` with a rounding after every operation (`Model/FloatDistance`); sums in any order and bracketing (`FL.RndSum`) | error propagation through difference, numpy's %, minimum, squares, sum and square root, with explicit constants; clusters depend on the comparisons only (renaming lemma for graphs); witness with a box of length 2^31; without rounding the model is the exact one (`C97_exact_arithmetic`) | `C97_distance_periodic`, `C97_distance_open`, `C97_exact_arithmetic`, `C97_same_clusters`, `C97_connecting_vector`, `C97_assertion_fails` |
| C98 | How the identified dimension depends on chance | calculate_dimension, _has_dimension and _get_dimension with arbitrary shuffles and samples (Model/Dimension), the clusters of Model/Cluster, run_from_positions of Model/Identify. | C98_small_clusters: with at most five neighbours there are at most ten tuples, so all are evaluated and the average is invariant under permutations; of at most six outcomes a dimension has two thirds after five iff it has two thirds of all. C98_exhaustive_possible: draw the tuples in the order of their volume, so that an early decision agrees with the final one. C98_equal_draws: constant volumes have no variance. C98_seven, C98_point_or_line, C98_line_or_plane: explicit positions; both runs are constructed. | `C98_small_clusters`, `C98_exhaustive_possible`, `C98_equal_draws`, `C98_point_or_line`, `C98_seven`, `C98_line_or_plane` |
| C99 | The names and the directions of the axes do not matter for the identification | run_from_positions with all methods of Model/Identify; CoordinateSystem of Model/Coord. | C99_reorder, C99_mirror: permutations and reflections are similarities (Lemmas/Similar: clusters, dimensions, and every method commute with similarities), the average commutes with them up to whole box lengths. C99_half_apart: all averages of three positions are computed, with connecting_vector choosing +1/2 in both mirror images. | `C99_reorder`, `C99_mirror`, `C99_half_apart` |
| C100 | The clusters are the connected pieces of the nodal set | create_clusters, run_from_positions of Model/Identify; the search of Model/Controller with the minimization. | C100_components: a preconnected set is joined by chains of arbitrarily small steps, which the sampling turns into chains of positions; separation keeps chains within one piece; C65 gives the bijection. C100_search by C45. Witnesses C100_sparse_splits, C100_close_merge. | `C100_components`, `C100_search`, `C100_sparse_splits`, `C100_close_merge` |
| C101 | The identification is local, and more positions only merge its results | create_clusters and run_from_positions of Model/Identify; the search of Model/Controller. | C101_split, C101_join: the clusters (as graphs, attributes and node order included) of all positions are a permutation of those of the parts. C101_alone, C101_merge by the chains of C65; C101_search by the monotonicity of the node list. Witness C101_near_merge. | `C101_split`, `C101_join`, `C101_alone`, `C101_merge`, `C101_search`, `C101_near_merge` |
| C102 | The guarantees of a minimization survive rounding | `Model/FloatNM`: `root_nelder_mead` and `run_minimization` with a rounding after every operation | the invariant of the exact minimizer (C37-C44) carried over, as none of it depends on which points are tried; error analysis of the trial points and of the longest edge; a concrete run that collapses | `C102_calls_recorded`, `C102_value_at_position`, `C102_value_pure`, `C102_position_evaluated`, `C102_history_monotone`, `C102_improves_initial`, `C102_best_of_all_calls`, `C102_status`, `C102_success_converged`, `C102_limits`, `C102_terminates`, `C102_history`, `C102_no_history`, `C102_two_step`, `C102_true_function`, `C102_no_fake`, `C102_floats`, `C102_trial_points`, `C102_cutoff`, `C102_two_step_finite`, `C102_nodes_below_threshold`, `C102_exact_arithmetic`, `C102_collapse` |
| C103 | A search does its job also in double precision | the search loop with every arithmetic operation rounded, with numpy's rules for indices (`Model/FloatController`, on top of `Model/Float`, `Model/FloatDistance`): the container, both checks, the refinement, restarts; `Spec/FloatController` has the hypotheses (`FloatSearch`, `FloatGeometry`), the error bounds and fair executions | the invariants of the exact search are proved again for the rounded one (accounting, spread, coverage, work), with C74 for the cells and C97 for the distances; termination by the same measure; `Exact` shows that the models agree without rounding; a complete run with rounding shows that the hypotheses can be met | `C103_exceptions`, `C103_task_errors`, `C103_restart`, `C103_results`, `C103_each_once`, `C103_returned`, `C103_results_genuine`, `C103_nodes_below_threshold`, `C103_refinements_apart`, `C103_nodes_covered`, `C103_refinements_bounded`, `C103_work_bounded`, `C103_progress`, `C103_terminates`, `C103_exact_arithmetic`, `C103_stencil_resolved`, `C103_unresolved_stencil` |
| C104 | The set-up of a search is right also in double precision | `Model/FloatSetup`: `np.linspace` (as numpy computes it, with the last point set to the limit), the mesh, the mesh stencil, scaling the stencil, the default tolerances and `Controller.__init__`, every operation rounded; the array of the circle or sphere stencil is a parameter near the exact one | error analysis of `linspace` (a point before the last stays below the limit because the number of points is below 2^50), nearness of the lists of simplices by `Forall₂`, separation of the exact mesh and of the exact stencils (norms and chords) against twice the error; then C103 | `C104_mesh_near`, `C104_mesh_shape`, `C104_mesh_corners`, `C104_mesh_distinct_independent`, `C104_mesh_covers`, `C104_auto_mesh_stencil`, `C104_stencil_distinct`, `C104_setup_errors`, `C104_exact_arithmetic`, `C104_settings`, `C104_setup`, `C104_default`, `C104_default_search`, `C104_unresolved_mesh` |
| C105 | In one dimension a minimization that starts in a valley finds its bottom also in double precision, and with noise in the function | `Model/FloatNM` (the rounded Nelder-Mead loop, one dimension), `Spec/NoisyValley` | invariants for one noisy step (`Lemmas/NoisyLine`: the pair of points stays near or ahead of the bottom; two points nearer than the noise are within a bounded number of noise lengths of it), a budget that bounds the number of steps until the pair is short (`Lemmas/NoisyBudget`), induction over the loop (`Lemmas/NoisyRun`) | `C105_success_is_minimum`, `C105_finds_minimum`, `C105_exact_valley` |
| C106 | In double precision, too, a one-dimensional search finds a node in every valley that is wide compared to the mesh | `FL.Step`/`FL.startFrom` (rounded controller) with the minimizations `FL.runMinimization` that see a fake potential depending on the nodes found so far (`Spec.FloatReachLive`, `FloatLiveMinimization`) | the run invariant of C105 for a minimization that is not disturbed; if the fake potential was not 0 somewhere or the simplex was skipped, there is already a node nearby; the goal is carried through schedules, saves and restarts, where positions drift by at most `driftError` (`Lemmas/FloatLive.lean`) | `C106_finds_node`, `C106_search` |
| C107 | The fake potential in double precision | `FL.fakePotential`, `FL.allNeighbourDistances` on the rounded container | `C74_near_found` extended to lookups below the box, the error bound of C97, and the invariant of the container (C103) | `C107_fake_potential`, `C107_live` |
| C108 | In double precision, too, a search can be completed after any history | `FL.Step`, `FL.startFrom`, `FL.fill` (rounded controller) with rounded minimizations | the executions that run one minimization at a time either return or are fair and infinite; the latter contradicts C103_terminates; `simpInv_reach` shows that all simplices have dim + 1 vertices, so that every minimization ends | `C108_can_complete`, `C108_search`, `C108_default` |
| C109 | Averages and nodal points in double precision | `Model/FloatAverage`: `average`, `get_pos` and `_evaluate_point` with a rounding after each operation and sums in any order. | `Props/FloatAverage`: error analysis of sums by induction over the bracketing; the rounded connecting vectors are the differences of the unwrapped positions up to 15 ulp; the remainder modulo the rounded size; a witness for the closed upper limit; with `rnd = id` the results are those of C06. | `C109_average_open`, `C109_average_periodic`, `C109_nodal_point`, `C109_average_total`, `C109_exact_arithmetic`, `C109_get_pos`, `C109_average_reaches_limit` |
| C110 | The number of evaluations of the gap function is bounded by the settings | the two-step minimization with its call counter, the controller with its save file and restarts, exact and rounded | invariant over all sessions (initial simplices + results of the session <= mesh + stencil * refinements, also for the save file), C40/C44/C102 for one minimization, C28/C93/C103 for the refinements | `C110_minimization`, `C110_minimization_float`, `C110_results`, `C110_evaluations`, `C110_at_least`, `C110_periodic`, `C110_open`, `C110_evaluations_float`, `C110_float`, `C110_default` |
| C111 | Identification is stable: two samples of the same nodes give the same objects | clustering and identification | chains of one sample are moved to the other (triangle inequality of the periodic distance, C03), then the characterization of the results of C65 | `C111_same_objects`, `C111_same_number`, `C111_nodal_points`, `C111_searches`, `C111_edge_unstable` |
| C112 | Isolated nodes are identified as points in double precision | `FL.RunFromPositions`: clusters with computed distances, `_dimension.py` with every operation rounded and sums in any order, LAPACK as a parameter, the evaluation of points with rounding (that of lines may give anything). | The clusters are those of exact distances because no distance is near feature_size (C97); all volumes of single vectors are below the limit despite rounding, so all positions vote for 0; the average is near the exact one (C109). | `C112_majority`, `C112_total`, `C112_points`, `C112_search`, `C112_near_box`, `C112_exact_arithmetic` |
| C113 | In one dimension, search and identification in double precision find exactly the minima | `FL.setup`, `FloatReachLive` with minimizations in floating-point arithmetic, `FL.IdentifyRun` (the default `feature_size` is `dist_cutoff * 3`, rounded). | C106 gives a node near each minimum whose value is below the threshold, so it is within r of one of the points, and only the minimum itself is near enough; C112 identifies the nodes; the results and the points correspond one to one because the positions near a point are in one result. | `C113_exact` |
| C114 | The ballistic evaluation of lines in double precision | Model/FloatBallistic: the state machine of Model/Ballistic with a rounding after every arithmetic operation; norms of rows with any order of summation; matmul and the norm of a single vector by a contract for BLAS; connecting_vector can raise. | Result: invariant over the steps, as in C55. Termination: the measure of C59 needs only that the step from the current node is to a node of the cluster graph; that get_next_pos does not raise needs connecting_vector not to raise (C97) and, when there is a previous direction, a neighbour with a computed vector that is not zero, which the bound for connecting_vector gives. Directions: error bound of normalization by a relative error of 2^-53, then the contract of BLAS. Close positions: bounds on the rounded quotient with feature_size. Counterexample: np.mod gives 1 on -2^-60. | `C114_dominating`, `C114_terminates`, `C114_resolved_open`, `C114_no_turning_back`, `C114_vector`, `C114_avoids_close_positions`, `C114_exact_arithmetic`, `C114_unresolved_raises` |
| C115 | The shortest-path evaluation of lines in double precision | Model/FloatShortestPath: the state machine of Model/ShortestPath with rounded initial weights and multiplications; the path that Dijkstra's algorithm finds is given by a contract. | The invariant and the measure of C61 do not depend on the weights, only on the path being a path. First path: relative error of an initial weight at most 2^-39, summed over the path, with the contract of Dijkstra. | `C115_shortest_path`, `C115_cluster`, `C115_lengths`, `C115_first_path`, `C115_exact_arithmetic` |
| C116 | The identification with lines in double precision | Model/FloatRun puts the rounded models of clusters, dimension, points and the three methods for lines (C112, C114, C115, and the new Model/FloatDominatingSet) together | partition and chains from the cluster graph in double precision; every method returns a simple dominating subgraph (ballistic C114, shortest path C115, dominating set by invariants of its two loops); the vote on the dimension never raises since volumes of at most d + 1 positions are computed; a cluster of one position never has dimension 1, so the ballistic method has an edge to start with | `C116_dominating_set`, `C116_dominating_terminates`, `C116_results`, `C116_never_raises`, `C116_never_raises_open`, `C116_dominating_run`, `C116_refines`, `C116_points` |
| C117 | Search and identification in double precision, with lines | Model/FloatController, Model/FloatNM, Model/FloatRun (identify.run with the argument evaluate_line_method) | stored positions are near the box at any time, so the identification is in the scope of C116; the rest from the results of the search (C103) | `C117_results`, `C117_genuine`, `C117_complete`, `C117_never_raises` |
| C118 | The dominating-set method fails on every line in double precision, too | Model/FloatDominatingSet (every operation rounded; the computed distances and the path lengths of networkx are arguments, the relations hold for all results within their errors), Model/FloatRun | C118_general for any distance with the triangle inequality and computed distances near it: while holes are patched, a pair of dominating nodes that is at least 0.3 feature_size closer than the current one is already connected by at most twice its distance plus 0.03 feature_size (induction over the sorted patches), so a path that is patched in uses no edge between two dominating nodes, which would be a detour of less than twice the length; two dominating nodes within 1.9 feature_size of each other exist unless there is only one, and are connected by such an edge, which has no weight, so that sorting raises. C118_dominating_set and C118_raises for clusters, with the error bounds of distances of C103; C118_identify for the run. | `C118_general`, `C118_dominating_set`, `C118_raises`, `C118_identify`, `C118_search` |
| C119 | Units that differ by powers of two do not matter, even in double precision | the minimizer, `coordinate_system.py` and `_cluster.py` with roundings (`Model/FloatNM`, `FloatController`, `FloatSetup`, `FloatCell`, `FloatDistance`, `FloatAverage`, `FloatIdentify`, `FloatShortestPath`, `FloatBallistic`, `FloatDominatingSet`, `FloatRun`) | ties to even is homogeneous because two floats with even significands are never both nearest; then step by step as C79 (`Lemmas/FloatUnits`, `FloatUnitsCtl`); graphs by relabelling (`Lemmas/GraphMap`) | `C119_ieee`, `C119_ieee_exists`, `C119_minimizer`, `C119_two_step`, `C119_normalize`, `C119_distance`, `C119_clusters`, `C119_connecting_vector`, `C119_point`, `C119_search`, `C119_nodes`, `C119_setup`, `C119_dimension`, `C119_identify`, `C119_line`, `C119_run` |

All listed properties can be expressed in the model; none is marked not applicable. No theorem is `_partial`. Where the naive English property is false of the code, the property says under which condition it holds and a theorem with a concrete witness shows that the excluded case really fails (`…_misses_node`, `…_overcounts`, `…_raises`, `…_differs`, …).

## Coverage of /repo (nodefinder/)

| file | model | not modelled |
|---|---|---|
| `coordinate_system.py` | `Model/Coord` (exact), `Model/FloatCell` (rounded: from a position to its cell), `Model/FloatDistance` (rounded: `distance`, `connecting_vector`, clusters), `Model/FloatAverage` (rounded: `get_pos`, `average`, and `_evaluate_point`) | overflow and underflow |
| `search/result/_cell_list.py` | `Model/CellList` (exact), `Model/FloatCell` (rounded) | |
| `search/result/_search_result_container.py` | `Model/Container` (exact), `Model/FloatController` (rounded) | |
| `search/result/_minimization.py` | `Model/Result` | |
| `search/result/_controller_state.py` | `Model/Controller`: `CtlState` | |
| `search/_fake_potential.py` | `Model/Container`: `fakePotential`; with rounding: `Model/FloatFake` | infinities and NaN as coordinates |
| `search/_queue.py` | `Model/Queue` | |
| `search/_controller.py` | `Model/Controller`, `Model/Setup` (`__init__`), `Model/SaveFile`; `Model/FloatController`, `Model/FloatSetup` (rounded) | logging |
| `search/_run.py` | `Model/RunWrapper`, `Model/Setup` (default arguments), `createState` | logging set-up |
| `search/_mesh_helper.py`, `search/refinement_stencil.py` | `Model/Mesh` (exact), `Model/FloatSetup` (rounded) | rounding of `sin`, `cos`, `sqrt` and LAPACK in the circle and sphere stencils (a hypothesis: right up to 1/1000) |
| `search/_minimization/_nelder_mead.py`, `_run.py` | `Model/NelderMead` (exact), `Model/FloatNM` (rounded) | warning texts; overflow and underflow |
| `identify/_cluster.py` | `Model/Cluster`, `Model/Graph`; `Model/FloatDistance` (rounded) | |
| `identify/_dimension.py` | `Model/Dimension` (exact), `Model/FloatIdentify` (rounded) | LAPACK: the product of singular values is any function of the rows, right up to 2^-40 for a single row |
| `identify/_evaluate/*` | `Model/Identify`, `Model/Ballistic`, `Model/ShortestPath`, `Model/DominatingSet`; `Model/FloatAverage` (points, rounded), `Model/FloatBallistic` (ballistic lines, rounded; of BLAS only that it is right up to a relative error of 2^-40), `Model/FloatShortestPath` (rounded; of networkx' Dijkstra and of `x**2` only that they are right up to a relative error of 2^-40), `Model/FloatDominatingSet` (rounded; of networkx only that its paths are paths and that it finds one if there is one; for C118 also that lengths are right within 0.1 %) | printing, warnings |
| `identify/_run.py`, `identify/result/*` | `Model/Identify` (exact), `Model/FloatIdentify` (rounded) | |
| `identify/plot.py`, `search/plot.py`, `_common_plot.py` | `Model/PlotPaths` (splitting lines into paths), `Model/Plot` | matplotlib itself: a call adds an artist with the given coordinates to the axes |
| `io.py`, all `to_hdf5` / `from_hdf5` | `Model/Hdf5` | `fsc.hdf5_io` and `h5py` themselves (contract at the head of the file) |
| `_logging.py` | | logging |

## Findings about the code (each proved or noted beside the definition)

Search:
* A non-periodic box shorter than `dist_cutoff` misses neighbours (C08); a periodic one shorter than 3 cutoffs counts them several times, so `recheck_count_cutoff` discards too much (C10, C34).
* `average` may leave the limits when a lower limit is not 0 (C06).
* An object repeated within one `add_objects` call is handed out twice and `set_finished` raises KeyError; the parallelism bound is exceeded (C16, C21).
* In double precision `connecting_vector` can be zero in one direction and not in the other; the ballistic method, which returns without rounding (C59), then always raises on two positions that are closer than the rounding error, as `0` and `2^-60` in the periodic box `[0, 1]` (C114_unresolved_raises). Two such positions are in the same cluster and dominate it, but the method has no guard for them.
* A NaN value together with `fprime_cutoff` is reported as success and stored as a node (C43); with NaN in the simplex a better evaluated point can be discarded (C38).
* Raising `gap_threshold` at a restart does not refine the new nodes; a negative `recheck_count_cutoff` discards uncovered positions (C27).
* `num_minimize_parallel <= 0` never ends (C29); `refinement_stencil=None` with queued positions raises TypeError (C32).
* The docstring of `_check_simplex` differs from the code (C33); nonperiodic initial simplices stick out beyond the upper limits (C46).
* `search.run` inside a running loop waits forever if a BaseException is raised (C67), and leaks the helper thread's loop if `run_async` raises.
* In double precision a normalized position can be the upper limit, normalizing it again gives the lower limit; two positions closer than `dist_cutoff` by less than one part in 2^40 can be missed as neighbours (C74).
* A state with simplices of different numbers of vertices cannot be saved (C76); with h5py 3 the string `message` of a result is read back as bytes (noted only).
* A KeyboardInterrupt during a save may leave the temporary file behind.
* A simplex that lies wholly in the infinite region of the fake potential is not moved: the minimization shrinks it or runs to its iteration limit (noted only).
* Nelder-Mead can report success at a point that is no minimum, for a strictly convex function in two dimensions (McKinnon's example, C89); in one dimension it cannot (C88).
* With rounding a Nelder-Mead simplex can collapse to a single point, and is then reported as converged for every tolerance; in exact arithmetic it cannot (C73, C102, `C102_collapse`). What the search relies on (the reported value is the value of the function at the reported position, `success` means convergence, the limits) survives rounding (C102).
* A mesh finer than the rounding contains degenerate or repeated simplices (C104).
* If `feature_size` is so small that the vertices of the refinement stencil differ by less than the rounding of a position (2^-53 of it), different simplices of the stencil become equal when they are moved to the position: one simplex is queued twice in one batch, with the KeyError of C16 (C103, `C103_unresolved_stencil`). Otherwise a search with rounding keeps all of its guarantees, up to explicit error terms (C103).
* Switching off rechecking (`recheck_pos_dist=False`) cannot make a periodic search run for ever: a position is queued only if no refined position is near, so the search still ends (C28), but the proved bound is exponential in the number of cells instead of linear.
* With `periodic=False` nothing keeps a search inside its limits: nodes outside are refined as well, and for a gap function that is small out to infinity the search never ends (C93, `C93_runaway`). If the gap is above the threshold outside a bounded region the search ends.

Identify:
* A nodal point may be drawn outside of the limits of the plot (`C81_point_outside`); a line whose edges all cross the boundary is drawn as lines through single points, which show nothing (`C81_wrapping_line`).
* `create_clusters` docstring ("twice feature_size") differs from the code (C52).
* `min_pos_evaluations=None` raises TypeError and `=0` IndexError (C55).
* The ballistic method raises when all positions of a cluster coincide up to box lengths (C59).
* The dominating_set method raises for every real line (C62, C118); an unknown method silently gives no shape; `identify.run` of a ControllerState without feature_size raises AttributeError (C65).
* The shortest-path method on a clique returns a single node without edges.
* With h5py 3 `IdentificationResult.from_hdf5` fails for every object, because `group[()]` raises a TypeError and only AttributeError is caught (C77).
* `shape_name` says CLOSED LOOP for several disjoint loops (C63).
* In a non-periodic space the limits have no influence on the identification; the average that becomes a nodal point is not moved into the box (C06, C90).
* The method `shortest_path` returns a single node of unknown shape for a line whose positions are all within `feature_size` of each other, where `ballistic` returns an open line (C94, `C94_methods_differ`).
* The method `shortest_path` cannot find a closed loop in a cluster in which any two positions are at most four steps of `feature_size` apart: a closed nodal line of up to nine such steps is reported without a loop, where `ballistic` finds the loop (C95, `C95_methods_differ`).
* From about eighteen `feature_size` on (rings of radius ten `feature_size`), `shortest_path` does close every well sampled loop, exactly once, for every order of iteration (C96).
* `connecting_vector` contains an assertion with the absolute tolerance 1e-8. It holds whenever the box is moderate (diagonal and coordinates up to about 10^6), but in a box of length 2^31 it fails for positions inside the box (C97, `C97_assertion_fails`): a box in units of 1/m of a crystal can make the identification raise AssertionError.
* The dimension of a cluster of seven or more positions can depend on the unseeded random choices: the same 64 positions of an even plane patch may be reported as a line or as a plane; a cluster with five crowded positions and a short tail as a point or as a line. The standard-error criterion of `_has_dimension` accepts ten equal volumes as certainty (C98, `C98_line_or_plane`, `C98_point_or_line`, `C98_seven`).
* `connecting_vector` breaks the tie at exactly half a box length in favour of the positive direction, so the average of positions exactly half a box apart depends on the direction of the axis and on the iteration order of a set (C99, `C99_half_apart`). Otherwise the axes can be renamed and reversed (C99).
* Well sampled lines and rings come out with the right shape from every random start (C90, C91); the weights of the ballistic method make the step that meets the start of a loop win against every other one.
* `random.sample` of a set fails on Python ≥ 3.11; `np.product`, `np.object` are gone in recent numpy (noted only).

## Testing the theorems

`seeded/LOG.jsonl` records the seeded faults: each line is one edit of a model definition in a scratch copy, the claim it breaks, the theorems whose proofs then fail, and what was tightened.
