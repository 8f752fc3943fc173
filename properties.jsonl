{"id": "C01", "title": "Fractional coordinates invert to positions", "statement": "In a periodic CoordinateSystem get_frac always lies in [0,1) in every component and get_pos(get_frac(p)) is the normalized position of p; in a non-periodic one get_pos and get_frac are exact inverses of each other.", "quantifier": "every dimension, every limits with positive size, every position", "why_tests_cant": "the claim is about all real positions including points on and far outside the box", "anchors": ["nodefinder/coordinate_system.py:CoordinateSystem.get_frac", "nodefinder/coordinate_system.py:CoordinateSystem.get_pos", "nodefinder/coordinate_system.py:CoordinateSystem.normalize_position"]}
{"id": "C02", "title": "Normalized positions are canonical representatives", "statement": "In a periodic CoordinateSystem normalize_position(p) lies in [lower, upper) in every dimension, differs from p by an integer number of box lengths per dimension, is idempotent, and two positions have the same normal form exactly when they differ by box lengths. Non-periodic: it is the identity.", "quantifier": "every dimension, box and pair of positions", "why_tests_cant": "an infinite family of lattice images per point", "anchors": ["nodefinder/coordinate_system.py:CoordinateSystem.normalize_position"]}
{"id": "C03", "title": "distance is a metric on (wrapped) space", "statement": "distance is non-negative, symmetric, satisfies the triangle inequality, and is zero exactly when the two positions are the same point (up to box lengths if periodic).", "quantifier": "every dimension, box, periodic flag and triple of positions", "why_tests_cant": "triangle inequality over all triples cannot be sampled exhaustively", "anchors": ["nodefinder/coordinate_system.py:CoordinateSystem.distance"]}
{"id": "C04", "title": "Periodic distance is the smallest distance over all images", "statement": "In a periodic system distance(p, q) is attained by, and is a lower bound of, the Euclidean distances between p and all lattice images of q; it is unchanged when either argument is moved by box lengths, and never exceeds half the box diagonal.", "quantifier": "every dimension, box, pair of positions and every lattice image", "why_tests_cant": "ranges over infinitely many images", "anchors": ["nodefinder/coordinate_system.py:CoordinateSystem.distance"]}
{"id": "C05", "title": "connecting_vector is a shortest vector and its assertion cannot fail", "statement": "connecting_vector(p, q) added to p gives q (up to box lengths), its length equals distance(p, q), every component lies in (-size/2, size/2] in a periodic system, and the internal assertion never fires.", "quantifier": "every dimension, box, periodic flag and pair of positions", "why_tests_cant": "assertion could fail only on untested inputs, e.g. exactly half a box apart", "anchors": ["nodefinder/coordinate_system.py:CoordinateSystem.connecting_vector"]}
{"id": "C06", "title": "average of a cluster is a well-defined point of the box", "statement": "In a periodic system, average(positions) of a non-empty list of positions that fits (up to box lengths) in less than half the box in every dimension depends neither on the order of the list nor on which lattice images are given, is congruent to the ordinary mean of the unwrapped positions, and has components in [0, size): so it lies within the limits whenever the lower limits are zero (with other lower limits it may lie outside; shown by an example). Non-periodic: it is the ordinary mean. An empty list raises IndexError.", "quantifier": "every box, every finite list of positions, every permutation", "why_tests_cant": "ranges over all orderings and all images", "anchors": ["nodefinder/coordinate_system.py:CoordinateSystem.average", "nodefinder/identify/_evaluate/_point.py:_evaluate_point"]}
{"id": "C07", "title": "Order of each limits pair is irrelevant", "statement": "Giving any of the limits pairs as (upper, lower) instead of (lower, upper) yields the same coordinate system, and size is non-negative in every dimension.", "quantifier": "every list of limits and every subset of swapped pairs", "why_tests_cant": "all swaps at all dimensions", "anchors": ["nodefinder/coordinate_system.py:CoordinateSystem.__init__"]}
{"id": "C08", "title": "Neighbour lookup misses nothing within dist_cutoff", "statement": "In a periodic box, or a non-periodic one that is at least dist_cutoff long in every dimension: for every stored node (or refined position) whose distance to the query position is below dist_cutoff, the neighbour iterators of the result container yield it (unless, for nodes, it is exactly at the query position), and they yield only distances to stored nodes / refined positions. In a smaller non-periodic box this fails (shown by an example).", "quantifier": "every box, dist_cutoff > 0, periodic flag, insertion history and query position", "why_tests_cant": "a boundary or wrap-around cell error hits only specially placed pairs", "anchors": ["nodefinder/search/result/_cell_list.py:CellList.get_neighbour_values", "nodefinder/search/result/_cell_list.py:CellList.get_index", "nodefinder/search/result/_search_result_container.py:SearchResultContainer.__init__", "nodefinder/search/result/_search_result_container.py:SearchResultContainer.get_neighbour_distance_iterator", "nodefinder/search/result/_search_result_container.py:SearchResultContainer.get_refined_neighbour_distance_iterator"]}
{"id": "C09", "title": "Storing and looking up never goes out of range", "statement": "add_point and neighbour lookup of any position that went through get_frac address an existing cell: no IndexError, and no wrap-around of negative indices.", "quantifier": "every box, cutoff, position", "why_tests_cant": "boundary positions", "anchors": ["nodefinder/search/result/_cell_list.py:CellList.add_point", "nodefinder/search/result/_cell_list.py:CellList.get_index", "nodefinder/search/result/_search_result_container.py:SearchResultContainer.add_result"]}
{"id": "C10", "title": "Neighbour lookup yields each stored value once", "statement": "In a non-periodic box, or a periodic one at least three times dist_cutoff long in every dimension, each stored value appears at most as often in a neighbour lookup as it was stored, so the number of near positions counted equals the number of stored near positions. In a smaller periodic box values are returned several times (the exact multiplicity is given: 3^dim below two cutoffs).", "quantifier": "every insertion history and query", "why_tests_cant": "depends on the number of cells per dimension", "anchors": ["nodefinder/search/result/_cell_list.py:CellList._calculate_neighbour_indices", "nodefinder/search/result/_cell_list.py:CellList.get_neighbour_values"]}
{"id": "C11", "title": "The neighbour-index cache is transparent", "statement": "The lazily filled cache of neighbour indices never changes the outcome: after any history of queries and insertions, a lookup gives what an uncached computation gives; values(), len and indexing list exactly the added values in insertion order.", "quantifier": "every sequence of add_point / lookup calls", "why_tests_cant": "histories are unbounded", "anchors": ["nodefinder/search/result/_cell_list.py:CellList._get_neighbour_indices", "nodefinder/search/result/_cell_list.py:CellList.values", "nodefinder/search/result/_cell_list.py:CellList.__len__"]}
{"id": "C12", "title": "A result is a node exactly if it succeeded and is not above the threshold", "statement": "After any sequence of add_result calls, nodes holds, in order, exactly the added results with success=True whose value is not above gap_threshold, rejected_results exactly the others; add_result returns True exactly for the former; minimization_results contains every added result once; nothing is ever removed.", "quantifier": "every sequence of results", "why_tests_cant": "unbounded histories", "anchors": ["nodefinder/search/result/_search_result_container.py:SearchResultContainer.add_result", "nodefinder/search/result/_search_result_container.py:SearchResultContainer.minimization_results"]}
{"id": "C13", "title": "Stored positions are normalized", "statement": "In a periodic search every stored result position lies within [lower, upper) and is congruent to the position the minimizer found; in a non-periodic one it is unchanged.", "quantifier": "every sequence of results", "why_tests_cant": "all positions", "anchors": ["nodefinder/search/result/_search_result_container.py:SearchResultContainer.add_result"]}
{"id": "C14", "title": "Fake potential is infinite exactly near known nodes", "statement": "In a periodic box, or a non-periodic one at least dist_cutoff long in every dimension, FakePotential(pos) with 0 < width <= dist_cutoff is inf if some node whose position is not exactly pos is closer than width, and 0 otherwise (in particular 0 exactly at a node with no other node near).", "quantifier": "every container history and position", "why_tests_cant": "depends on all stored nodes and cell geometry", "anchors": ["nodefinder/search/_fake_potential.py:FakePotential.__call__", "nodefinder/search/result/_search_result_container.py:SearchResultContainer.get_all_neighbour_distances"]}
{"id": "C15", "title": "Re-creating a container re-classifies its results", "statement": "Building a container from the minimization_results and refined positions of another one with the same settings gives the same nodes, rejected results and refined positions in the same order, also when the results went through a file; with another gap_threshold the nodes are exactly the successful results not above the new threshold.", "quantifier": "every container, every new threshold", "why_tests_cant": "all histories", "anchors": ["nodefinder/search/result/_search_result_container.py:SearchResultContainer.__init__", "nodefinder/search/_controller.py:Controller.create_state"]}
{"id": "C16", "title": "An object is handed out at most once", "statement": "If no single add_objects call (nor the initial list) contains the same object twice, the queue never hands out the same (normalized) object twice within one session, however often it is added by different calls. (An object repeated within one call is handed out twice and then set_finished raises KeyError: shown.)", "quantifier": "every sequence of add_objects / pop_queued / set_finished calls", "why_tests_cant": "unbounded histories", "anchors": ["nodefinder/search/_queue.py:ObjectQueue.add_objects", "nodefinder/search/_queue.py:RunningQueue.pop_queued"]}
{"id": "C17", "title": "The queue is FIFO and loses nothing", "statement": "Every object ever added is either still queued or has been popped, and nothing else; objects first appear in the order in which they were first added; if no call repeats an object, popped followed by queued objects are exactly the added objects in order of their first addition.", "quantifier": "every operation sequence", "why_tests_cant": "unbounded histories", "anchors": ["nodefinder/search/_queue.py:ObjectQueue"]}
{"id": "C18", "title": "Simplices are identified up to vertex order", "statement": "Two simplices get the same queue entry exactly when one is a reordering of the vertices of the other.", "quantifier": "all simplices, all vertex permutations", "why_tests_cant": "all permutations in all dimensions", "anchors": ["nodefinder/search/_queue.py:SimplexQueue.normalize"]}
{"id": "C19", "title": "Saving and reloading a queue keeps all outstanding objects", "statement": "If no single add call repeats an object: the objects attribute of a running queue lists exactly the objects added and not finished, each once, the running ones first (in any set iteration order); a queue rebuilt from it has exactly these objects queued, in this order, and none running; reloading simplices from a file does not change them.", "quantifier": "every operation sequence and save point", "why_tests_cant": "any save point", "anchors": ["nodefinder/search/_queue.py:RunningQueue.objects", "nodefinder/search/_queue.py:ObjectQueue.from_hdf5", "nodefinder/search/_queue.py:ObjectQueue.to_hdf5"]}
{"id": "C20", "title": "finished means that nothing is outstanding", "statement": "If no single add call repeats an object: finished holds exactly if every object ever added has been popped and set finished; set_finished raises KeyError exactly on objects which are not running (and nothing else); num_running counts popped minus finished.", "quantifier": "every operation sequence", "why_tests_cant": "unbounded histories", "anchors": ["nodefinder/search/_queue.py:RunningQueue.finished", "nodefinder/search/_queue.py:RunningQueue.set_finished", "nodefinder/search/_queue.py:RunningQueue.num_running"]}
{"id": "C21", "title": "At most num_minimize_parallel minimizations run at once", "statement": "If neither the initial mesh nor the stencil contains the same simplex twice (proved for generated ones: C47), at every moment of a search, from any initial state and with any number of crashes and restarts, the number of running minimizations is at most num_minimize_parallel (0 if negative). (With the same simplex repeated in the mesh this fails: shown.)", "quantifier": "every gap function, task interleaving and parameter choice", "why_tests_cant": "schedules are unbounded", "anchors": ["nodefinder/search/_controller.py:Controller.create_tasks"]}
{"id": "C22", "title": "Task bookkeeping never breaks", "statement": "For a mesh and stencil without repeated simplices: during a search set_finished never fails; every running or failed task has exactly one running-queue entry and vice versa, whatever the order in which tasks finish or fail; tasks end only with a result or an error of the gap function; a scheduling round can only fail without a stencil.", "quantifier": "every task interleaving", "why_tests_cant": "all interleavings", "anchors": ["nodefinder/search/_controller.py:Controller.run_simplex", "nodefinder/search/_controller.py:Controller.schedule_minimization", "nodefinder/search/_queue.py:RunningQueue.set_finished"]}
{"id": "C23", "title": "Every completed minimization is recorded exactly once", "statement": "For a mesh and stencil without repeated simplices: at every moment the container holds exactly one result per completed minimization (plus the loaded ones); every simplex of the initial queue and of the stencils of refined positions is, up to vertex order, in exactly one of the states queued, running, failed, skipped or completed, exactly once, and nothing else is.", "quantifier": "every schedule", "why_tests_cant": "all interleavings", "anchors": ["nodefinder/search/_controller.py:Controller.run_simplex", "nodefinder/search/_controller.py:Controller.process_result"]}
{"id": "C24", "title": "A search that returns has no work left", "statement": "When run returns normally, no simplex is queued or running, no position is waiting for refinement, no minimization has failed, and (with a save file) the file holds exactly the final results and refined positions and no outstanding simplex (any position still listed in it would be discarded again).", "quantifier": "every schedule", "why_tests_cant": "all interleavings", "anchors": ["nodefinder/search/_controller.py:Controller.create_tasks", "nodefinder/search/_controller.py:Controller.save"]}
{"id": "C25", "title": "Errors of the gap function are never swallowed", "statement": "If some minimization raises, run never returns normally, whatever happens later, and starts nothing new; if run raises (and there is a stencil), it raises either the error of a failed minimization, whose simplex is still listed as outstanding in the state and, with a save file, in the file, or the error of a save that failed.", "quantifier": "every schedule, every failure point", "why_tests_cant": "all failure points", "anchors": ["nodefinder/search/_controller.py:Controller.create_tasks"]}
{"id": "C26", "title": "Refinement centres keep their distance", "statement": "In a search with recheck_pos_dist=True, in a periodic box or one at least dist_cutoff long: each refinement centre has at most recheck_count_cutoff (>= 0) earlier centres closer than dist_cutoff; so with recheck_count_cutoff=0 any two centres are at least dist_cutoff apart (wrapped distance), crashes and restarts included.", "quantifier": "every gap function, schedule, box", "why_tests_cant": "all schedules and geometries", "anchors": ["nodefinder/search/_controller.py:Controller._check_pos_refinement", "nodefinder/search/_controller.py:Controller.create_tasks", "nodefinder/search/result/_search_result_container.py:SearchResultContainer.set_refined"]}
{"id": "C27", "title": "Every node is covered by a refinement", "statement": "When a search started afresh (crashes and restarts with the same settings included) with a refinement stencil returns, in a periodic box or one at least dist_cutoff long and with recheck_pos_dist=False or recheck_count_cutoff >= 0, every node is closer than dist_cutoff to a position around which a refinement was performed; before that, every node is covered or waiting in the position queue. (With a negative recheck_count_cutoff, or a gap_threshold raised at a restart, this fails: shown.)", "quantifier": "every gap function, schedule, parameter choice", "why_tests_cant": "all schedules", "anchors": ["nodefinder/search/_controller.py:Controller.process_result", "nodefinder/search/_controller.py:Controller.create_tasks"]}
{"id": "C28", "title": "A periodic search does a bounded amount of work", "statement": "In a periodic search the number of refinements, and hence of minimizations, is bounded for every gap function and schedule, also over crashes and restarts: with rechecking (the default) by a number depending only on the box, dist_cutoff, recheck_count_cutoff, mesh size and stencil size that is linear in the number of grid cells of size dist_cutoff / (dim + 1); without rechecking (recheck_pos_dist=False) still by a number that depends only on these sizes, though exponential in the number of cells. (Restarts with force_initial_mesh queue the mesh again each time, so there the bound on the minimizations, and the one without rechecking, exclude it.) With num_minimize_parallel >= 1 no fair execution (the main loop gets its turn, every minimization ends) goes on forever, with or without rechecking.", "quantifier": "every gap function and schedule", "why_tests_cant": "termination cannot be tested", "anchors": ["nodefinder/search/_controller.py:Controller.create_tasks", "nodefinder/search/_controller.py:Controller._check_pos_refinement"]}
{"id": "C29", "title": "The search loop cannot stall", "statement": "With num_minimize_parallel >= 1, whenever the search is not finished after a scheduling round, at least one minimization is running or has failed; the scheduling round itself terminates. With num_minimize_parallel <= 0 the search never does anything and never ends.", "quantifier": "every reachable state", "why_tests_cant": "liveness over all schedules", "anchors": ["nodefinder/search/_controller.py:Controller.create_tasks"]}
{"id": "C30", "title": "A crash loses no outstanding work", "statement": "At every moment the save file is a complete copy of an earlier state of the search; restarting from it restores the nodes, rejected results, refined and queued positions of that state, and queues exactly its queued, running and failed simplices (plus the mesh, if forced); if the state is marked as saved, the file is up to date, except that it may still list positions that have been discarded since and would be discarded again.", "quantifier": "every schedule, save time and crash point", "why_tests_cant": "all crash points", "anchors": ["nodefinder/search/_controller.py:Controller.save", "nodefinder/search/_controller.py:Controller.create_state", "nodefinder/search/result/_controller_state.py:ControllerState.needs_saving"]}
{"id": "C31", "title": "Restarting a finished search does nothing", "statement": "Restarting with load=True from the file written by a completed search, with the same settings and without force_initial_mesh, performs no minimization or refinement, never fails (unless saving does), ends after at most one scheduling round if num_minimize_parallel >= 1, and has the same nodes, in the same order, rejected results and refined positions.", "quantifier": "every finished search", "why_tests_cant": "all histories", "anchors": ["nodefinder/search/_controller.py:Controller.create_state", "nodefinder/search/_controller.py:Controller.create_tasks"]}
{"id": "C32", "title": "Without a stencil no refinement is attempted", "statement": "With refinement_stencil=None, a search that does not start with queued positions never queues a position for refinement, only handles the simplices it starts with, and never raises a TypeError. (Started from a state with queued positions it raises TypeError: shown.)", "quantifier": "every schedule, every initial state", "why_tests_cant": "all histories", "anchors": ["nodefinder/search/_controller.py:Controller.process_result", "nodefinder/search/_controller.py:Controller.create_tasks"]}
{"id": "C33", "title": "A simplex is skipped exactly if too many vertices are near nodes", "statement": "In a periodic box, or one at least dist_cutoff long, and for simplex_check_cutoff >= 0: a simplex handed out is skipped exactly when more than simplex_check_cutoff of its vertices have a node (not exactly at the vertex) closer than dist_cutoff; otherwise its minimization is started. A negative cutoff acts like 0. (The docstring, which says that all vertices must be near, is wrong: shown.)", "quantifier": "every container, simplex, cutoff", "why_tests_cant": "all geometries", "anchors": ["nodefinder/search/_controller.py:Controller._check_simplex"]}
{"id": "C34", "title": "A refinement is skipped exactly if too many refined positions are near", "statement": "With recheck_pos_dist=True, recheck_count_cutoff >= 0 and a box at least dist_cutoff (non-periodic) or 3*dist_cutoff (periodic) long: a queued position is discarded exactly when more than recheck_count_cutoff refined positions are closer than dist_cutoff; otherwise it is refined. In a smaller periodic box positions are counted several times (shown).", "quantifier": "every container, position, cutoff", "why_tests_cant": "depends on cell geometry", "anchors": ["nodefinder/search/_controller.py:Controller._check_pos_refinement"]}
{"id": "C35", "title": "Initial state selection", "statement": "load together with initial_state raises ValueError; an IOError at loading raises only if load_quiet is False and otherwise the search starts from the initial mesh; other errors always raise; without a previous state the queue is exactly the initial mesh; with one it is the outstanding simplices, plus the simplices of the initial mesh not among them if force_initial_mesh, together with its positions, refined positions and re-classified results; a mesh size sequence must have the length of limits.", "quantifier": "all flag combinations and states", "why_tests_cant": "all combinations with arbitrary states", "anchors": ["nodefinder/search/_controller.py:Controller.create_state", "nodefinder/search/_controller.py:Controller.check_dimensions"]}
{"id": "C36", "title": "The save file is replaced atomically", "statement": "Whatever instruction of save the process dies at or fails at, the save file holds either the complete previous state or the complete new state, never a partial one; if save returns the file is the new state and marked as saved; on an Exception the file is unchanged, still marked as unsaved, and the temporary file is removed.", "quantifier": "every crash point and failure point of save", "why_tests_cant": "crash points", "anchors": ["nodefinder/search/_controller.py:Controller.save"]}
{"id": "C37", "title": "Reported value is the function value at the reported position", "statement": "The value of a minimization result (unless NaN) is a value which the function returned for exactly the reported position.", "quantifier": "every function (also one which changes between calls), simplex, tolerance", "why_tests_cant": "all functions", "anchors": ["nodefinder/search/_minimization/_nelder_mead.py:root_nelder_mead"]}
{"id": "C38", "title": "The minimizer never gets worse", "statement": "The best value never increases from one history entry to the next and every history entry is sorted (NaN last); the result, unless NaN, is at least as good as every initial vertex; if the function never returns NaN it is the best of all values ever returned. (With NaN values a better evaluated point can be lost: shown.)", "quantifier": "every function, simplex", "why_tests_cant": "all functions", "anchors": ["nodefinder/search/_minimization/_nelder_mead.py:root_nelder_mead"]}
{"id": "C39", "title": "success means converged", "statement": "success=True exactly if status is 0; status 1/2 exactly if the evaluation/iteration limit was reached; and if success (and no derivative cutoff is used, or the function never returned NaN) the final simplex has extent at most xtol, function spread at most ftol, no limit was reached, and the value divided by its longest edge is not above the derivative cutoff.", "quantifier": "every function, simplex, tolerance, limits", "why_tests_cant": "all functions", "anchors": ["nodefinder/search/_minimization/_nelder_mead.py:root_nelder_mead"]}
{"id": "C40", "title": "Iteration and evaluation limits are respected", "statement": "num_iter never exceeds max(maxiter, 1); num_fev exceeds maxfev by at most dim+1; with dim+1 calls for the initial simplex and between 1 and dim+2 per iteration after the first, num_fev lies between dim+1 + (num_iter-1) and dim+1 + (num_iter-1)(dim+2); the minimization always terminates, with and without a fake potential.", "quantifier": "every function and limits", "why_tests_cant": "all functions", "anchors": ["nodefinder/search/_minimization/_nelder_mead.py:root_nelder_mead"]}
{"id": "C41", "title": "History bookkeeping is consistent", "statement": "With keep_history the history has num_iter entries, starts with the sorted initial simplex and ends with the simplex whose first vertex is the reported position; without it only that last simplex is kept.", "quantifier": "every function", "why_tests_cant": "all functions", "anchors": ["nodefinder/search/_minimization/_nelder_mead.py:root_nelder_mead"]}
{"id": "C42", "title": "Evaluations stay in the affine hull of the initial simplex", "statement": "All vertices ever visited are affine combinations of the initial vertices.", "quantifier": "every function", "why_tests_cant": "all functions", "anchors": ["nodefinder/search/_minimization/_nelder_mead.py:root_nelder_mead"]}
{"id": "C43", "title": "NaN or infinite values never make a node", "statement": "With finite ftol, and no derivative cutoff (the default) or a function that never returns NaN: a successful minimization has only finite values in its final simplex, and in a search no node has a NaN or infinite value. (With a derivative cutoff a NaN can be reported as success and stored as a node: shown.)", "quantifier": "every function", "why_tests_cant": "all functions", "anchors": ["nodefinder/search/_minimization/_nelder_mead.py:root_nelder_mead", "nodefinder/search/result/_search_result_container.py:SearchResultContainer.add_result"]}
{"id": "C44", "title": "Two-step minimization reports the true function", "statement": "With a fake potential the reported position and value come from the second run, hence from the true function; num_fev and num_iter are the sums over both runs and histories are concatenated, first run first; the second run starts from the final simplex of the first, scaled by 1.5 about its best vertex.", "quantifier": "every function and fake potential", "why_tests_cant": "all functions", "anchors": ["nodefinder/search/_minimization/_run.py:run_minimization", "nodefinder/search/result/_minimization.py:JoinedMinimizationResult"]}
{"id": "C45", "title": "Returned nodes are below the threshold", "statement": "Every node of the container returned by search.run comes from a successful minimization, lies in the box if periodic, its value is not above gap_threshold (NaN aside) and is a value that the gap function returned at that point (up to box lengths); with the default options the value is finite and at most gap_threshold.", "quantifier": "every gap function, schedule, parameters", "why_tests_cant": "all functions and schedules", "anchors": ["nodefinder/search/_run.py:run_async", "nodefinder/search/_controller.py:Controller.run_simplex", "nodefinder/search/result/_search_result_container.py:SearchResultContainer.add_result"]}
{"id": "C46", "title": "Initial mesh has the documented size and lies in the box", "statement": "The initial mesh has exactly prod(mesh_size) simplices of dim+1 vertices each, whose first vertices lie inside the limits and whose other vertices are at most half a mesh cell above; in the periodic case all vertices lie in [lower, upper). In a non-periodic box with at least two mesh points in a dimension some vertices always stick out beyond the upper limit (shown).", "quantifier": "every dimension, limits, mesh size", "why_tests_cant": "all dimensions", "anchors": ["nodefinder/search/_mesh_helper.py:_generate_mesh_simplices"]}
{"id": "C47", "title": "Initial simplices are distinct and non-degenerate", "statement": "With positive box size the simplices of the mesh are pairwise different as sets of vertices, and the vertices of each are affinely independent.", "quantifier": "every dimension, limits, mesh size", "why_tests_cant": "all dimensions", "anchors": ["nodefinder/search/_mesh_helper.py:_generate_mesh_simplices"]}
{"id": "C48", "title": "The mesh covers the box", "statement": "Every point of the box is, in each coordinate, within one mesh spacing above some base vertex (wrapped, if periodic).", "quantifier": "every dimension, limits, mesh size, point", "why_tests_cant": "all points", "anchors": ["nodefinder/search/_mesh_helper.py:_generate_mesh_simplices"]}
{"id": "C49", "title": "Default stencils lie outside the cutoff sphere", "statement": "All vertices of the simplices placed around a refined position with the default (auto) stencil are farther than dist_cutoff from that position (in a periodic box: if it is longer than 13/9 feature sizes), so a refinement is not immediately discarded because of its own centre; circle and sphere stencils with any number of points stay outside 1.5 and 1.1 dist_cutoff.", "quantifier": "every dimension", "why_tests_cant": "geometry over all dimensions / number of points", "anchors": ["nodefinder/search/refinement_stencil.py:get_auto_stencil", "nodefinder/search/refinement_stencil.py:get_circle_stencil", "nodefinder/search/refinement_stencil.py:get_sphere_stencil", "nodefinder/search/refinement_stencil.py:get_mesh_stencil"]}
{"id": "C50", "title": "Stencil shape", "statement": "The mesh stencil has prod(mesh_size) simplices minus the one based at the origin (present exactly if all mesh sizes are odd and at least 3; for dist_multiplier above 1e-8 times the mesh size), each with dim+1 vertices; circle and sphere stencils have num_points simplices of 3 and 4 vertices; auto has 5 simplices in 2D, 30 in 3D, 3^dim - 1 otherwise.", "quantifier": "every dimension, mesh size, number of points", "why_tests_cant": "all sizes", "anchors": ["nodefinder/search/refinement_stencil.py:get_mesh_stencil", "nodefinder/search/refinement_stencil.py:get_auto_stencil"]}
{"id": "C51", "title": "Clusters partition the positions", "statement": "Every given position is in exactly one cluster, clusters contain nothing else, and none is empty.", "quantifier": "every list of positions (with duplicates)", "why_tests_cant": "all point clouds", "anchors": ["nodefinder/identify/_cluster.py:create_clusters"]}
{"id": "C52", "title": "Clusters are the chains of steps of at most feature_size", "statement": "Two positions are in the same cluster exactly if they are connected by a chain of given positions with consecutive distances at most feature_size; hence positions in different clusters are more than feature_size apart.", "quantifier": "every list of positions, box, feature_size", "why_tests_cant": "all point clouds", "anchors": ["nodefinder/identify/_cluster.py:create_clusters", "nodefinder/identify/_cluster.py:_create_graph"]}
{"id": "C53", "title": "Clustering does not depend on order, duplicates or set iteration order", "statement": "Permuting or repeating positions, or a different set iteration order, gives the same family of clusters; a larger feature_size only merges clusters.", "quantifier": "every reordering", "why_tests_cant": "all permutations", "anchors": ["nodefinder/identify/_cluster.py:create_clusters"]}
{"id": "C54", "title": "Cluster graph edges carry the distance", "statement": "In each cluster graph two positions are adjacent exactly if they are different and at most feature_size apart, and the edge weight is their distance.", "quantifier": "every list of positions", "why_tests_cant": "all point clouds", "anchors": ["nodefinder/identify/_cluster.py:_create_graph"]}
{"id": "C55", "title": "Dimension needs a two-thirds majority", "statement": "With min_pos_evaluations >= 1, calculate_dimension returns a dimension only if at least two thirds of the evaluated (different) positions agree on it, after at least min(min_pos_evaluations, number of positions) evaluations and at the first such moment; the value is between 0 and min(max_dim, length of a position); it returns None only after evaluating all positions without such a majority; it raises only NotImplementedError for max_dim >= 4 in at least four dimensions. (min_pos_evaluations None or 0 always raises: shown.)", "quantifier": "every cluster, every shuffle", "why_tests_cant": "random shuffles", "anchors": ["nodefinder/identify/_dimension.py:calculate_dimension", "nodefinder/identify/_dimension.py:_check_count", "nodefinder/identify/_dimension.py:_get_dimension"]}
{"id": "C56", "title": "Neighbour sampling draws every tuple once", "statement": "Whatever the random choices, the neighbour tuples drawn for a position contain no repetition, and all combinations are drawn if no early decision is made; the decision compares the average volume over the drawn tuples with half of the value for a ball, after all combinations, or after at least min_neighbour_evaluations tuples if the average differs from the limit by more than twice its standard error.", "quantifier": "every random outcome", "why_tests_cant": "random", "anchors": ["nodefinder/identify/_dimension.py:_has_dimension"]}
{"id": "C57", "title": "An isolated position is a point", "statement": "A cluster consisting of a single position has dimension 0 and its shape is a NodalPoint at that position (up to box lengths).", "quantifier": "every position and box", "why_tests_cant": "all", "anchors": ["nodefinder/identify/_dimension.py:calculate_dimension", "nodefinder/identify/_evaluate/_run.py:evaluate_cluster"]}
{"id": "C58", "title": "Ballistic line is a dominating subgraph of the cluster", "statement": "The graph returned by the ballistic method is a subgraph of the cluster graph and every position of the cluster is on it or adjacent to one of its nodes.", "quantifier": "every cluster, every choice order", "why_tests_cant": "all graphs", "anchors": ["nodefinder/identify/_evaluate/_line/_ballistic.py:_BallisticLineImpl.run"]}
{"id": "C59", "title": "Ballistic evaluation terminates", "statement": "On a cluster in which two positions have positive distance, the ballistic method never raises and terminates after at most 6n+1 steps, for any order in which set elements are popped. (If all positions coincide up to box lengths it raises: shown.)", "quantifier": "every cluster", "why_tests_cant": "termination", "anchors": ["nodefinder/identify/_evaluate/_line/_ballistic.py:_BallisticLineImpl.find_loop", "nodefinder/identify/_evaluate/_line/_ballistic.py:_BallisticLineImpl.run"]}
{"id": "C60", "title": "Ballistic steps never turn back", "statement": "Each step of the ballistic method within one search for a loop makes an angle of less than 90 degrees with the previous step, and a step continuing from an end node more than 90 degrees with the edge already there; the position stepped to is at least feature_size/1000 away unless all positions ahead are closer.", "quantifier": "every cluster", "why_tests_cant": "all", "anchors": ["nodefinder/identify/_evaluate/_line/_ballistic.py:_BallisticLineImpl.get_next_pos"]}
{"id": "C61", "title": "Shortest-path line is a connected dominating subgraph", "statement": "On a connected cluster the shortest-path method terminates, its internal assertion never fails, and the returned graph is a connected subgraph of the cluster graph that dominates it.", "quantifier": "every connected cluster, every choice order, every tie-breaking", "why_tests_cant": "all graphs", "anchors": ["nodefinder/identify/_evaluate/_line/_shortest_path.py:_evaluate_line_shortest_path"]}
{"id": "C62", "title": "Dominating-set line evaluation (only works on tiny clusters)", "statement": "The dominating-set method, on a cluster, returns only if one position is closer than feature_size/3 to all others, and then the single-node graph, which dominates the cluster; in all other cases (every real line) it raises NetworkXNoPath or TypeError; it always terminates.", "quantifier": "every connected cluster", "why_tests_cant": "all graphs", "anchors": ["nodefinder/identify/_evaluate/_line/_dominating_set.py:_evaluate_line_dominating_set"]}
{"id": "C63", "title": "shape_name reflects node degrees", "statement": "A NodalLine is named CLOSED LOOP exactly if all its nodes have two neighbours, OPEN LINE exactly if two nodes have one neighbour and all others two, else UNKNOWN; for a connected non-empty graph these names mean that the graph is exactly one closed cycle / one open path. (For disconnected graphs CLOSED LOOP may mean several loops: shown.)", "quantifier": "every graph", "why_tests_cant": "all graphs", "anchors": ["nodefinder/identify/_evaluate/_line/_run.py:_create_degree_count", "nodefinder/identify/result/_shapes.py:NodalLine.shape_name"]}
{"id": "C64", "title": "A NodalLine survives saving and loading", "statement": "Loading a saved NodalLine gives a graph with the same nodes and the same edges, the same degree_count and shape_name.", "quantifier": "every graph", "why_tests_cant": "all graphs", "anchors": ["nodefinder/identify/result/_shapes.py:NodalLine.to_hdf5", "nodefinder/identify/result/_shapes.py:NodalLine.from_hdf5"]}
{"id": "C65", "title": "Identification accounts for every node", "statement": "identify.run returns one result per cluster: every different node position is in exactly one result, two are in the same one exactly if connected by a chain of steps of at most feature_size; a dimension-0 cluster becomes a point at the average position, a shape of a dimension-1 cluster is a line through its positions, all others have no shape; with the methods ballistic and shortest_path it never raises and every dimension-1 cluster gets a line; the default feature_size is the one given to the search.", "quantifier": "every search result or controller state", "why_tests_cant": "all inputs", "anchors": ["nodefinder/identify/_run.py:run", "nodefinder/identify/_run.py:run_from_positions", "nodefinder/identify/_evaluate/_run.py:evaluate_cluster"]}
{"id": "C66", "title": "Plotting draws every edge of a line exactly once", "statement": "The paths into which a nodal line is split for plotting use every edge of the graph exactly once, except that edges longer than twice feature_size (crossing the boundary) are not drawn; nothing else is drawn; the procedure terminates.", "quantifier": "every graph", "why_tests_cant": "all graphs", "anchors": ["nodefinder/identify/plot.py:_get_graph_paths"]}
{"id": "C67", "title": "search.run behaves like run_async in every calling context", "statement": "Whether there is no event loop, an idle one or a running one, search.run returns what run_async returns and raises the Exception it raises, and never closes the caller's loop. (A BaseException inside a running loop makes it wait forever: shown.)", "quantifier": "every outcome and context", "why_tests_cant": "threads and event loops", "anchors": ["nodefinder/search/_run.py:run", "nodefinder/search/_run.py:_run_in_thread"]}
{"id": "C68", "title": "Flat clusters never get a higher dimension", "statement": "If at every position of a cluster the vectors to its neighbours lie in a linear space of dimension less than k, the dimension found for the cluster is less than k (or undetermined): positions on a straight line are never taken for a surface, positions in a plane never for a volume.", "quantifier": "every cluster, box, random sampling order", "why_tests_cant": "all point clouds and random orders", "anchors": ["nodefinder/identify/_dimension.py:_has_dimension", "nodefinder/identify/_dimension.py:calculate_dimension", "nodefinder/identify/_dimension.py:_get_volume"]}
{"id": "C69", "title": "Points are told from lines at a quarter of feature_size", "statement": "A position all of whose neighbours are within feature_size/4 has dimension 0; one that has neighbours, all of them farther away than that, has dimension at least 1.", "quantifier": "every cluster, box, random sampling order", "why_tests_cant": "all point clouds", "anchors": ["nodefinder/identify/_dimension.py:_get_dimension", "nodefinder/identify/_dimension.py:_has_dimension"]}
{"id": "C70", "title": "A search with one minimization at a time is reproducible", "statement": "With num_minimize_parallel = 1 and a gap function that is deterministic (the outcome of a minimization depends only on the known nodes and the initial simplex), two searches with the same parameters and initial state go through the same history: at any two moments the history of one is the beginning of that of the other; when both have ended, they have the same nodes, rejected results and refined positions in the same order, and either both returned or both raised the same exception (unless writing the save file failed). With two minimizations at a time this is false: the nodes found can depend on which minimization ends first.", "quantifier": "every parameter set, initial state, deterministic minimization, pair of executions (times of the turns of the main loop, ends of minimizations, saves, failing saves)", "why_tests_cant": "all pairs of schedules", "anchors": ["nodefinder/search/_controller.py:Controller.create_tasks", "nodefinder/search/_controller.py:Controller.run_simplex", "nodefinder/search/_fake_potential.py:FakePotential"]}
{"id": "C71", "title": "The settings of a search determine the precision of its nodes", "statement": "search.run refuses its arguments (ValueError) exactly if the mesh sizes do not match the dimension or one is negative. The minimizer works with the tolerances the user gives, else feature_size/100 for positions and gap_threshold/20 for values. Unless the user sets a derivative cutoff or an infinite ftol, every node comes with the last simplex of its simplex_history: its first vertex is the position of the node (up to a lattice vector), its other vertices are within xtol of it in every coordinate, and the gap function returned finite values at all vertices that differ from the node's by at most ftol. With the stencil 'auto' each minimization starts from a simplex of the initial mesh or from one all of whose vertices are farther than feature_size/3 from a refined position. In particular, with all defaults: the unit cube, 1000 initial simplices, 30 per refinement, values at most 1e-6, precision 2e-5 and 5e-8. Every option the user gives (limits on iterations and evaluations, derivative cutoff, history, parallelism, rechecks) takes effect as given.", "quantifier": "every set of arguments, gap function, schedule, crash and restart", "why_tests_cant": "all arguments and all executions of the search", "anchors": ["nodefinder/search/_controller.py:Controller.__init__", "nodefinder/search/_controller.py:Controller.check_dimensions", "nodefinder/search/_run.py:run_async", "nodefinder/search/_minimization/_nelder_mead.py:root_nelder_mead"]}
{"id": "C72", "title": "A search leaves nothing out", "statement": "When a search returns, every node lies within feature_size / 3 of a refined position, and every simplex of the initial mesh and every stencil simplex around each refined position has been dealt with: the result of a minimization that started from it is among the minimization results, or more than simplex_check_cutoff (and at least one) of its vertices are within feature_size / 3 of nodes of the result. This holds however often the search was killed and resumed from its save file; and at every moment before the end each such simplex is either dealt with in this sense or still queued or being minimized.", "quantifier": "every controller parameter set with a proper box, every distinct initial mesh and stencil, every outcome of every minimization, every schedule, every crash and restart history", "why_tests_cant": "Losing one simplex in a rare interleaving of completion, crash and resume leaves a hole in the exploration that no sampled run reveals: the result just has fewer nodes.", "anchors": ["nodefinder/search/_controller.py:Controller.run", "nodefinder/search/_controller.py:Controller.create_tasks", "nodefinder/search/_controller.py:Controller.check_simplex", "nodefinder/search/_controller.py:Controller.create_state", "nodefinder/search/_queue.py:SimplexQueue", "nodefinder/search/result/_search_result_container.py: SearchResultContainer"]}
{"id": "C73", "title": "The simplices of a minimization never degenerate", "statement": "Each simplex in the simplex_history has 1, 2, 1/2 or 1/2^dim times the volume of the one before, so the minimizer can never collapse onto a hyperplane by itself: if the initial simplex is non-degenerate, every simplex in the history is, in both steps of a minimization with fake potential. With the mesh (at least one point per direction) and the stencils that the library makes, this holds for all results of a search.", "quantifier": "every function (also impure, infinite or NaN values), initial simplex, option, order of equal values; every schedule, crash and restart of a search", "why_tests_cant": "Collapsing simplices is the classical failure of Nelder-Mead and depends on the sequence of moves; a wrong coefficient or a forgotten vertex shows up only for particular sequences.", "anchors": ["nodefinder/search/_minimization/_nelder_mead.py:root_nelder_mead", "nodefinder/search/_minimization/_run.py:run_minimization", "nodefinder/search/_mesh_helper.py", "nodefinder/search/refinement_stencil.py"]}
{"id": "C74", "title": "Rounding cannot push a position out of the table of cells", "statement": "In double precision (every operation rounded to nearest): adding any position to a SearchResultContainer never raises IndexError; the value is stored in exactly one existing cell, because the position is normalized first (without it there is a position for which storing raises). Looking up any position visits existing cells only. A stored position is never below the lower limit, but may equal the upper one. Neighbours whose distance is below dist_cutoff by a relative margin of 2^-40 are always in a visited cell (also when the position looked up is outside a non-periodic box, up to two lengths from its lower limits); without the margin they can be missed.", "quantifier": "every position, every box with floating-point limits (periodic or not), every number of cells, every rounding to nearest (ties in any way), exponents not bounded", "why_tests_cant": "rounding errors appear only at particular positions near the limits of the cells; there are 2^64 of them per dimension", "anchors": ["nodefinder/coordinate_system.py:CoordinateSystem.get_frac", "nodefinder/coordinate_system.py:CoordinateSystem.normalize_position", "nodefinder/search/result/_cell_list.py:CellList.get_index", "nodefinder/search/result/_search_result_container.py:SearchResultContainer.add_result"]}
{"id": "C75", "title": "The minimizer follows the Nelder-Mead rules", "statement": "Every minimization of a function without NaN is a sequence of num_iter simplices: the first one is the initial simplex with its vertices sorted by value; each of the others follows from the one before by the rules of Lagarias et al. (reflection, expansion, outside and inside contraction, shrinkage, with coefficients 1, 2, 1/2, 1/2, their acceptance conditions), followed by sorting. The reported position is the best vertex of the last simplex, and simplex_history is this sequence. Exactly one rule applies to every sorted simplex.", "quantifier": "every function (also with infinite values), initial simplex, dimension, option, and order of equal values", "why_tests_cant": "all functions and all sequences of steps", "anchors": ["nodefinder/search/_minimization/_nelder_mead.py:root_nelder_mead"]}
{"id": "C76", "title": "A saved search is read back as it was", "statement": "Saving the state or the result of a search with io.save works at any moment of the search, and io.load gives the same nodes, rejected results and refined positions in the same order, the same settings, the same queued positions, and the running simplices followed by the queued simplices, all queued. A search restarted from the file starts from exactly that state, also with different settings for the same box. A result that has not been stored yet is read back with all attributes. A state whose queued simplices have different numbers of vertices (a stencil that does not fit) cannot be saved.", "quantifier": "every state reachable by any interleaving of a search, every order in which the set of running simplices is iterated over, every dimension and settings", "why_tests_cant": "all histories of the search and all moments at which it may be saved; running tasks are visible to a save only at some interleavings", "anchors": ["nodefinder/io.py", "nodefinder/search/result/_controller_state.py:ControllerState", "nodefinder/search/result/_search_result_container.py:SearchResultContainer", "nodefinder/search/result/_minimization.py:JoinedMinimizationResult", "nodefinder/search/_queue.py:SimplexQueue.to_hdf5", "nodefinder/search/_queue.py:PositionQueue.from_hdf5", "nodefinder/coordinate_system.py:CoordinateSystem"]}
{"id": "C77", "title": "Identification results survive saving and loading", "statement": "Every result of identify.run can be saved with io.save. With a version of h5py that raises an AttributeError when a group is indexed with (), io.load gives back the coordinate system, the feature size, and the objects in the same order with the same positions, dimension, and shape (a line: the same nodes, edges, degree count and shape name). With any other exception (TypeError in h5py 3) no nonempty result can be loaded again.", "quantifier": "every list of positions, coordinate system, feature size, evaluation method, every outcome of the random choices, every order in which nodes and edges are written", "why_tests_cant": "all outcomes of the identification, and a dependence on the exception type of a library", "anchors": ["nodefinder/identify/result/_containers.py:IdentificationResult.from_hdf5", "nodefinder/identify/result/_containers.py:IdentificationResultContainer", "nodefinder/identify/result/_shapes.py:NodalLine", "nodefinder/identify/result/_shapes.py:NodalPoint"]}
{"id": "C78", "title": "Isolated nodal points are identified as points", "statement": "If the gap function is at most gap_threshold only within a distance r of a set of points, with 8 r at most feature_size, the points more than feature_size + 2 r apart and the box not smaller than feature_size, then identification of the result of a search (at any moment) raises nothing and gives only NodalPoints: one for each of these points that has been found, at a distance of at most r from it and made of exactly the found positions within r of it. In particular r = gap_threshold / k if the gap grows at least with slope k around these points. The same holds for positions passed directly to identification.", "quantifier": "every dimension, coordinate system, set of points, gap function, search parameters, number and order of minimizations, evaluation method, set iteration order and random choice", "why_tests_cant": "combines minimization, search, clustering, dimension and position of the identified point over all gap functions and all schedules", "anchors": ["nodefinder/identify/_run.py:run", "nodefinder/identify/_cluster.py:create_clusters", "nodefinder/identify/_dimension.py:calculate_dimension", "nodefinder/identify/_evaluate/_point.py:evaluate_point", "nodefinder/coordinate_system.py:CoordinateSystem.average", "nodefinder/search/_controller.py:Controller", "nodefinder/search/_minimization/_run.py: run_minimization"]}
{"id": "C79", "title": "The choice of coordinates and units does not matter", "statement": "root_nelder_mead and run_minimization give, in other coordinates (other order, direction, origin and unit of the coordinates, other unit of the gap; with xtol, ftol and fprime_cutoff converted), the same evaluations, success, status and counts, and the converted position, value and history. A search with limits, gap_threshold, feature_size (and the given minimizer options) converted to another origin, unit of length and unit of the gap can do exactly the same things in the new units: same mesh, same order of minimizations, same decisions, same save files, and so the same nodes. For a periodic gap function, starting from another periodic image of a simplex gives the same node.", "quantifier": "every dimension, gap function (pure or not), simplex, options, change of coordinates; every sequence of steps, crash and restart of a search", "why_tests_cant": "a relation between two executions, for all functions, schedules and changes of units", "anchors": ["nodefinder/search/_minimization/_nelder_mead.py:root_nelder_mead", "nodefinder/search/_minimization/_run.py:run_minimization", "nodefinder/search/_controller.py:Controller", "nodefinder/search/_mesh_helper.py:_generate_mesh_simplices", "nodefinder/coordinate_system.py:CoordinateSystem", "nodefinder/search/_fake_potential.py:FakePotential"]}
{"id": "C80", "title": "Plots of the search show all of it, once", "statement": "In two or three dimensions: `points` adds one dot per node, at its position, with the colour of its value; `simplices` draws every edge of every simplex in the histories of the given nodes exactly once; `stencil` draws every edge of every simplex exactly once, the origin and the unit circle or sphere unless switched off, and its limits are the range of the vertices. A figure is returned exactly if no axes were given, what was on given axes stays. In a periodic search all nodes are inside of the limits of the plot. In other dimensions every plot function raises an AssertionError and draws nothing.", "quantifier": "all containers, histories, stencils, settings and axes; all reachable states for the visibility", "why_tests_cant": "a few examples cannot show that no point, simplex or edge is ever left out or drawn twice", "anchors": ["nodefinder/search/plot.py: points, simplices, stencil, _plot_simplex", "nodefinder/_common_plot.py: _setup_plot"]}
{"id": "C81", "title": "The plot of the identification shows every object", "statement": "In two or three dimensions, every result of `identify.run_from_positions` can be plotted without an exception. The i-th object is drawn in the i-th colour of the cycle: a cluster without shape as dots at all of its positions, a point as a dot, a line as paths which contain each of its edges (except those longer than twice the feature size, which cross the boundary) exactly once. All of it is inside of the limits if the positions are, except points in a periodic space with a non-zero lower limit.", "quantifier": "all identification results, axes and orders of graph traversal", "why_tests_cant": "quantifies over all graphs, and all orders in which networkx may list nodes and neighbours", "anchors": ["nodefinder/identify/plot.py: result, nodal_point, nodal_line, _plot_positions", "nodefinder/_common_plot.py: _setup_plot"]}
{"id": "C82", "title": "The identification does not depend on the units", "statement": "If all positions and limits are expressed with another origin and another unit of length (and the feature size, if given, in the new unit), `identify.run` and `run_from_positions` can give exactly the corresponding results: the same exception, or the same clusters in the same order, with the same dimensions and kinds of shapes, lines with the same edges between the moved positions, and points at the same place (up to a lattice vector in a periodic space). Nothing depends on an absolute length.", "quantifier": "all positions, limits, feature sizes, methods, search results, changes of origin and unit; every random choice and order of sets", "why_tests_cant": "a relation between two randomised executions, for all inputs and all changes of units", "anchors": ["nodefinder/identify/_run.py:run", "nodefinder/identify/_run.py:run_from_positions", "nodefinder/identify/_dimension.py:calculate_dimension", "nodefinder/identify/_evaluate"]}
{"id": "C83", "title": "In a periodic space the identification does not depend on where the box begins", "statement": "In a periodic space, if all positions are moved by the same vector and then each is replaced by any of its images (in or outside of the box), the possible results of `run_from_positions` are exactly the corresponding ones: same clusters, dimensions, lines between the moved positions, points moved by the same vector (up to a lattice vector). So a node on the boundary is treated like any other one, and positions need not be inside of the limits.", "quantifier": "all periodic boxes, positions, vectors, choices of images (different positions to different ones), feature sizes, methods; every random choice", "why_tests_cant": "a relation between two randomised executions, for all inputs and lattice vectors", "anchors": ["nodefinder/identify/_run.py:run_from_positions", "nodefinder/coordinate_system.py:CoordinateSystem.connecting_vector", "nodefinder/coordinate_system.py:CoordinateSystem.average"]}
{"id": "C84", "title": "In a non-periodic space the identification does not depend on the orientation", "statement": "Without periodic boundaries, if the positions are rotated, reflected, translated or scaled (by any map that multiplies all distances by one factor, with the feature size scaled in the same way), the possible results of `run_from_positions` are exactly the corresponding ones, and points are moved by the same map. The limits do not matter.", "quantifier": "all positions, limits, feature sizes, methods and similarity transformations of the space; every random choice", "why_tests_cant": "a relation between two randomised executions, for all inputs and motions", "anchors": ["nodefinder/identify/_run.py:run_from_positions", "nodefinder/identify/_dimension.py:_get_volume", "nodefinder/identify/_evaluate/_line/_ballistic.py:get_next_pos"]}
{"id": "C85", "title": "In one dimension a minimization that starts in a valley finds its bottom", "statement": "For a function of one variable that falls strictly up to a point `m` and rises strictly from there on, as far as some distance `W` (it may do anything outside, in particular be infinite or NaN), a minimization that starts from two points with four times (distance from `m` plus their distance) at most `W` either is stopped by a limit or ends at most `2 * xtol` from `m`. If `ftol` is met near `m` and the limits are at least logarithmic in the size of the start over the tolerance (the default limits suffice for a ratio of 2^31), it does end successfully. The same holds for the two runs with and without a fake potential that is zero in the valley.", "quantifier": "all strictly unimodal functions, starting points, tolerances and limits; every order in which numpy sorts equal values", "why_tests_cant": "convergence for every function and starting simplex; a test checks one function", "anchors": ["nodefinder/search/_minimization/_nelder_mead.py:root_nelder_mead", "nodefinder/search/_minimization/_run.py:run_minimization"]}
{"id": "C86", "title": "A one-dimensional search finds a node in every valley that is wide compared to the mesh", "statement": "Let the gap function of a one-dimensional search (interval or circle) have a valley: around some m it is strictly falling, then strictly rising, on a width of six mesh spacings plus feature_size to both sides; it is below gap_threshold within feature_size/50 of m and varies by at most gap_threshold/20 within some distance 3*delta of it. Then, with the default minimizer options, whenever the search returns, its result has a node in that valley (up to a lattice vector), where the gap is at most gap_threshold. This holds with and without the fake potential, for every schedule, and after any crashes and restarts. In any dimension: when a search returns, every simplex of the initial mesh and every stencil simplex around a refined position has been minimized, or skipped because enough of its vertices are near nodes, and the fake potential which its minimization saw was zero except near nodes of the result.", "quantifier": "every one-dimensional gap function with such a valley (values elsewhere may be anything, NaN and infinity included), every mesh size, interval, threshold and feature size; every schedule, crash point and history; every fake potential consistent with the nodes found so far", "why_tests_cant": "the guarantee quantifies over a function space, all schedules and crash histories, and over runs of the minimizer of unbounded length", "anchors": ["nodefinder/search/_controller.py: Controller.create_tasks, run_simplex, _check_simplex, process_result", "nodefinder/search/_fake_potential.py: FakePotential", "nodefinder/search/_minimization/_run.py: run_minimization", "nodefinder/search/_minimization/_nelder_mead.py: root_nelder_mead", "nodefinder/search/_mesh_helper.py"]}
{"id": "C87", "title": "A search can be completed after any history", "statement": "A search with a refinement stencil and num_minimize_parallel >= 1 that is periodic, or whose gap function is above gap_threshold outside a bounded region, has no dead ends: after any history of scheduling, exceptions of the gap function, failed saves, crashes and restarts, there is a continuation in which the search (restarted from its save file if it has been interrupted) returns a result; if it is running and no minimization has failed then no restart is needed. In terms of search.run: this holds in every dimension, for every gap function (periodic) or every such gap function (not periodic) and initial mesh, with the 'auto' stencil, with or without rechecking.", "quantifier": "all parameters of a periodic search, all gap functions, all histories (schedules, exceptions, failed saves, crash points, restarts)", "why_tests_cant": "a dead end may need a particular history, of any length; its absence is a statement about all histories and the existence of a continuation for each of them", "anchors": ["nodefinder/search/_controller.py: Controller.run, create_tasks, run_simplex, save, create_state", "nodefinder/search/_run.py: run"]}
{"id": "C88", "title": "In one dimension, search and identification together find the minima exactly", "statement": "Let the gap function on an interval or a circle be at most gap_threshold only within r of the points of a set Z, whose points are farther apart than feature_size + 2 r, with 8 r <= feature_size <= length; and at each point of Z let it have a minimum that the mesh cannot miss (a valley of width at least six mesh spacings plus feature_size, below the threshold near its bottom and flat there on some scale). When a search with the default minimizer options returns, whatever the schedule, crashes and restarts, and identify.run is called with its result, with any method for lines, the identification does not raise and its results are in one-to-one correspondence with Z: each is a point (dimension 0) within r of its partner.", "quantifier": "every gap function of one variable with these properties (any number of minima, any values elsewhere, including NaN and infinity), all intervals, circles, mesh sizes, thresholds, feature sizes; all schedules, crash points and histories; all random choices of the identification; every method", "why_tests_cant": "a test checks one gap function and one schedule; that no minimum is missed and none is counted twice is a statement about a space of functions, all schedules and all random choices", "anchors": ["nodefinder/search/_run.py: run", "nodefinder/search/_controller.py", "nodefinder/search/_minimization/_run.py: run_minimization", "nodefinder/identify/_run.py: run", "nodefinder/identify/_cluster.py: create_clusters", "nodefinder/identify/_dimension.py: calculate_dimension", "nodefinder/identify/_evaluate/_point.py"]}
{"id": "C89", "title": "Beyond one dimension, success of a minimization does not mean that a minimum has been found", "statement": "There are a strictly convex function of two variables, with minimum 0 (attained at one point only), and an initial simplex such that root_nelder_mead, with any tolerances, limits and derivative cutoff, returns the position (0, 0) with value 1/4, although the minimum is at distance 1/2. Every iteration is an inside contraction, so that (without a derivative cutoff) success is reported as soon as the limits allow; with xtol = ftol = 1e-10 the default limits suffice. run_minimization with the fake potential of a search that has found nothing yet returns the same position and value: the second run from the enlarged simplex does not help. So the guarantee of C88 for one dimension has no counterpart in two.", "quantifier": "all parameters of the minimizer: tolerances, limits, derivative cutoff, keep_history; every way numpy may order equal values", "why_tests_cant": "a test run with one set of tolerances cannot show that no tolerance and no limit helps; the iterates converge geometrically to a point that is not a minimum, for all iterations", "anchors": ["nodefinder/search/_minimization/_nelder_mead.py: root_nelder_mead", "nodefinder/search/_minimization/_run.py: run_minimization"]}
{"id": "C90", "title": "A nearly straight nodal line is identified as an open line", "statement": "If the positions lie on a curve of slope less than one against some direction, and no step between near positions is wrapped around the box, then identify.run_from_positions with the method 'ballistic' (the default of identify.run) gives, for every cluster of dimension 1, a NodalLine named 'open line': its nodes are positions that can be listed in this direction such that the edges go from one to the next, no edge is longer than feature_size, and every position of the cluster is within feature_size of a node. If the slope is at most 0.07 and the positions are more than feature_size / 4 apart (for example: they are within feature_size / 120 of a straight line), then moreover the dimension is right: the identification raises nothing, every single position becomes a point and every chain of at least two becomes an open line of dimension 1.", "quantifier": "every number of dimensions, box (periodic or not), feature_size, direction and list of positions with these properties; all random choices (shuffles, samples, starting nodes, ties)", "why_tests_cant": "a test identifies a few lines with one random seed; that no order of the positions, no random sample and no choice among equally good continuations makes the method turn back, branch or close the line is a statement about all of them", "anchors": ["nodefinder/identify/_run.py: run_from_positions", "nodefinder/identify/_dimension.py: calculate_dimension, _has_dimension", "nodefinder/identify/_evaluate/_line/_ballistic.py", "nodefinder/identify/result/_shapes.py: NodalLine.shape_name"]}
{"id": "C91", "title": "A closed nodal line is identified as exactly one closed loop that goes round once", "statement": "Identification with the default method `ballistic`, on positions that sample a closed line well: (a) a line through the periodic box along one of its axes, of slope at most 0.07, such that at every height there is a position within a third of feature_size, and with a box larger than three times feature_size; or (b) a ring: positions within feature_size/240 of a circle in any plane, of radius at least ten times feature_size, such that within a third of feature_size of every point of the circle there is a position, and that does not cross the boundary of the box. If in addition different positions are more than a quarter of feature_size from each other, then whatever the random choices nothing is raised, and the result consists of exactly one object, of dimension one, which contains all positions and whose shape is a line named a closed loop: its nodes are positions, its edges join each to the next and the last to the first, going forward all the way, and it goes round exactly once (it neither stops, nor turns back, nor overshoots the start, nor goes round a second time); no edge is longer than feature_size and every position is within feature_size of a node of the loop.", "quantifier": "all dimensions of space, boxes, feature sizes, numbers and orders of positions, all closed lines as described, all outcomes of the random choices (start node, sampled neighbourhoods, sampled simplices) and all ties", "why_tests_cant": "a test identifies one sampled circle with one random seed; here the loop must close exactly at its start from any start node, in either direction, for every placement of the positions", "anchors": ["nodefinder/identify/_run.py: run_from_positions", "nodefinder/identify/_cluster.py: create_clusters", "nodefinder/identify/_dimension.py: calculate_dimension, _has_dimension", "nodefinder/identify/_evaluate/_line/_ballistic.py", "nodefinder/identify/result/_shapes.py: NodalLine.shape_name"]}
{"id": "C92", "title": "Refinements happen around nodes only", "statement": "Every position around which a search refines, and every position that waits for a refinement, is the (normalized) position of a node the search has found; this holds at every moment, for every gap function, schedule, crash and restart.", "quantifier": "every gap function, schedule and history of crashes and restarts", "why_tests_cant": "a stray refinement would show up only in particular schedules or after particular crashes", "anchors": ["nodefinder/search/_controller.py: Controller.create_tasks", "nodefinder/search/_controller.py: Controller.process_result", "nodefinder/search/result/_search_result_container.py: SearchResultContainer"]}
{"id": "C93", "title": "A search in unbounded space does a bounded amount of work if the gap is large far away, and may go on forever if not", "statement": "If periodic=False and outside a bounded region the gap function returns no value <= gap_threshold, then nodes are found only in this region and the number of refinements and of minimizations per session is bounded by a number depending only on the region, feature_size, the recheck settings, the mesh and the stencil, whatever the schedule, crashes and restarts; with num_minimize_parallel >= 1 no fair execution goes on forever, with or without rechecking. Without this condition it may: for the gap function that is 0 everywhere there is a search that satisfies all other conditions with a fair execution that never ends and refines at ever more positions.", "quantifier": "every gap function with this property, schedule and history of crashes and restarts", "why_tests_cant": "termination cannot be tested, and a runaway search only shows up as a test that never ends", "anchors": ["nodefinder/search/_controller.py: Controller.create_tasks", "nodefinder/search/_controller.py: Controller._check_pos_refinement", "nodefinder/search/_run.py: run"]}
{"id": "C94", "title": "The shortest-path method keeps a nearly straight line free of branches", "statement": "If the positions lie on a curve of slope less than one against some direction, and no step between near positions is wrapped around the box, then identify.run_from_positions with the method 'shortest_path' gives, for every cluster of dimension 1, a NodalLine whose nodes are positions that can be listed in this direction such that the edges go from one to the next: no branches, no detours, no double lines, although the method looks for up to twenty paths between every pair of start and end. No edge is longer than feature_size, and every position is within feature_size of a node. If two positions of the cluster are more than twice feature_size apart, the line is named 'open line'. If all positions of a cluster of dimension 1 are within feature_size of each other (whatever their arrangement), the result is a single node without edges of unknown shape, where 'ballistic' gives an open line. With slope at most 0.07 and positions more than feature_size / 4 apart the identification raises nothing, single positions become points and every chain of two or more has dimension 1 and such a line.", "quantifier": "every number of dimensions, box (periodic or not), feature_size > 0, direction and list of positions with these properties; all choices of first and end positions, orders of iteration over sets and shortest paths among equal ones", "why_tests_cant": "a test identifies a few lines with one order of the sets; that no order makes the changing weights (zero on found edges, a tenth at the ends) prefer a detour, and that after a path has been removed none remains, is a statement about all runs", "anchors": ["nodefinder/identify/_evaluate/_line/_shortest_path.py: _evaluate_line_shortest_path, _update_degree_one_nodes, _update_high_degree_nodes", "nodefinder/identify/_run.py: run_from_positions", "nodefinder/identify/result/_shapes.py: NodalLine.shape_name"]}
{"id": "C95", "title": "The shortest-path method never finds small closed loops", "statement": "If any two positions of a cluster of dimension 1 can be connected by at most four steps from position to position of the cluster, none longer than feature_size (and different positions have positive distance), then identify.run_from_positions with the method 'shortest_path' gives a NodalLine whose graph contains no closed loop (no three or more different nodes each joined to the next and the last to the first), so that it is not named 'closed loop' either, whatever the arrangement of the positions. In particular the methods disagree: there are positions (a line round a periodic box) for which 'ballistic' always gives one object of dimension 1 with the shape 'closed loop', and 'shortest_path' always gives one object of dimension 1 without any closed loop.", "quantifier": "every number of dimensions, box (periodic or not), feature_size > 0 and list of positions; every cluster of dimension 1 with this property; all choices of first and end positions, orders of iteration over sets and shortest paths among equal ones", "why_tests_cant": "a test sees the outcome of one order of the sets on a few clusters; that no sequence of end positions, start positions, changed weights and shortest paths among equal ones can close a loop is an invariant over all runs and all graphs", "anchors": ["nodefinder/identify/_evaluate/_line/_shortest_path.py: _evaluate_line_shortest_path, _update_neighbour_weights", "nodefinder/identify/_run.py: run_from_positions", "nodefinder/identify/result/_shapes.py: NodalLine.shape_name"]}
{"id": "C96", "title": "The shortest-path method identifies large closed nodal lines as one closed loop", "statement": "Positions sampled from a closed nodal line without gaps (a line through a periodic box longer than eighteen feature sizes along it, or a ring of radius at least ten feature sizes) are identified by `run_from_positions` with its default method `shortest_path` as exactly one object of dimension one, which is a closed loop that goes round exactly once, through positions, with no edge longer than `feature_size`, and with every position within `feature_size` of the loop; nothing is raised. This complements C95: small loops are never found, large ones always are.", "quantifier": "all dimensions, boxes, feature sizes, slopes up to 0.07, radii of at least ten feature sizes, planes of the ring, numbers and placements of positions within the conditions, and every order in which sets are iterated over / random start", "why_tests_cant": "The method adds paths one after the other from random starts, removes nodes round the path, and re-weights edges; whether two arms from opposite sides meet and close up once, without leaving a spur, a second loop or an open gap, depends on all intermediate states; tests sample a few rings and a few seeds.", "anchors": ["nodefinder/identify/_run.py: run_from_positions", "nodefinder/identify/_evaluate/_line/_shortest_path.py: _evaluate_line_shortest_path", "nodefinder/identify/_cluster.py: create_clusters"]}
{"id": "C97", "title": "Rounding errors cannot change distances, shortest vectors or clusters noticeably", "statement": "In floating-point arithmetic, with every operation rounded to nearest and the squares summed in any order, `CoordinateSystem.distance` is correct up to 2(d+10)·2^-53 times the diagonal of a periodic box, and up to a relative error of 2(d+2)·2^-53 without periodicity. The clusters of `create_clusters` are exactly those of exact arithmetic unless some pair of positions has a distance within that error of feature_size. `connecting_vector` returns a vector to an image of the second position that is shortest up to 16·2^-53 box sizes, and its built-in assertion holds if (2d+36) diagonals plus the length of the first position are at most 9·10^7; in a box of length 2^31 the assertion can fail for positions inside the box, and the identification then raises AssertionError.", "quantifier": "all dimensions d (with (d+1)·2^-53 ≤ 1/2), all boxes, all pairs of positions within a few box sizes, all roundings to nearest with any treatment of ties, all orders of summation, all lists of positions and feature sizes", "why_tests_cant": "rounding errors depend on every bit of the input; a test sees a few positions and one order of summation, and the failing assertion needs coordinates of unusual size", "anchors": ["nodefinder/coordinate_system.py: CoordinateSystem.distance", "nodefinder/coordinate_system.py: CoordinateSystem.connecting_vector", "nodefinder/identify/_cluster.py: create_clusters", "nodefinder/identify/_cluster.py: _create_graph"]}
{"id": "C98", "title": "How the identified dimension depends on chance", "statement": "identify.run_from_positions decides the dimension of a cluster by random choices: the order of the positions, and which tuples of neighbours are looked at. (1) For a cluster of at most six positions these choices make no difference: two calls with the same positions (in any order, with either evaluation method for lines) report the same cluster with the same dimension. (2) Six is the best possible: there are seven positions, forming one cluster, which may be reported as a line or as having no dimension; nine which may be reported as a point or as a line; and 64 which fill a piece of a plane evenly and may be reported as a line or as a plane. (3) Comparing the average over all tuples of neighbours with the limit is always one of the possible outcomes of the test for a dimension. (4) If there are as many tuples of one and the same volume as the minimum number of evaluations, and others, the test can be decided by these alone.", "quantifier": "every box, feature size, list of positions, and pair of possible runs (every order of iteration, shuffling and sampling); (2) exhibits inputs and runs", "why_tests_cant": "The random choices are not seeded; a test observes one outcome per run, and the exceptional ones are very unlikely.", "anchors": ["nodefinder/identify/_dimension.py: calculate_dimension, _check_count, _get_dimension, _has_dimension, _get_volume", "nodefinder/identify/_run.py: run_from_positions"]}
{"id": "C99", "title": "The names and the directions of the axes do not matter for the identification", "statement": "identify.run_from_positions treats all axes alike. (1) With the coordinates of the positions and the sides of the box in another order, exactly the same results are possible, in the new coordinates: the same clusters, dimensions, lines, and points. (2) If some coordinates are counted from the other end of the box, exactly the same results are possible, mirrored (points up to whole box lengths), provided that in a periodic box no two positions are an odd number of half box lengths apart in such a coordinate. (3) The exception is needed: for three positions in a periodic interval, two of them half its length apart, the mirrored positions can give a point which is not the mirror image of any point the original ones can give.", "quantifier": "every box (periodic or not), list of positions, feature size, method, permutation of the axes, set of mirrored axes, and possible run", "why_tests_cant": "A relation between all possible outcomes of two calls, for all inputs and random choices.", "anchors": ["nodefinder/identify/_run.py: run_from_positions", "nodefinder/coordinate_system.py: distance, connecting_vector, average", "nodefinder/identify/_dimension.py: calculate_dimension"]}
{"id": "C100", "title": "The clusters are the connected pieces of the nodal set", "statement": "If the nodal set consists of connected pieces, any two of them more than feature_size plus twice the tolerance apart, every position is within the tolerance of the set and every point of the set has a position within R, where 2R < feature_size, then the identification (any method, whatever the random choices) gives exactly one result for each piece, and this result consists of exactly the positions near the piece. The same for the nodes found by a search. It fails if a piece is sampled too sparsely (it is split) and if two pieces are within feature_size (they are merged).", "quantifier": "all families of connected sets (finite or infinite, of any dimension and topology), coordinate systems, feature sizes, tolerances, position lists, methods, random choices; all reachable search states", "why_tests_cant": "Connected sets of the continuum and all samplings of them: a test has one set and one sampling.", "anchors": ["nodefinder/identify/_cluster.py: create_clusters", "nodefinder/identify/_run.py: run, run_from_positions", "nodefinder/search/_run.py: run_async"]}
{"id": "C101", "title": "The identification is local, and more positions only merge its results", "statement": "If the positions are in two parts, no position of the one within feature_size of one of the other, then the possible results of the identification are exactly the possible results of the two parts put together: every result splits into results of the parts, and any two results of the parts make up a result. Each result is what the identification of its positions alone can give. With more positions or a larger feature_size results are only extended and merged, never split; so an identification of the intermediate state of a search is refined, not contradicted, by one of a later state. It fails for parts which come within feature_size of each other.", "quantifier": "all position lists, coordinate systems, feature sizes, methods, random choices and set iteration orders; all reachable states of a search and all their continuations", "why_tests_cant": "All pairs of parts, all random choices and all continuations of a search; a test has one of each.", "anchors": ["nodefinder/identify/_cluster.py: create_clusters, _create_graph", "nodefinder/identify/_run.py: run, run_from_positions", "nodefinder/search/_controller.py: Controller"]}
{"id": "C102", "title": "The guarantees of a minimization survive rounding", "statement": "Also in double precision arithmetic, where every operation rounds and sums may be taken in any order: the value that root_nelder_mead reports (unless NaN) is what the function returned in a call with exactly the reported position, at most that of every initial vertex, and the least of all values if none is NaN; the best value never increases in the history; success means that the last simplex has an extent of at most xtol and its values differ by at most ftol, up to a relative error of 2^-52; status, counts, limits and histories are as without rounding; every evaluated position consists of floats and lies within a few ulp (relative to the size of the coordinates) of the exactly computed trial point of a simplex of floats; the derivative cutoff decides correctly up to a relative error of 2(d+4)*2^-53; run_minimization reports the true function's value, without the fake potential; so every node of a search has a gap of at most gap_threshold. Without rounding errors this is the exact minimizer. But with rounding a simplex can collapse to one point, and be reported as converged for zero tolerances, which is impossible in exact arithmetic.", "quantifier": "all roundings to nearest (ties arbitrary), all orders of summation, all dimensions, functions (also impure, NaN, infinite), initial simplices, tolerances, limits, cutoffs, fake potentials, orders of equal values; all reachable states of a search", "why_tests_cant": "rounding errors depend on every operand; a test sees a few of 2^64 numbers per coordinate and one order of summation", "anchors": ["nodefinder/search/_minimization/_nelder_mead.py: root_nelder_mead", "nodefinder/search/_minimization/_nelder_mead.py: _get_fprime_estimate", "nodefinder/search/_minimization/_run.py: run_minimization", "nodefinder/search/_controller.py: Controller.process_result"]}
{"id": "C103", "title": "A search does its job also in double precision", "statement": "With all arithmetic of the search in double precision (normalizing positions, cells of the cell lists, distances, dist_cutoff, adding the refinement stencil; every operation rounds, sums in any order): a search, also after any number of crashes and restarts, raises nothing but exceptions of the gap function and of save (no IndexError of a cell list, no KeyError of a queue, no TypeError); no result is lost, invented or computed twice; when it returns, nothing is left to do. Each result has the value and success of a minimization, and its normalized position up to a drift of a few ulp per restart; nodes are exactly the successful results with a value of at most gap_threshold, and such a value was returned by the gap function. Refinement centres are at least dist_cutoff apart, less an error of 8(dim+10) ulp of the diagonal of the box (with rechecking); when a search with a stencil returns, every node is nearer than dist_cutoff plus that error (plus the drift of the restarts) to a centre; so the numbers of centres and of minimizations are bounded, and every fair execution ends. Without rounding errors this is the search of the exact model. The simplices of the stencil must remain different after they have been moved and rounded, which holds if their vertices are further apart than the rounding of positions near the box.", "quantifier": "all roundings to nearest (ties arbitrary), all distances that they allow, all dimensions, boxes of floats, parameters, minimization outcomes, schedules, failures, save failures, crash points and numbers of restarts", "why_tests_cant": "rounding errors depend on every operand and decide at the boundaries of cells and at dist_cutoff; schedules, outcomes and restarts are unbounded", "anchors": ["nodefinder/search/_controller.py: Controller", "nodefinder/search/result/_search_result_container.py: SearchResultContainer", "nodefinder/search/result/_cell_list.py: CellList", "nodefinder/coordinate_system.py: CoordinateSystem"]}
{"id": "C104", "title": "The set-up of a search is right also in double precision", "statement": "In double precision (every operation rounded to nearest), the initial mesh that search.run makes has the right number of simplices, agrees with the exact mesh up to (2 |lower| + 16 (upper - lower)) / 2^53 per coordinate, has its first vertices inside the limits and contains the corners exactly; if the mesh is not finer than that, no simplex is degenerate and no two are the same, and every point of the box lies within one mesh spacing of one. The 'auto' stencil, scaled and moved to a position, keeps its simplices apart; tolerances are feature_size / 100 and gap_threshold / 20 up to rounding. Hence the conditions of C103 are met, in particular with the default arguments: then the search raises only exceptions of the gap function, ends, and when it returns every node is nearer than 0.000667 + 2e-15 per restart to a refinement centre.", "quantifier": "all limits that are floats, all mesh sizes, all options, every rounding to nearest, every array for the circle or sphere stencil that is right up to 1/1000, every gap function and schedule", "why_tests_cant": "tests check a mesh for a few limits with approximate equality; they cannot show that for no limits and mesh size a rounded mesh point leaves the box, or coincides with another, or that the stencil never collapses at any of the positions a search may refine", "anchors": ["nodefinder/search/_mesh_helper.py: _generate_mesh_simplices", "nodefinder/search/_controller.py: Controller", "nodefinder/search/refinement_stencil.py: get_auto_stencil", "nodefinder/search/refinement_stencil.py: get_mesh_stencil", "nodefinder/search/_run.py: run"]}
{"id": "C105", "title": "In one dimension a minimization that starts in a valley finds its bottom also in double precision, and with noise in the function", "statement": "In double precision (every operation rounded to nearest), for a function of one variable that falls up to a point m and rises from there on, where this is seen only at points more than a noise length eta apart (eta at least (|m| + W) / 2^48; nearer points may be in any order, and outside of distance W the function may do anything), a minimization that starts from two floats at most R from m and from each other, with 5 R + 46 eta <= W and farther apart than xtol + eta and 4 eta, either is stopped by a limit or ends at most 2 * xtol + 22 * eta from m. If xtol is well above the noise (107 eta), ftol is met near m and the limits are logarithmic in the size of the start over the tolerance, it ends successfully; with a fake potential that is zero in the valley as well, then at most 2 * xtol + 150 * eta from m.", "quantifier": "all functions that are unimodal up to noise, starting points, tolerances and limits; every rounding to nearest; every order in which numpy sorts equal values", "why_tests_cant": "the rounding and the noise can make any comparison near the bottom come out wrong; that no sequence of wrong comparisons leads a run astray or makes it collapse away from the minimum is a claim about all of them", "anchors": ["nodefinder/search/_minimization/_nelder_mead.py: root_nelder_mead", "nodefinder/search/_minimization/_run.py: run_minimization"]}
{"id": "C106", "title": "In double precision, too, a one-dimensional search finds a node in every valley that is wide compared to the mesh", "statement": "As C86, with all arithmetic of the search and of the minimizations rounded to nearest, and for gap functions that are themselves computed with rounding: let the computed gap function of a one-dimensional search have a valley of half-width W around m, in which values more than eta apart decrease towards m (nothing is said about nearer points), with W at least 11 mesh spacings plus feature_size, values not above gap_threshold within feature_size/30 of m and varying by at most gap_threshold/21 within some 4*delta >= 400*eta of it. Then, with the default minimizer options, whenever the search returns after k restarts, it has a node no farther from m than W + feature_size/2 + k * (6 length + |lower|)/2^53, whose value is one the gap function has taken, at that position up to k such drifts, and is at most gap_threshold. This holds for every schedule, with and without the fake potential, and after crashes and restarts.", "quantifier": "every rounding to nearest, order of summation, sorting order of equal values, box with floating-point limits, mesh, gap function with such a valley, schedule, history of exceptions, failed saves, crashes and restarts", "why_tests_cant": "rounding errors depend on the values; the claim is about all schedules and restarts of a search", "anchors": ["nodefinder/search/_controller.py: Controller.run", "nodefinder/search/_controller.py: Controller.run_simplex", "nodefinder/search/_minimization/_nelder_mead.py: root_nelder_mead", "nodefinder/search/_minimization/_run.py: run_minimization", "nodefinder/search/_run.py: run"]}
{"id": "C107", "title": "The fake potential in double precision", "statement": "With all arithmetic rounded to nearest, FakePotential(pos) with the width feature_size/3 of the search is 0 or inf for every pos up to two lengths of the box from its lower limits: inf if some node not exactly at pos is nearer than feature_size/3*(1 - 2^-39) minus the error of a distance (8 (dim + 10)/2^53 diagonals), and only if some node not exactly at pos is nearer than feature_size/3*(1 + 2^-52) plus that error; whatever the order in which the squares of a distance are added (it may differ between a single position and an array of them). If it is evaluated at different points in time, it is 0 except where the computed distance to a node known at the end is below the cutoff.", "quantifier": "every state a search can reach (schedules, exceptions, crashes, restarts), every position in that region, every rounding to nearest and order of summation", "why_tests_cant": "rounding errors near the cutoff and at cell boundaries appear at particular positions only", "anchors": ["nodefinder/search/_fake_potential.py: FakePotential.__call__", "nodefinder/search/result/_search_result_container.py: SearchResultContainer.get_all_neighbour_distances", "nodefinder/coordinate_system.py: CoordinateSystem.distance"]}
{"id": "C108", "title": "In double precision, too, a search can be completed after any history", "statement": "With all arithmetic rounded to nearest, a periodic search with the 'auto' stencil, recheck_pos_dist and num_minimize_parallel >= 1, in any dimension and for any gap function, has no dead ends: after any history of scheduling, exceptions of the gap function, failed saves, crashes and restarts it can be started again from its save file (this does not raise) and then go on, without further restarts, until it returns; if it is running and no minimization has failed it can go on without being restarted. In particular the search with the default arguments returns for every gap function.", "quantifier": "every rounding to nearest, order of summation, box with floating-point limits, mesh that is not finer than the rounding, gap function and history", "why_tests_cant": "the claim is about all histories and needs a termination argument with rounding (a packing bound)", "anchors": ["nodefinder/search/_controller.py: Controller.run", "nodefinder/search/_controller.py: Controller.create_tasks", "nodefinder/search/_controller.py: Controller.create_state", "nodefinder/search/_run.py: run"]}
{"id": "C109", "title": "Averages and nodal points in double precision", "statement": "Computed in IEEE double precision, `CoordinateSystem.average` of a cluster that fits in half of a periodic box is the mean of the cluster moved together, up to a lattice vector and a few units in the last place per position, in whatever order the sums are taken, and so is the position of the `NodalPoint` of a cluster; its coordinates are between 0 and the size of the box, and the size itself can be returned. Without periodic boundaries it is the mean up to such an error. `get_pos` is correct up to a few units in the last place. The assertion in `connecting_vector` never interferes for moderate boxes and positions.", "quantifier": "every rounding to nearest, dimension, proper box, non-empty list of positions (up to 2⁴⁶ of them), order and bracketing of the sums", "why_tests_cant": "The error depends on the rounding of every operation, on the order of the summation, and on which side of the box the cluster is; unit tests compare a few averages with a tolerance, and in exact cases.", "anchors": ["nodefinder/coordinate_system.py: average", "nodefinder/coordinate_system.py: get_pos", "nodefinder/identify/_evaluate/_point.py: _evaluate_point"]}
{"id": "C110", "title": "The number of evaluations of the gap function is bounded by the settings", "statement": "Every result of a minimization reports between d + 1 and 2 (maxfev + d + 1) evaluations of the gap function (maxfev is 200 d by default). At any time, over all sessions of a search together, the results and the simplices that are still to be minimized are at most as many as the mesh has simplices, plus the size of the stencil for each refinement; so the evaluations reported by all results are at most 2 (maxfev + d + 1) times that number and at least d + 1 for each result. For a periodic search with rechecking (or one in unbounded space whose gap function is above the threshold outside a box) this is a number that depends on the settings only; for the default settings it is 1208 (1000 + 30 * 6001^3). The same holds when all arithmetic is rounded.", "quantifier": "all dimensions, settings, gap functions (which may depend on the call), schedules, crash points and numbers of restarts (without force_initial_mesh)", "why_tests_cant": "The total cost depends on the gap function, on the schedule and on crashes, and the bound has to hold for all of them; a test counts the calls of one run.", "anchors": ["nodefinder/search/_controller.py: Controller", "nodefinder/search/_minimization/_nelder_mead.py: root_nelder_mead", "nodefinder/search/_fake_potential.py: FakePotential", "nodefinder/search/_minimization/_run.py: run_minimization", "nodefinder/search/result/_search_result_container.py: SearchResultContainer"]}
{"id": "C111", "title": "Identification is stable: two samples of the same nodes give the same objects", "statement": "If each position of one list is within eps of a position of another list and vice versa (periodic distance in a periodic box; the lists may have different lengths), 2 eps is at most feature_size, and no two positions of the first list have a distance between feature_size - 2 eps and feature_size + 2 eps, then identification of both lists gives the same objects: the results correspond one to one and positions within eps of each other are in corresponding results, whatever methods are used and whatever the iteration order of the sets; nodal points of corresponding results are near each other. The same for the nodes of two searches. The condition is needed: two positions exactly feature_size apart are one object, and two objects when one is moved away by any amount.", "quantifier": "all boxes, lists of positions, tolerances, methods and set orders", "why_tests_cant": "Needs all pairs of samples of all node sets; a test compares two runs.", "anchors": ["nodefinder/identify/_run.py: run_from_positions", "nodefinder/identify/_cluster.py: create_clusters", "nodefinder/coordinate_system.py: CoordinateSystem"]}
{"id": "C112", "title": "Isolated nodes are identified as points in double precision", "statement": "Identification in double precision never raises and reports points only, if all positions are within r of points that are farther apart than feature_size + 2 r plus the error of a distance, and 9 r plus five such errors is below feature_size: there is one object for each of these points that has positions near it, with exactly the positions within r of it, its dimension is 0, and its reported position is within r of the true point, up to the rounding error of an average. Together with the search: if the gap function is below the threshold only within r of such points, then the nodes of a search in double precision, at any moment and after any number of restarts, are identified as these points, up to an error that grows linearly with the number of restarts. The vote about the dimension is not affected by rounding: the reported dimension has been found for at least two thirds of the evaluated positions, exactly, for up to 2^50 positions. Without rounding the model is the one of C55, C56 and C57.", "quantifier": "all boxes of moderate size, lists of positions (up to 9 * 10^13), feature sizes, ways to round to nearest and orders of summation, set orders and random draws; for the search all gap functions, schedules, crash points and numbers of restarts", "why_tests_cant": "Rounding errors depend on all inputs, on the order of summation and on the BLAS in use, and the order of sets and draws is random; a test sees a few of them.", "anchors": ["nodefinder/identify/_run.py: run_from_positions", "nodefinder/identify/_dimension.py: calculate_dimension", "nodefinder/identify/_evaluate/_point.py: _evaluate_point", "nodefinder/identify/_cluster.py: create_clusters", "nodefinder/coordinate_system.py: CoordinateSystem"]}
{"id": "C113", "title": "In one dimension, search and identification in double precision find exactly the minima", "statement": "C88 for double precision. If a one-dimensional search.run (interval or circle, default minimizer options, n >= 2 mesh points at least feature_size / 40 apart) is given a gap function that is at most the threshold only within r of points which are isolated compared with feature_size, and whose values at floats have a minimum at each of these points that the mesh cannot miss (a valley 11 mesh spacings and a feature_size wide, in which the values of points nearer than eta may come in any order, as those of a computed function do), then once the search has returned, identify.run with its default feature_size gives exactly one object for each of the points and nothing else: a point within r of it, up to the drift of the restarts and the rounding error of an average.", "quantifier": "all limits, feature sizes, thresholds, meshes, gap functions with such minima, ways to round to nearest and orders of summation, schedules, crash points and numbers of restarts, set orders and random draws", "why_tests_cant": "The result depends on every rounding, the schedule and the crashes; a test sees a few of them.", "anchors": ["nodefinder/search/_run.py: run", "nodefinder/search/_controller.py: Controller", "nodefinder/search/_minimization/_nelder_mead.py: root_nelder_mead", "nodefinder/identify/_run.py: run"]}
{"id": "C114", "title": "The ballistic evaluation of lines in double precision", "statement": "C55 and C59 for double precision. Let the ballistic line evaluation be applied to a cluster found by identify.run in double precision, with positions near a box of moderate size. Whatever it returns is a subgraph of the cluster graph that dominates it. It never raises and always returns, if every position can be told from one of its neighbours (in an open box they always can; in a periodic one at a distance of more than 16 * 2^-53 times the diagonal); this condition is needed, as on the positions 0 and 2^-60 in the periodic interval [0, 1] it always raises. It does not turn back within a loop (angles below 90 degrees, up to 2^-38), and it does not go to a position closer than feature_size / 1000 while one farther away lies ahead. Without rounding the model is that of C55 and C59.", "quantifier": "all limits, feature sizes and sets of positions, ways to round to nearest, orders of summation, results of BLAS within a relative error of 2^-40, set orders and random choices", "why_tests_cant": "The steps depend on set order and on every rounding; a test sees one path on one cluster, and does not meet positions closer than the rounding error.", "anchors": ["nodefinder/identify/_evaluate/_line/_ballistic.py: _BallisticLineImpl.run, find_loop, get_next_pos", "nodefinder/coordinate_system.py: CoordinateSystem.connecting_vector, distance"]}
{"id": "C115", "title": "The shortest-path evaluation of lines in double precision", "statement": "C61 for double precision. Applied to any cluster that identify.run finds in double precision, the shortest-path line evaluation never raises (its assertion never fails), returns after at most n (22 n + 3) steps of its loops, and what it returns is a connected, non-empty subgraph of the cluster graph that dominates it. The first path that it adds to the result is a shortest one up to a relative error of 2^-37, if an edge of length x counts x + x^2 / feature_size. Without rounding the model is that of C61.", "quantifier": "all limits, feature sizes and sets of positions, all roundings (for the length of the path: to nearest), results of Dijkstra's algorithm and of x**2 within a relative error of 2^-40, set orders", "why_tests_cant": "The weights are changed in every iteration and rounded each time, and paths of almost equal length are common; which path is chosen depends on rounding and set order.", "anchors": ["nodefinder/identify/_evaluate/_line/_shortest_path.py: _evaluate_line_shortest_path, _update_high_degree_nodes, _update_degree_one_nodes, _update_neighbour_weights"]}
{"id": "C116", "title": "The identification with lines in double precision", "statement": "C64, C65 and C87 for double precision. For positions in or near a moderate box, whatever the order of the positions, the random choices and the rounding: a result of identify.run lists every position in exactly one of its clusters; positions joined by steps of at most feature_size minus the error of the computed distances are in the same cluster, and in a cluster there are such chains with steps of at most feature_size plus that error; a cluster of dimension 0 is a point, at a computed average of its positions; the shape of a cluster of dimension 1 is a line: a simple graph of positions of the cluster, with edges of about feature_size at most, that every position of the cluster is in or next to, and whose degree_count counts the degrees; all others have no shape. With shortest_path it never raises, always finishes and gives every cluster of dimension 1 a line; so does ballistic in a box without periodic boundaries, and in any other box if every position of a cluster has a neighbour that it can be told from. With dominating_set it always finishes, and raises nothing but NetworkXNoPath or TypeError. Positions near points that are far from each other become one point each.", "quantifier": "all limits (moderate boxes), periodic or not, feature sizes >= 0, sets of positions, all roundings to nearest, all three methods, all choices of the libraries within their errors, set orders, random selections", "why_tests_cant": "Everything depends on rounding: distances decide the clusters, volumes the dimension, angles and weights the line; no test can try all positions, orders and random selections.", "anchors": ["nodefinder/identify/_run.py: run_from_positions", "nodefinder/identify/_evaluate/_run.py: evaluate_cluster", "nodefinder/identify/_evaluate/_line/_run.py: _evaluate_line", "nodefinder/identify/_evaluate/_line/_dominating_set.py: _evaluate_line_dominating_set", "nodefinder/identify/_evaluate/_point.py", "nodefinder/identify/_dimension.py", "nodefinder/identify/_cluster.py"]}
{"id": "C117", "title": "Search and identification in double precision, with lines", "statement": "For what a search in double precision has found, after any number of crashes and restarts, finished or not: identify.run with the default feature_size (which is that of the search up to rounding) and any method for lines gives, if it gives a result, one that describes exactly the found nodes, each once, by points and lines as in C116. Every position in a cluster, and so every node of a line, is the normalized position of a point at which the gap function has returned a value below gap_threshold, up to the drift of the restarts; and every completed minimization with success and a value below the threshold is in exactly one cluster. With shortest_path it never raises and every cluster of dimension 1 gets a line; so does ballistic if the box is not periodic.", "quantifier": "all dimensions, gap functions, settings of a search in double precision, schedules, crash points, numbers of restarts, roundings to nearest, set orders, random selections, results of libraries within their errors", "why_tests_cant": "What is found depends on the schedule, the crashes and rounding, and what is identified on what is found.", "anchors": ["nodefinder/search/_run.py: run", "nodefinder/search/_controller.py: Controller", "nodefinder/identify/_run.py: run, run_from_positions"]}
{"id": "C118", "title": "The dominating-set method fails on every line in double precision, too", "statement": "C62 for double precision. For a cluster of positions in or near a moderate box, if the errors of all distances together are below a hundredth of feature_size: _evaluate_line_dominating_set returns only if one position is closer than a third of feature_size (up to rounding) to all others, and then it returns the graph of this position alone, without edges; otherwise it raises NetworkXNoPath or TypeError. In particular it raises for every cluster with two positions at a distance of 0.7 times feature_size or more, and if identify.run with evaluate_line_method='dominating_set' returns, all its clusters of dimension 1 are smaller than that and their lines are single nodes. The same holds for what a search has found, with the default feature_size.", "quantifier": "all moderate boxes, periodic or not, feature sizes > 0, sets of positions, all roundings to nearest, all computed distances and shortest paths within their errors (of networkx: 0.1 %), all set orders and choices between paths", "why_tests_cant": "that rounding (also ties broken the other way, or a path that is chosen because of its rounding) never lets an edge between two nodes of the dominating set get its weight by accident cannot be seen from examples", "anchors": ["nodefinder/identify/_evaluate/_line/_dominating_set.py:_evaluate_line_dominating_set", "nodefinder/identify/_evaluate/_line/_dominating_set.py:_patch_all_subgraph_holes", "nodefinder/identify/_evaluate/_line/_dominating_set.py:_remove_duplicate_paths", "nodefinder/identify/_run.py:run"]}
{"id": "C119", "title": "Units that differ by powers of two do not matter, even in double precision", "statement": "C79 holds exactly in double precision if lengths are multiplied by a power of two (and function values by another one): root_nelder_mead and run_minimization, with or without a fake potential and with xtol, ftol and fprime_cutoff converted, make the same calls and return the same result, bit by bit up to these factors; CoordinateSystem.distance, normalize_position, get_frac and connecting_vector (without its assertion, whose tolerance 1e-8 is absolute) give the converted results, create_clusters the same clusters, and average and the evaluation of points the converted points (if these assertions hold); calculate_dimension finds the same dimensions (if the assertions have the same outcome and the product of singular values is a volume); and in a box without periodic boundaries run_from_positions can return exactly the converted results, with the same dimensions and converted points with lines evaluated by any of the three methods too (if networkx's shortest paths do not depend on the unit and la.norm and x**4 commute with the factor). Controller.__init__ with converted limits, feature_size, gap_threshold, options and stencil gives the converted parameters, mesh and stencil, or the same exception; and the search as a whole, with a converted gap function, can do exactly the same things step by step, with crashes and restarts, and finds the same nodes. The rounding of IEEE 754 (to nearest, ties to even) has the property that this needs: it commutes with the multiplication by powers of two.", "quantifier": "every dimension, box, position, gap function (pure or not), simplex, options; every schedule, crash point and restart; all powers of two for the two units (no overflow and no underflow); all roundings to nearest with ties to even", "why_tests_cant": "a relation between two executions, for all functions, inputs and units, in which every single rounding has to agree", "anchors": ["nodefinder/search/_controller.py:Controller", "nodefinder/search/_mesh_helper.py", "nodefinder/search/_minimization/_nelder_mead.py:root_nelder_mead", "nodefinder/search/_minimization/_run.py:run_minimization", "nodefinder/coordinate_system.py:CoordinateSystem", "nodefinder/identify/_cluster.py:create_clusters", "nodefinder/identify/_evaluate/_point.py", "nodefinder/identify/_evaluate/_line/_shortest_path.py", "nodefinder/identify/_evaluate/_line/_ballistic.py", "nodefinder/identify/_evaluate/_line/_dominating_set.py", "nodefinder/identify/_dimension.py", "nodefinder/identify/_run.py:run_from_positions"]}
