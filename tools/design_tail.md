All listed properties can be expressed in the model; none is marked not applicable. No theorem is `_partial`. Where the naive English property is false of the code, the property says under which condition it holds and a theorem with a concrete witness shows that the excluded case really fails (`…_misses_node`, `…_overcounts`, `…_raises`, `…_differs`, …).

## Coverage of /repo (nodefinder/)

| file | model | not modelled |
|---|---|---|
| `coordinate_system.py` | `Model/Coord` (exact), `Model/FloatCell` (rounded: from a position to its cell), `Model/FloatDistance` (rounded: `distance`, `connecting_vector`, clusters), `Model/FloatAverage` (rounded: `get_pos`, `average`, and `_evaluate_point`) | overflow and underflow |
| `search/result/_cell_list.py` | `Model/CellList` (exact), `Model/FloatCell` (rounded) | |
| `search/result/_search_result_container.py` | `Model/Container` (exact), `Model/FloatController` (rounded) | |
| `search/result/_minimization.py` | `Model/Result` | |
| `search/result/_controller_state.py` | `Model/Controller`: `CtlState` | |
| `search/_fake_potential.py` | `Model/Container`: `fakePotential`; with rounding: `Model/FloatFake` | infinities and NaN as coordinates |
| `search/_queue.py` | `Model/Queue` | |
| `search/_controller.py` | `Model/Controller`, `Model/Setup` (`__init__`), `Model/SaveFile`; `Model/FloatController`, `Model/FloatSetup` (rounded) | logging |
| `search/_run.py` | `Model/RunWrapper`, `Model/Setup` (default arguments), `createState` | logging set-up |
| `search/_mesh_helper.py`, `search/refinement_stencil.py` | `Model/Mesh` (exact), `Model/FloatSetup` (rounded) | rounding of `sin`, `cos`, `sqrt` and LAPACK in the circle and sphere stencils (a hypothesis: right up to 1/1000) |
| `search/_minimization/_nelder_mead.py`, `_run.py` | `Model/NelderMead` (exact), `Model/FloatNM` (rounded) | warning texts; overflow and underflow |
| `identify/_cluster.py` | `Model/Cluster`, `Model/Graph`; `Model/FloatDistance` (rounded) | |
| `identify/_dimension.py` | `Model/Dimension` (exact), `Model/FloatIdentify` (rounded) | LAPACK: the product of singular values is any function of the rows, right up to 2^-40 for a single row |
| `identify/_evaluate/*` | `Model/Identify`, `Model/Ballistic`, `Model/ShortestPath`, `Model/DominatingSet`; `Model/FloatAverage` (points, rounded), `Model/FloatBallistic` (ballistic lines, rounded; of BLAS only that it is right up to a relative error of 2^-40), `Model/FloatShortestPath` (rounded; of networkx' Dijkstra and of `x**2` only that they are right up to a relative error of 2^-40), `Model/FloatDominatingSet` (rounded; of networkx only that its paths are paths and that it finds one if there is one; for C118 also that lengths are right within 0.1 %) | printing, warnings |
| `identify/_run.py`, `identify/result/*` | `Model/Identify` (exact), `Model/FloatIdentify` (rounded) | |
| `identify/plot.py`, `search/plot.py`, `_common_plot.py` | `Model/PlotPaths` (splitting lines into paths), `Model/Plot` | matplotlib itself: a call adds an artist with the given coordinates to the axes |
| `io.py`, all `to_hdf5` / `from_hdf5` | `Model/Hdf5` | `fsc.hdf5_io` and `h5py` themselves (contract at the head of the file) |
| `_logging.py` | | logging |

## Findings about the code (each proved or noted beside the definition)

Search:
* A non-periodic box shorter than `dist_cutoff` misses neighbours (C08); a periodic one shorter than 3 cutoffs counts them several times, so `recheck_count_cutoff` discards too much (C10, C34).
* `average` may leave the limits when a lower limit is not 0 (C06).
* An object repeated within one `add_objects` call is handed out twice and `set_finished` raises KeyError; the parallelism bound is exceeded (C16, C21).
* In double precision `connecting_vector` can be zero in one direction and not in the other; the ballistic method, which returns without rounding (C59), then always raises on two positions that are closer than the rounding error, as `0` and `2^-60` in the periodic box `[0, 1]` (C114_unresolved_raises). Two such positions are in the same cluster and dominate it, but the method has no guard for them.
* A NaN value together with `fprime_cutoff` is reported as success and stored as a node (C43); with NaN in the simplex a better evaluated point can be discarded (C38).
* Raising `gap_threshold` at a restart does not refine the new nodes; a negative `recheck_count_cutoff` discards uncovered positions (C27).
* `num_minimize_parallel <= 0` never ends (C29); `refinement_stencil=None` with queued positions raises TypeError (C32).
* The docstring of `_check_simplex` differs from the code (C33); nonperiodic initial simplices stick out beyond the upper limits (C46).
* `search.run` inside a running loop waits forever if a BaseException is raised (C67), and leaks the helper thread's loop if `run_async` raises.
* In double precision a normalized position can be the upper limit, normalizing it again gives the lower limit; two positions closer than `dist_cutoff` by less than one part in 2^40 can be missed as neighbours (C74).
* A state with simplices of different numbers of vertices cannot be saved (C76); with h5py 3 the string `message` of a result is read back as bytes (noted only).
* A KeyboardInterrupt during a save may leave the temporary file behind.
* A simplex that lies wholly in the infinite region of the fake potential is not moved: the minimization shrinks it or runs to its iteration limit (noted only).
* Nelder-Mead can report success at a point that is no minimum, for a strictly convex function in two dimensions (McKinnon's example, C89); in one dimension it cannot (C88).
* With rounding a Nelder-Mead simplex can collapse to a single point, and is then reported as converged for every tolerance; in exact arithmetic it cannot (C73, C102, `C102_collapse`). What the search relies on (the reported value is the value of the function at the reported position, `success` means convergence, the limits) survives rounding (C102).
* A mesh finer than the rounding contains degenerate or repeated simplices (C104).
* If `feature_size` is so small that the vertices of the refinement stencil differ by less than the rounding of a position (2^-53 of it), different simplices of the stencil become equal when they are moved to the position: one simplex is queued twice in one batch, with the KeyError of C16 (C103, `C103_unresolved_stencil`). Otherwise a search with rounding keeps all of its guarantees, up to explicit error terms (C103).
* Switching off rechecking (`recheck_pos_dist=False`) cannot make a periodic search run for ever: a position is queued only if no refined position is near, so the search still ends (C28), but the proved bound is exponential in the number of cells instead of linear.
* With `periodic=False` nothing keeps a search inside its limits: nodes outside are refined as well, and for a gap function that is small out to infinity the search never ends (C93, `C93_runaway`). If the gap is above the threshold outside a bounded region the search ends.

Identify:
* A nodal point may be drawn outside of the limits of the plot (`C81_point_outside`); a line whose edges all cross the boundary is drawn as lines through single points, which show nothing (`C81_wrapping_line`).
* `create_clusters` docstring ("twice feature_size") differs from the code (C52).
* `min_pos_evaluations=None` raises TypeError and `=0` IndexError (C55).
* The ballistic method raises when all positions of a cluster coincide up to box lengths (C59).
* The dominating_set method raises for every real line (C62, C118); an unknown method silently gives no shape; `identify.run` of a ControllerState without feature_size raises AttributeError (C65).
* The shortest-path method on a clique returns a single node without edges.
* With h5py 3 `IdentificationResult.from_hdf5` fails for every object, because `group[()]` raises a TypeError and only AttributeError is caught (C77).
* `shape_name` says CLOSED LOOP for several disjoint loops (C63).
* In a non-periodic space the limits have no influence on the identification; the average that becomes a nodal point is not moved into the box (C06, C90).
* The method `shortest_path` returns a single node of unknown shape for a line whose positions are all within `feature_size` of each other, where `ballistic` returns an open line (C94, `C94_methods_differ`).
* The method `shortest_path` cannot find a closed loop in a cluster in which any two positions are at most four steps of `feature_size` apart: a closed nodal line of up to nine such steps is reported without a loop, where `ballistic` finds the loop (C95, `C95_methods_differ`).
* From about eighteen `feature_size` on (rings of radius ten `feature_size`), `shortest_path` does close every well sampled loop, exactly once, for every order of iteration (C96).
* `connecting_vector` contains an assertion with the absolute tolerance 1e-8. It holds whenever the box is moderate (diagonal and coordinates up to about 10^6), but in a box of length 2^31 it fails for positions inside the box (C97, `C97_assertion_fails`): a box in units of 1/m of a crystal can make the identification raise AssertionError.
* The dimension of a cluster of seven or more positions can depend on the unseeded random choices: the same 64 positions of an even plane patch may be reported as a line or as a plane; a cluster with five crowded positions and a short tail as a point or as a line. The standard-error criterion of `_has_dimension` accepts ten equal volumes as certainty (C98, `C98_line_or_plane`, `C98_point_or_line`, `C98_seven`).
* `connecting_vector` breaks the tie at exactly half a box length in favour of the positive direction, so the average of positions exactly half a box apart depends on the direction of the axis and on the iteration order of a set (C99, `C99_half_apart`). Otherwise the axes can be renamed and reversed (C99).
* Well sampled lines and rings come out with the right shape from every random start (C90, C91); the weights of the ballistic method make the step that meets the start of a loop win against every other one.
* `random.sample` of a set fails on Python ≥ 3.11; `np.product`, `np.object` are gone in recent numpy (noted only).

## Testing the theorems

`seeded/LOG.jsonl` records the seeded faults: each line is one edit of a model definition in a scratch copy, the claim it breaks, the theorems whose proofs then fail, and what was tightened.
