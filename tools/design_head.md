# NodeFinder in Lean 4: design of the model and of the proofs

(Generated by `tools/gen_design.py`; the first version of this file, written before the proofs, is in the git history.)

| directory of `lean/Verif/` | content |
|---|---|
| `Model/*`  | the model: one Lean definition (or transition relation) per Python function, each with a comment citing file and lines of `/repo` and the simplifications made |
| `Spec/*`   | small specifications, independent of the model's helpers: lattice congruence, chains, FIFO logs, dominating subgraphs, fair executions, … |
| `Lemmas/*` | helper lemmas, invariants, and a concrete search run (`Lemmas/Demo`) used by the non-vacuity examples |
| `Props/*`  | the property theorems `C01_…`, `C02_…`, each followed by an `example` in which a concrete non-trivial case meets its hypotheses |

## Trusted base

* **Lean 4.33.0's kernel**, and Mathlib's definitions that occur in statements (`ℝ`, `Finset`, `List`, `EReal`, `Matrix`, `Relation.ReflTransGen`, …).
* **Axioms**: every property theorem depends on (a subset of) `propext`, `Classical.choice`, `Quot.sound` only; no axiom is added, nothing is left unproved, no compiled evaluation is used (`decide` occurs only in closed examples and trivial side conditions, via the kernel).
* **The model is hand-written.**  That it says what the Python says is checked by reading (every definition cites its lines) and by the mutation tests in `seeded/LOG.jsonl`, not by a machine.

### How the code is modelled

* **Numbers.** Positions, distances and tolerances are exact reals `ℝ`, except in `Model/FloatCell`, `Model/FloatDistance`, `Model/FloatNM`, `Model/FloatController` and `Model/FloatSetup`, which model the same functions with a rounding (any rounding to a nearest 53-bit float, ties arbitrary) after every operation and sums in any order (C74, C97, C102, C103). Overflow, underflow and signed zeros are *not* modelled. Function values, where `inf` and `nan` matter, are `FVal`: extended reals plus NaN with IEEE comparison (every comparison with NaN is false, `inf - inf` is NaN, …) and numpy's sort order (NaN last).
* **Arrays.** A position is `Vec d = Fin d → ℝ`; a queued simplex is a list of positions; a Nelder-Mead simplex is `Fin (d+1) → Vec d`. Shapes are therefore right by typing: numpy shape errors are not modelled.
* **Exceptions** are values (`Except Err`, or error states of a transition system).
* **Mutation** becomes returning the new state; the neighbour-index cache is an explicit component of the state.
* **asyncio.** Between two `await`s code runs atomically; the controller (`Model/Controller`) is a transition system with steps: one scheduling round, a minimization that completes (with *any* result), one that raises, a periodic save, a save that fails, leaving the loop, the final save, a crash and a restart from the file. Theorems quantify over all interleavings of these steps. C36 justifies treating a save as one step.
* **Randomness, set/dict iteration order, argsort ties** are arbitrary: the relation admits every choice, theorems quantify over all of them.
* **The gap function** is a call-indexed oracle: it may be impure (return different values for the same point at different calls) unless a theorem says otherwise.

### Assumptions about what is not this repository's code

* `fsc.async_tools.PeriodicTask`: calls the task repeatedly between awaits, once more when the context is left; an exception of the task surfaces when the context is left.
* `asyncio`: a task's exception is re-raised by `task.result()`; done tasks are found done at the next round; `run_until_complete` returns/raises the coroutine's outcome.
* POSIX: `os.rename` replaces atomically; `tempfile` names are fresh (O_EXCL); `os.remove` of the temporary file.
* `h5py` / `fsc.hdf5_io`: what is written completely is read back as the same value (real numbers, strings, lists; mappings as a permutation of their items); an incomplete file cannot be read. `Model/Hdf5` states the contract in detail (type tags, `SimpleHDF5Mapping`, lists, arrays).
* `numpy`: `argsort` is *some* sorting permutation (NaN last); `linspace`, `product`, `%`, `allclose`, `sign` as documented; `linalg.qr` is LAPACK's Householder QR; `linalg.svd` only through: product of the singular values = sqrt(det of the Gram matrix); `det` = determinant.
* `networkx`: graphs are node/edge lists; `connected_components` is the BFS closure; `shortest_path` with weights returns some path of least weight between connected nodes and raises `NetworkXNoPath` otherwise; `dominating_set` is the greedy algorithm of its source; `subgraph`, `copy`, `degree`, `remove_nodes_from` as documented (copy copies attribute dicts).
* `scipy.special.factorial`, `decorator.decorator`, `cached_property`, `types.SimpleNamespace` as documented.
