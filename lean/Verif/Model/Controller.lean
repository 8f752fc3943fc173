import Verif.Model.Container
import Verif.Model.Queue
import Mathlib.Data.Prod.Lex

/-!
# Model of `nodefinder/search/_controller.py`: the search loop

The controller runs in one asyncio thread.  Control can pass to another task only at an `await`, so the following are atomic
events, and every interleaving of them is an execution of the model:

* `tick`: from one `await asyncio.sleep(0.)` of `create_tasks` (line 232) to the next (lines 234-242, 196-230);
* `done`: the end of a `run_simplex` task, from the return of `run_minimization` to the end of the coroutine (lines 261-262);
* `fail`: a `run_simplex` task ends because `run_minimization` raised;
* `save`: a call of `save` by the `PeriodicTask`; or `saveFail`: such a call which raises (then nothing has changed: C36);
* `exitSaveFail`, `fillRaiseSaveFail`: the loop is left and the last call of `save` raises;
* `crash`: the process dies at any point and the search is started again with `load=True` and the same arguments.

The result of a minimization is arbitrary here (`_minimization` is modelled in `Model/NelderMead.lean`).
Assumption about `fsc.async_tools.PeriodicTask` (not part of the repository): it calls `save` at arbitrary times while the
`async with` block runs and once more when the block is left, normally or by an exception; an exception of that last call leaves the
block.  (An exception of an earlier call does not end the block by itself: it is only seen when the block is left, and is then one of the
`…SaveFail` cases.)

Tasks are not cancelled when `create_tasks` raises: if the event loop goes on running (`run_async` awaited in a larger program), the other
minimizations go on and end later.  So `done` and `fail` can also happen after `create_tasks` has raised.
-/

noncomputable section
open Classical

namespace NF

/-- A simplex: the list of its vertices. -/
abbrev Simplex (d : ℕ) := List (Vec d)

/-- _controller.py:39-60, the parameters of the controller that the loop uses.  `stencil` is
`self.refinement_stencil` (lines 91-98: already multiplied by `dist_cutoff`), a list of simplices relative to the refined position. -/
structure CtlParams (d : ℕ) where
  coord : CoordSys d
  gapThreshold : ℝ
  featureSize : ℝ
  stencil : Option (List (Simplex d))
  numMinimizeParallel : ℤ
  recheckPosDist : Bool
  recheckCountCutoff : ℤ
  simplexCheckCutoff : ℤ
  saveFile : Bool
  /-- what `get_initial_simplices` returns (lines 181-186) -/
  mesh : List (Simplex d)
  forceInitialMesh : Bool

/-- _controller.py:29, 73: `self.dist_cutoff = feature_size / _DIST_CUTOFF_FACTOR`. -/
def CtlParams.distCutoff {d : ℕ} (p : CtlParams d) : ℝ := p.featureSize / 3

/-- result/_controller_state.py:15-25, `ControllerState`. -/
structure CtlState (d : ℕ) where
  result : Container d
  simplexQueue : RunQueue (Simplex d)
  positionQueue : ObjQueue (Vec d)

/-- result/_controller_state.py:27-29, `needs_saving`. -/
def CtlState.needsSaving {d : ℕ} (s : CtlState d) : Bool :=
  s.result.needsSaving || s.simplexQueue.base.needsSaving || s.positionQueue.needsSaving

/-- result/_controller_state.py:31-36, setting `needs_saving = False`. -/
def CtlState.setSaved {d : ℕ} (s : CtlState d) : CtlState d where
  result := { s.result with needsSaving := false }
  simplexQueue := { s.simplexQueue with base := { s.simplexQueue.base with needsSaving := false } }
  positionQueue := { s.positionQueue with needsSaving := false }

/-- The content of a save file that `create_state` reads back: `minimization_results` and `refined_results` of the result, `objects`
of the two queues.  (`gap_threshold`, `dist_cutoff` and the coordinate system are also in the file, but not used by `create_state`.) -/
structure Saved (d : ℕ) where
  results : List (SRes d)
  refined : List (Vec d)
  simplices : List (Simplex d)
  positions : List (Vec d)

/-- What `io.save(self.state, ...)` followed by `io.load` gives.  `enum` is the iteration order of the set of running simplices
(_queue.py:95-99); `SRes.reload` is the round trip of one result. -/
def CtlState.snapshot {d : ℕ} (s : CtlState d) (enum : List (Simplex d)) : Saved d where
  results := s.result.minimizationResults.map SRes.reload
  refined := s.result.refined.values
  simplices := s.simplexQueue.objects enum
  positions := s.positionQueue.objects

/-- _controller.py:145-164 (second branch, 165-179, for `none`), the part of `create_state` that builds the state from
a previous one or from the initial mesh. -/
def createStateFrom {d : ℕ} (p : CtlParams d) (initial : Option (Saved d)) : CtlState d :=
  match initial with
  | some s =>
    let sq := RunQueue.create (normalizeSimplices s.simplices)
    { result := Container.create p.coord s.results p.gapThreshold p.distCutoff s.refined
      simplexQueue := if p.forceInitialMesh then sq.addObjects (normalizeSimplices p.mesh) else sq
      positionQueue := ObjQueue.create s.positions }
  | none =>
    { result := Container.create p.coord [] p.gapThreshold p.distCutoff []
      simplexQueue := RunQueue.create (normalizeSimplices p.mesh)
      positionQueue := ObjQueue.create [] }

/-- _controller.py:112-126, `check_dimensions`: `mesh_size` is an integer (`Sum.inl`) or a sequence. -/
def checkDimensions (limits : List (ℝ × ℝ)) (meshSize : ℤ ⊕ List ℤ) : Except Err (ℕ × List ℤ) :=
  let meshSize := match meshSize with
    | .inl n => List.replicate limits.length n
    | .inr l => l
  if limits.length = meshSize.length then .ok (limits.length, meshSize) else .error .value

/-- _controller.py:128-179, `create_state`.  `file` is the outcome of `io.load(self.save_file)`; `Err.io` stands for IOError. -/
def createState {d : ℕ} (p : CtlParams d) (initialState : Option (Saved d)) (load loadQuiet : Bool)
    (file : Except Err (Saved d)) : Except Err (CtlState d) :=
  if load then
    if initialState.isSome then .error .value
    else match file with
      | .ok sv => .ok (createStateFrom p (some sv))
      | .error .io => if loadQuiet then .ok (createStateFrom p none) else .error .io
      | .error e => .error e
  else .ok (createStateFrom p initialState)

/-- _controller.py:276-290, the loop of `_check_pos_refinement` over the distances, starting with `count`. -/
def checkPosLoop (distCutoff : ℝ) (countCutoff : ℤ) : ℤ → List ℝ → Bool
  | _, [] => true
  | count, dist :: rest =>
    let count := if dist < distCutoff then count + 1 else count
    if count > countCutoff then false else checkPosLoop distCutoff countCutoff count rest

/-- _controller.py:276-290, `_check_pos_refinement`. -/
def checkPosRefinement {d : ℕ} (p : CtlParams d) (result : Container d) (pos : Vec d) (countCutoff : ℤ) : Bool :=
  checkPosLoop p.distCutoff countCutoff 0 (result.refinedNeighbourDistances pos)

/-- _controller.py:292-305, the outer loop of `_check_simplex`.  The inner loop over distances (with `break` at the first
one below the cutoff) is `List.any`. -/
def checkSimplexLoop {d : ℕ} (p : CtlParams d) (result : Container d) : ℤ → List (Vec d) → Bool
  | _, [] => true
  | count, pos :: rest =>
    if (result.neighbourDistances pos).any (fun dist => decide (dist < p.distCutoff)) then
      if count + 1 > p.simplexCheckCutoff then false else checkSimplexLoop p result (count + 1) rest
    else checkSimplexLoop p result count rest

/-- _controller.py:292-305, `_check_simplex`. -/
def checkSimplex {d : ℕ} (p : CtlParams d) (result : Container d) (simplex : Simplex d) : Bool :=
  checkSimplexLoop p result 0 simplex

/-- `pos + self.refinement_stencil` (_controller.py:212-214): the position is added to every vertex. -/
def translateStencil {d : ℕ} (pos : Vec d) (stencil : List (Simplex d)) : List (Simplex d) :=
  stencil.map fun s => s.map fun v => fun i => pos i + v i

/-- Where the coroutine `create_tasks` stands. -/
inductive Phase
  | running            -- suspended at `await asyncio.sleep(0.)`, or not yet started
  | returned           -- finished normally
  | raised (e : Err)   -- finished with an exception

/-- Record of what happened since the last (re)start.  Not part of the program; nothing in the model depends on it. -/
inductive LogEntry (d : ℕ)
  | scheduled (s : Simplex d)
  | skipped (s : Simplex d)
  | completed (s : Simplex d) (r : SRes d)
  | failed (s : Simplex d)
  | refined (p : Vec d)
  | discarded (p : Vec d)

/-- The whole system: the controller's state; `self.task_futures`, split into running tasks and those that have ended with
an exception that has not been looked at; the save file; and the record (`log`, and `base`: the results present at the last (re)start). -/
structure Ctl (d : ℕ) where
  state : CtlState d
  tasks : List (Simplex d)
  failed : List (Simplex d × Err)
  disk : Option (Saved d)
  phase : Phase
  log : List (LogEntry d)
  base : List (SRes d)

/-- Outcome of one pass through the scheduling loops. -/
inductive FillStep (d : ℕ)
  | stop
  | next (c : Ctl d)
  | raise (e : Err) (c : Ctl d)

/-- _controller.py:200-230, the two nested loops that fill up the running minimizations, one pop at a time.
`while num_running < num_minimize_parallel` / `while not simplex_queue.has_queued` are flattened: popping a position does not change
`num_running`, so the outer condition need not be distinguished from the inner one.
* lines 200-203: stop if enough minimizations are running;
* lines 223-228: if a simplex is queued, pop it, then schedule it (line 226, 245-249) or set it finished (line 228; it was just put into the
  running set, so no KeyError);
* lines 204-220: otherwise pop a position, refine it or discard it.  With `refinement_stencil = None` the addition
  `pos + None` raises TypeError (line 213);
* lines 221-222, 229-230: otherwise stop. -/
def fillStep {d : ℕ} (p : CtlParams d) (c : Ctl d) : FillStep d :=
  if ¬ ((c.state.simplexQueue.numRunning : ℤ) < p.numMinimizeParallel) then .stop
  else match c.state.simplexQueue.popQueued with
    | some (simplex, sq) =>
      if checkSimplex p c.state.result simplex then
        .next { c with
          state := { c.state with simplexQueue := sq }
          tasks := c.tasks ++ [simplex]
          log := c.log ++ [.scheduled simplex] }
      else match sq.setFinished simplex with
        | .ok sq' => .next { c with
            state := { c.state with simplexQueue := sq' }
            log := c.log ++ [.skipped simplex] }
        | .error e => .raise e { c with state := { c.state with simplexQueue := sq } }
    | none => match c.state.positionQueue.popQueued with
      | some (pos, pq) =>
        if p.recheckPosDist = false ∨ checkPosRefinement p c.state.result pos p.recheckCountCutoff = true then
          match p.stencil with
          | some stencil => .next { c with
              state := {
                result := c.state.result.setRefined pos
                simplexQueue := c.state.simplexQueue.addObjects (normalizeSimplices (translateStencil pos stencil))
                positionQueue := pq }
              log := c.log ++ [.refined pos] }
          | none => .raise .type { c with state := { c.state with positionQueue := pq } }
        else .next { c with
          state := { c.state with positionQueue := pq }
          log := c.log ++ [.discarded pos] }
      | none => .stop

/-- (queued positions, queued simplices): decreases lexicographically in every pass. -/
def fillMeasure {d : ℕ} (c : Ctl d) : ℕ ×ₗ ℕ :=
  toLex (c.state.positionQueue.queued.length, c.state.simplexQueue.base.queued.length)

theorem fillStep_decreases {d : ℕ} {p : CtlParams d} {c c' : Ctl d} (h : fillStep p c = .next c') :
    fillMeasure c' < fillMeasure c := by
  unfold fillStep at h
  split at h
  · cases h
  · unfold RunQueue.popQueued at h
    unfold fillMeasure
    cases hq : c.state.simplexQueue.base.queued with
    | cons x rest =>
      simp only [ObjQueue.popQueued, hq] at h
      split at h
      · injection h with h; subst h
        rw [Prod.Lex.toLex_lt_toLex]; right; simp
      · simp only [RunQueue.setFinished, Finset.mem_insert_self, if_true] at h
        injection h with h; subst h
        rw [Prod.Lex.toLex_lt_toLex]; right; simp
    | nil =>
      have e : c.state.simplexQueue.base.popQueued = none := by simp [ObjQueue.popQueued, hq]
      rw [e] at h
      simp only [ObjQueue.popQueued] at h
      cases hp : c.state.positionQueue.queued with
      | nil => simp [hp] at h
      | cons y ys =>
        simp only [hp] at h
        split at h
        · split at h
          · injection h with h; subst h
            rw [Prod.Lex.toLex_lt_toLex]; left; simp
          · cases h
        · injection h with h; subst h
          rw [Prod.Lex.toLex_lt_toLex]; left; simp

/-- The scheduling round: the loops of _controller.py:200-230 until they stop or raise. -/
def fill {d : ℕ} (p : CtlParams d) (c : Ctl d) : Option Err × Ctl d :=
  match _h : fillStep p c with
  | .stop => (none, c)
  | .raise e c' => (some e, c')
  | .next c' => fill p c'
termination_by fillMeasure c
decreasing_by exact fillStep_decreases _h

/-- _controller.py:307-321, `save`, as one atomic step (its crash behaviour is modelled in `Model/SaveFile.lean`). -/
def doSave {d : ℕ} (p : CtlParams d) (c : Ctl d) (enum : List (Simplex d)) : Ctl d :=
  if p.saveFile = true ∧ c.state.needsSaving = true then
    { c with disk := some (c.state.snapshot enum), state := c.state.setSaved }
  else c

/-- _controller.py:264-274, `process_result`. -/
def processResult {d : ℕ} (p : CtlParams d) (s : CtlState d) (r : SRes d) : CtlState d :=
  let added := s.result.addResult r
  let pos := p.coord.normalizePosition r.pos  -- `result.pos` after `add_result` has replaced it
  if added.2 = true ∧ p.stencil.isSome = true then
    if checkPosRefinement p added.1 pos 0 then
      { s with result := added.1, positionQueue := s.positionQueue.addObjects [pos] }
    else { s with result := added.1 }
  else { s with result := added.1 }

/-- _controller.py:251-262, the end of `run_simplex`: `process_result(result)`, then `set_finished(simplex)`; if the latter raises, the task
ends with that exception. -/
def taskDone {d : ℕ} (p : CtlParams d) (c : Ctl d) (s : Simplex d) (r : SRes d) : Ctl d :=
  let st := processResult p c.state r
  match st.simplexQueue.setFinished s with
  | .ok sq => { c with
      state := { st with simplexQueue := sq }
      tasks := c.tasks.erase s
      log := c.log ++ [.completed s r] }
  | .error e => { c with
      state := st
      tasks := c.tasks.erase s
      failed := c.failed ++ [(s, e)]
      log := c.log ++ [.completed s r, .failed s] }

/-- A task that ends with an exception of the gap function. -/
def taskFail {d : ℕ} (c : Ctl d) (s : Simplex d) (e : Err) : Ctl d :=
  { c with tasks := c.tasks.erase s, failed := c.failed ++ [(s, e)], log := c.log ++ [.failed s] }

/-- The controller at the start of `create_tasks`, with the given save file content, initial state and mesh. -/
def startFrom {d : ℕ} (p : CtlParams d) (disk : Option (Saved d)) (initial : Option (Saved d)) : Ctl d :=
  let st := createStateFrom p initial
  { state := st, tasks := [], failed := [], disk := disk, phase := .running, log := [],
    base := st.result.minimizationResults }

/-- A fresh search: no previous state, no save file. -/
def startFresh {d : ℕ} (p : CtlParams d) : Ctl d := startFrom p none none

/-- Restart after a crash, with `load=True, load_quiet=True`: from the save file if there is one, else from the initial mesh. -/
def restart {d : ℕ} (p : CtlParams d) (c : Ctl d) : Ctl d := startFrom p c.disk c.disk

/-- _controller.py:196-198: the condition of the main loop. -/
def loopCondition {d : ℕ} (c : Ctl d) : Prop :=
  ¬ c.state.simplexQueue.finished ∨ c.state.positionQueue.hasQueued = true

/-- One step of the search (without crashes). `enum` arguments are iteration orders of the running set, used if the step
saves. -/
inductive Step {d : ℕ} (p : CtlParams d) : Ctl d → Ctl d → Prop
  /-- lines 234-240: an exception is found and raised; `PeriodicTask` saves on exit. -/
  | tickRaise (c : Ctl d) (s : Simplex d) (e : Err) (enum : List (Simplex d)) (hph : c.phase = .running)
      (hf : (s, e) ∈ c.failed) (henum : enum.Nodup ∧ ∀ x, x ∈ enum ↔ x ∈ c.state.simplexQueue.running) :
      Step p c { doSave p c enum with phase := .raised e }
  /-- no exception, the loop condition is false: leave the loop, save, return (lines 196-198, 243).
  `asyncio.gather` has nothing left to wait for: see C22 and C24. -/
  | tickReturn (c : Ctl d) (enum : List (Simplex d)) (hph : c.phase = .running) (hf : c.failed = [])
      (hcond : ¬ loopCondition c) (henum : enum.Nodup ∧ ∀ x, x ∈ enum ↔ x ∈ c.state.simplexQueue.running) :
      Step p c { doSave p c enum with phase := .returned }
  /-- no exception, the loop condition is true: a scheduling round. -/
  | tickFill (c c' : Ctl d) (hph : c.phase = .running) (hf : c.failed = []) (hcond : loopCondition c)
      (hfill : fill p c = (none, c')) : Step p c c'
  /-- the scheduling round itself raises. -/
  | tickFillRaise (c c' : Ctl d) (e : Err) (enum : List (Simplex d)) (hph : c.phase = .running) (hf : c.failed = [])
      (hcond : loopCondition c) (hfill : fill p c = (some e, c'))
      (henum : enum.Nodup ∧ ∀ x, x ∈ enum ↔ x ∈ c'.state.simplexQueue.running) :
      Step p c { doSave p c' enum with phase := .raised e }
  /-- lines 234-240 or 196-198: the block is left by an exception of a minimization, or at the end of the loop, but the last call of `save`
  raises; its exception (`.io`) is the one that leaves `create_tasks`. -/
  | exitSaveFail (c : Ctl d) (hph : c.phase = .running) (hx : c.failed ≠ [] ∨ ¬ loopCondition c)
      (hsave : p.saveFile = true ∧ c.state.needsSaving = true) : Step p c { c with phase := .raised .io }
  /-- the scheduling round raises, and then `save` does as well. -/
  | fillRaiseSaveFail (c c' : Ctl d) (e : Err) (hph : c.phase = .running) (hf : c.failed = []) (hcond : loopCondition c)
      (hfill : fill p c = (some e, c')) (hsave : p.saveFile = true ∧ c'.state.needsSaving = true) :
      Step p c { c' with phase := .raised .io }
  /-- a minimization ends; its result is one that the minimizer can construct (position not yet reassigned).  (When `create_tasks` has
  returned no minimization is running: C24.) -/
  | done (c : Ctl d) (s : Simplex d) (r : SRes d) (hph : c.phase ≠ .returned) (hs : s ∈ c.tasks)
      (hr : ∀ ch an pa, r = .joined ch an pa → pa = none) : Step p c (taskDone p c s r)
  /-- a minimization raises an exception of the gap function. -/
  | fail (c : Ctl d) (s : Simplex d) (id : ℕ) (hph : c.phase ≠ .returned) (hs : s ∈ c.tasks) :
      Step p c (taskFail c s (.gap id))
  /-- the periodic save. -/
  | save (c : Ctl d) (enum : List (Simplex d)) (hph : c.phase = .running)
      (henum : enum.Nodup ∧ ∀ x, x ∈ enum ↔ x ∈ c.state.simplexQueue.running) : Step p c (doSave p c enum)
  /-- the periodic save, if it raises: neither the file nor the state has changed (C36). -/
  | saveFail (c : Ctl d) (hph : c.phase = .running) (hsave : p.saveFile = true ∧ c.state.needsSaving = true) : Step p c c

/-- One step of the search, or a crash (or a restart after the end) at any point. -/
inductive CrashStep {d : ℕ} (p : CtlParams d) : Ctl d → Ctl d → Prop
  | step {c c' : Ctl d} (h : Step p c c') : CrashStep p c c'
  | crash (c : Ctl d) : CrashStep p c (restart p c)

/-- Everything a search started from `c0` can reach without crashing. -/
inductive ReachFrom {d : ℕ} (p : CtlParams d) (c0 : Ctl d) : Ctl d → Prop
  | refl : ReachFrom p c0 c0
  | tail {c c' : Ctl d} (h : ReachFrom p c0 c) (hs : Step p c c') : ReachFrom p c0 c'

/-- Everything a fresh search can reach, with any number of crashes and restarts. -/
inductive Reach {d : ℕ} (p : CtlParams d) : Ctl d → Prop
  | start : Reach p (startFresh p)
  | tail {c c' : Ctl d} (h : Reach p c) (hs : CrashStep p c c') : Reach p c'

end NF
