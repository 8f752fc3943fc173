import Verif.Model.FloatDistance
import Verif.Model.Controller

/-!
# `_search_result_container.py` and `_controller.py` in floating-point arithmetic

The same functions as in `Model/Container` and `Model/Controller`, with every arithmetic operation rounded and with numpy's rules for an index that is out of range (`FL.addPointChecked`).
The parts without arithmetic (the queues, saving, failing tasks, the atomic events) are those of `Model/Controller`.
-/

noncomputable section
open Classical

namespace NF.FL

variable {d : ℕ}

/-- The arithmetic of one run: the rounding, and the distances that `CoordinateSystem.distance` (coordinate_system.py:70-79) returns (a function: the same arguments give the same result).
What they can be is said by `Spec.FloatSearch` (`Spec/FloatController`). -/
structure CtlArith (d : ℕ) where
  rnd : ℝ → ℝ
  dist : CoordSys d → Vec d → Vec d → ℝ

/-- _controller.py:73, `self.dist_cutoff = feature_size / 3`. -/
def distCutoff (A : CtlArith d) (p : CtlParams d) : ℝ := A.rnd (p.featureSize / 3)

/-- _search_result_container.py:55-75, 78-80, as `Container.empty`. -/
def emptyContainer (A : CtlArith d) (coord : CoordSys d) (gapThreshold distCutoff : ℝ) : Container d where
  coord := coord
  gapThreshold := gapThreshold
  distCutoff := distCutoff
  nodes := CellList.mk' (FL.numCellsFor A.rnd coord distCutoff) coord.periodic
  rejected := []
  refined := CellList.mk' (FL.numCellsFor A.rnd coord distCutoff) coord.periodic
  needsSaving := true

/-- _search_result_container.py:90-106, `add_result`, as `Container.addResult`; it raises if the index is out of range. -/
def addResult (A : CtlArith d) (c : Container d) (res : SRes d) : Except Err (Container d × Bool) :=
  let res := res.setPos (FL.normalizePosition A.rnd c.coord res.pos)
  if res.success = false ∨ FVal.gt res.value (FVal.ofReal c.gapThreshold) then
    .ok ({ c with rejected := c.rejected ++ [res] }, false)
  else
    match FL.addPointChecked A.rnd c.nodes (FL.getFrac A.rnd c.coord res.pos) res with
    | .ok nodes => .ok ({ c with nodes := nodes }, true)
    | .error e => .error e

/-- _search_result_container.py:108-120, `set_refined`, as `Container.setRefined`. -/
def setRefined (A : CtlArith d) (c : Container d) (pos : Vec d) : Except Err (Container d) :=
  match FL.addPointChecked A.rnd c.refined (FL.getFrac A.rnd c.coord pos) pos with
  | .ok refined => .ok { c with refined := refined, needsSaving := true }
  | .error e => .error e

/-- the loop of _search_result_container.py:73-74 -/
def addResults (A : CtlArith d) : Container d → List (SRes d) → Except Err (Container d)
  | c, [] => .ok c
  | c, r :: rs => match addResult A c r with
    | .ok c' => addResults A c'.1 rs
    | .error e => .error e

/-- the loop of _search_result_container.py:78-79 -/
def setRefineds (A : CtlArith d) : Container d → List (Vec d) → Except Err (Container d)
  | c, [] => .ok c
  | c, x :: xs => match setRefined A c x with
    | .ok c' => setRefineds A c' xs
    | .error e => .error e

/-- _search_result_container.py:46-83, `__init__`, as `Container.create`. -/
def createContainer (A : CtlArith d) (coord : CoordSys d) (minimizationResults : List (SRes d)) (gapThreshold distCutoff : ℝ)
    (refinedResults : List (Vec d)) : Except Err (Container d) :=
  match addResults A (emptyContainer A coord gapThreshold distCutoff) minimizationResults with
  | .error e => .error e
  | .ok c => match setRefineds A c refinedResults with
    | .error e => .error e
    | .ok c => .ok { c with needsSaving := true }

/-- _cell_list.py:83-86, `get_neighbour_values`, as `CellList.neighbourValues`. -/
def neighbourValues {α : Type} (A : CtlArith d) (c : CellList d α) (frac : Vec d) : List α :=
  (c.calculateNeighbourIndices (FL.getIndex A.rnd c frac)).flatMap c.cells

/-- _search_result_container.py:130-149, as `Container.neighbourDistances`. -/
def neighbourDistances (A : CtlArith d) (c : Container d) (pos : Vec d) : List ℝ :=
  ((neighbourValues A c.nodes (FL.getFrac A.rnd c.coord pos)).filter fun r => decide (∃ i, r.pos i ≠ pos i)).map fun r => A.dist c.coord pos r.pos

/-- _search_result_container.py:151-164, as `Container.refinedNeighbourDistances`. -/
def refinedNeighbourDistances (A : CtlArith d) (c : Container d) (pos : Vec d) : List ℝ :=
  (neighbourValues A c.refined (FL.getFrac A.rnd c.coord pos)).map fun q => A.dist c.coord pos q

/-- _controller.py:276-290, `_check_pos_refinement`. -/
def checkPosRefinement (A : CtlArith d) (p : CtlParams d) (result : Container d) (pos : Vec d) (countCutoff : ℤ) : Bool :=
  checkPosLoop (distCutoff A p) countCutoff 0 (refinedNeighbourDistances A result pos)

/-- _controller.py:292-305, the outer loop of `_check_simplex`, as `checkSimplexLoop`. -/
def checkSimplexLoop (A : CtlArith d) (p : CtlParams d) (result : Container d) : ℤ → List (Vec d) → Bool
  | _, [] => true
  | count, pos :: rest =>
    if (neighbourDistances A result pos).any (fun dist => decide (dist < distCutoff A p)) then
      if count + 1 > p.simplexCheckCutoff then false else checkSimplexLoop A p result (count + 1) rest
    else checkSimplexLoop A p result count rest

/-- _controller.py:292-305, `_check_simplex`. -/
def checkSimplex (A : CtlArith d) (p : CtlParams d) (result : Container d) (simplex : Simplex d) : Bool :=
  checkSimplexLoop A p result 0 simplex

/-- `pos + self.refinement_stencil` (_controller.py:212-214). -/
def translateStencil (A : CtlArith d) (pos : Vec d) (stencil : List (Simplex d)) : List (Simplex d) :=
  stencil.map fun s => s.map fun v => fun i => A.rnd (pos i + v i)

/-- _controller.py:145-179, as `createStateFrom`. -/
def createStateFrom (A : CtlArith d) (p : CtlParams d) (initial : Option (Saved d)) : Except Err (CtlState d) :=
  match initial with
  | some s =>
    match createContainer A p.coord s.results p.gapThreshold (distCutoff A p) s.refined with
    | .error e => .error e
    | .ok result =>
      let sq := RunQueue.create (normalizeSimplices s.simplices)
      .ok { result := result
            simplexQueue := if p.forceInitialMesh then sq.addObjects (normalizeSimplices p.mesh) else sq
            positionQueue := ObjQueue.create s.positions }
  | none =>
    .ok { result := emptyContainer A p.coord p.gapThreshold (distCutoff A p)
          simplexQueue := RunQueue.create (normalizeSimplices p.mesh)
          positionQueue := ObjQueue.create [] }

/-- _controller.py:200-230, one pass of the scheduling loops, as `NF.fillStep`.  In the refinement (lines 212-216) the simplices are added first, then `set_refined` can raise. -/
def fillStep (A : CtlArith d) (p : CtlParams d) (c : Ctl d) : FillStep d :=
  if ¬ ((c.state.simplexQueue.numRunning : ℤ) < p.numMinimizeParallel) then .stop
  else match c.state.simplexQueue.popQueued with
    | some (simplex, sq) =>
      if checkSimplex A p c.state.result simplex then
        .next { c with
          state := { c.state with simplexQueue := sq }
          tasks := c.tasks ++ [simplex]
          log := c.log ++ [.scheduled simplex] }
      else match sq.setFinished simplex with
        | .ok sq' => .next { c with
            state := { c.state with simplexQueue := sq' }
            log := c.log ++ [.skipped simplex] }
        | .error e => .raise e { c with state := { c.state with simplexQueue := sq } }
    | none => match c.state.positionQueue.popQueued with
      | some (pos, pq) =>
        if p.recheckPosDist = false ∨ checkPosRefinement A p c.state.result pos p.recheckCountCutoff = true then
          match p.stencil with
          | some stencil =>
            match setRefined A c.state.result pos with
            | .ok result => .next { c with
                state := {
                  result := result
                  simplexQueue := c.state.simplexQueue.addObjects (normalizeSimplices (translateStencil A pos stencil))
                  positionQueue := pq }
                log := c.log ++ [.refined pos] }
            | .error e => .raise e { c with
                state := { c.state with
                  simplexQueue := c.state.simplexQueue.addObjects (normalizeSimplices (translateStencil A pos stencil))
                  positionQueue := pq } }
          | none => .raise .type { c with state := { c.state with positionQueue := pq } }
        else .next { c with
          state := { c.state with positionQueue := pq }
          log := c.log ++ [.discarded pos] }
      | none => .stop

theorem fillStep_decreases {A : CtlArith d} {p : CtlParams d} {c c' : Ctl d} (h : fillStep A p c = .next c') :
    fillMeasure c' < fillMeasure c := by
  unfold fillStep at h
  split at h
  · cases h
  · unfold RunQueue.popQueued at h
    unfold fillMeasure
    cases hq : c.state.simplexQueue.base.queued with
    | cons x rest =>
      simp only [ObjQueue.popQueued, hq] at h
      split at h
      · injection h with h; subst h
        rw [Prod.Lex.toLex_lt_toLex]; right; simp
      · simp only [RunQueue.setFinished, Finset.mem_insert_self, if_true] at h
        injection h with h; subst h
        rw [Prod.Lex.toLex_lt_toLex]; right; simp
    | nil =>
      have e : c.state.simplexQueue.base.popQueued = none := by simp [ObjQueue.popQueued, hq]
      rw [e] at h
      simp only [ObjQueue.popQueued] at h
      cases hp : c.state.positionQueue.queued with
      | nil => simp [hp] at h
      | cons y ys =>
        simp only [hp] at h
        split at h
        · split at h
          · split at h
            · injection h with h; subst h
              rw [Prod.Lex.toLex_lt_toLex]; left; simp
            · cases h
          · cases h
        · injection h with h; subst h
          rw [Prod.Lex.toLex_lt_toLex]; left; simp

/-- _controller.py:200-230, the scheduling round, as `NF.fill`. -/
def fill (A : CtlArith d) (p : CtlParams d) (c : Ctl d) : Option Err × Ctl d :=
  match _h : fillStep A p c with
  | .stop => (none, c)
  | .raise e c' => (some e, c')
  | .next c' => fill A p c'
termination_by fillMeasure c
decreasing_by exact fillStep_decreases _h

/-- _controller.py:264-274, `process_result`, as `NF.processResult`; it raises if `add_result` does. -/
def processResult (A : CtlArith d) (p : CtlParams d) (s : CtlState d) (r : SRes d) : Except Err (CtlState d) :=
  match addResult A s.result r with
  | .error e => .error e
  | .ok added =>
    let pos := FL.normalizePosition A.rnd p.coord r.pos
    if added.2 = true ∧ p.stencil.isSome = true then
      if checkPosRefinement A p added.1 pos 0 then
        .ok { s with result := added.1, positionQueue := s.positionQueue.addObjects [pos] }
      else .ok { s with result := added.1 }
    else .ok { s with result := added.1 }

/-- _controller.py:251-262, the end of `run_simplex`, as `NF.taskDone`; if `process_result` raises, the task ends with that exception. -/
def taskDone (A : CtlArith d) (p : CtlParams d) (c : Ctl d) (s : Simplex d) (r : SRes d) : Ctl d :=
  match processResult A p c.state r with
  | .error e => taskFail c s e
  | .ok st => match st.simplexQueue.setFinished s with
    | .ok sq => { c with
        state := { st with simplexQueue := sq }
        tasks := c.tasks.erase s
        log := c.log ++ [.completed s r] }
    | .error e => { c with
        state := st
        tasks := c.tasks.erase s
        failed := c.failed ++ [(s, e)]
        log := c.log ++ [.completed s r, .failed s] }

/-- the controller at the start of `create_tasks` (_controller.py:62-108), as `NF.startFrom`. -/
def startFrom (A : CtlArith d) (p : CtlParams d) (disk : Option (Saved d)) (initial : Option (Saved d)) : Except Err (Ctl d) :=
  match createStateFrom A p initial with
  | .error e => .error e
  | .ok st => .ok { state := st, tasks := [], failed := [], disk := disk, phase := .running, log := [],
                    base := st.result.minimizationResults }

/-- One step of the search (without crashes): the events of `NF.Step` (_controller.py:190-274, 307-321).  `Res s r` says that a minimization of `s` can give `r`. -/
inductive Step (A : CtlArith d) (p : CtlParams d) (Res : Simplex d → SRes d → Prop) : Ctl d → Ctl d → Prop
  | tickRaise (c : Ctl d) (s : Simplex d) (e : Err) (enum : List (Simplex d)) (hph : c.phase = .running)
      (hf : (s, e) ∈ c.failed) (henum : enum.Nodup ∧ ∀ x, x ∈ enum ↔ x ∈ c.state.simplexQueue.running) :
      Step A p Res c { doSave p c enum with phase := .raised e }
  | tickReturn (c : Ctl d) (enum : List (Simplex d)) (hph : c.phase = .running) (hf : c.failed = [])
      (hcond : ¬ loopCondition c) (henum : enum.Nodup ∧ ∀ x, x ∈ enum ↔ x ∈ c.state.simplexQueue.running) :
      Step A p Res c { doSave p c enum with phase := .returned }
  | tickFill (c c' : Ctl d) (hph : c.phase = .running) (hf : c.failed = []) (hcond : loopCondition c)
      (hfill : fill A p c = (none, c')) : Step A p Res c c'
  | tickFillRaise (c c' : Ctl d) (e : Err) (enum : List (Simplex d)) (hph : c.phase = .running) (hf : c.failed = [])
      (hcond : loopCondition c) (hfill : fill A p c = (some e, c'))
      (henum : enum.Nodup ∧ ∀ x, x ∈ enum ↔ x ∈ c'.state.simplexQueue.running) :
      Step A p Res c { doSave p c' enum with phase := .raised e }
  | exitSaveFail (c : Ctl d) (hph : c.phase = .running) (hx : c.failed ≠ [] ∨ ¬ loopCondition c)
      (hsave : p.saveFile = true ∧ c.state.needsSaving = true) : Step A p Res c { c with phase := .raised .io }
  | fillRaiseSaveFail (c c' : Ctl d) (e : Err) (hph : c.phase = .running) (hf : c.failed = []) (hcond : loopCondition c)
      (hfill : fill A p c = (some e, c')) (hsave : p.saveFile = true ∧ c'.state.needsSaving = true) :
      Step A p Res c { c' with phase := .raised .io }
  | done (c : Ctl d) (s : Simplex d) (r : SRes d) (hph : c.phase ≠ .returned) (hs : s ∈ c.tasks)
      (hr : ∀ ch an pa, r = .joined ch an pa → pa = none) (hres : Res s r) : Step A p Res c (taskDone A p c s r)
  | fail (c : Ctl d) (s : Simplex d) (id : ℕ) (hph : c.phase ≠ .returned) (hs : s ∈ c.tasks) :
      Step A p Res c (taskFail c s (.gap id))
  | save (c : Ctl d) (enum : List (Simplex d)) (hph : c.phase = .running)
      (henum : enum.Nodup ∧ ∀ x, x ∈ enum ↔ x ∈ c.state.simplexQueue.running) : Step A p Res c (doSave p c enum)
  | saveFail (c : Ctl d) (hph : c.phase = .running) (hsave : p.saveFile = true ∧ c.state.needsSaving = true) : Step A p Res c c

/-- Everything a fresh search can reach with at most `n` crashes and restarts (as `NF.Reach`, _controller.py:128-179 for the restarts).  A restart reads the save file, if there is one; it may raise. -/
inductive Reach (A : CtlArith d) (p : CtlParams d) (Res : Simplex d → SRes d → Prop) : ℕ → Ctl d → Prop
  | start {n : ℕ} {c : Ctl d} (h : startFrom A p none none = .ok c) : Reach A p Res n c
  | step {n : ℕ} {c c' : Ctl d} (h : Reach A p Res n c) (hs : Step A p Res c c') : Reach A p Res n c'
  | crash {n : ℕ} {c c' : Ctl d} (h : Reach A p Res n c) (hs : startFrom A p c.disk c.disk = .ok c') : Reach A p Res (n + 1) c'

end NF.FL
