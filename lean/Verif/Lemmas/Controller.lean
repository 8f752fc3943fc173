import Verif.Lemmas.Container
import Verif.Props.Queue
import Verif.Spec.Controller

/-! # Helper lemmas about the search loop -/

noncomputable section
open Classical
namespace NF
open Spec CoordSys
variable {d : ℕ}

/-! ## log functions -/

@[simp] theorem handled_append (a b : List (LogEntry d)) : handled (a ++ b) = handled a ++ handled b := by
  induction a with
  | nil => rfl
  | cons x a ih => cases x <;> simp [handled, ih]

@[simp] theorem completedResults_append (a b : List (LogEntry d)) :
    completedResults (a ++ b) = completedResults a ++ completedResults b := by
  induction a with
  | nil => rfl
  | cons x a ih => cases x <;> simp [completedResults, ih]

@[simp] theorem completedSimplices_append (a b : List (LogEntry d)) :
    completedSimplices (a ++ b) = completedSimplices a ++ completedSimplices b := by
  induction a with
  | nil => rfl
  | cons x a ih => cases x <;> simp [completedSimplices, ih]

@[simp] theorem scheduledSimplices_append (a b : List (LogEntry d)) :
    scheduledSimplices (a ++ b) = scheduledSimplices a ++ scheduledSimplices b := by
  induction a with
  | nil => rfl
  | cons x a ih => cases x <;> simp [scheduledSimplices, ih]

@[simp] theorem refinedPositions_append (a b : List (LogEntry d)) :
    refinedPositions (a ++ b) = refinedPositions a ++ refinedPositions b := by
  induction a with
  | nil => rfl
  | cons x a ih => cases x <;> simp [refinedPositions, ih]

/-! ## distinct simplices -/

theorem nodup_normalizeSimplices {l : List (Simplex d)} (h : DistinctSimplices l) :
    (normalizeSimplices l).Nodup := by
  unfold normalizeSimplices List.Nodup
  rw [List.pairwise_map]
  exact List.Pairwise.imp (fun hab e => hab ((normalizeSimplex_eq_iff _ _).1 e)) h

theorem distinct_translate {l : List (Simplex d)} (pos : Vec d) (h : DistinctSimplices l) :
    DistinctSimplices (translateStencil pos l) := by
  unfold translateStencil DistinctSimplices
  rw [List.pairwise_map]
  refine List.Pairwise.imp ?_ h
  intro a b hab hp
  apply hab
  refine (List.map_perm_map_iff ?_).1 hp
  intro v w e
  funext i
  have := congrFun e i
  simpa using this

theorem length_normalizeSimplices (l : List (Simplex d)) : (normalizeSimplices l).length = l.length := by
  simp [normalizeSimplices]

/-! ## the scheduling step -/

namespace RunQueue
variable {α : Type}
/-- the queue after handing out its first object -/
def popTo (q : RunQueue α) (x : α) (rest : List α) : RunQueue α :=
  ⟨{ q.base with queued := rest }, insert x q.running⟩
/-- the queue after a successful `set_finished` -/
def finishOf (q : RunQueue α) (x : α) : RunQueue α :=
  ⟨{ q.base with needsSaving := true }, q.running.erase x⟩
theorem popQueued_cons {q : RunQueue α} {x : α} {rest : List α} (h : q.base.queued = x :: rest) :
    q.popQueued = some (x, q.popTo x rest) := by
  simp [popQueued, ObjQueue.popQueued, h, popTo]
theorem popQueued_nil {q : RunQueue α} (h : q.base.queued = []) : q.popQueued = none := by
  simp [popQueued, ObjQueue.popQueued, h]
theorem setFinished_of_mem {q : RunQueue α} {x : α} (h : x ∈ q.running) : q.setFinished x = .ok (q.finishOf x) := by
  simp [setFinished, h, finishOf]
theorem setFinished_of_not_mem {q : RunQueue α} {x : α} (h : x ∉ q.running) : q.setFinished x = .error .key := by
  simp [setFinished, h]
@[simp] theorem mem_popTo {q : RunQueue α} {x : α} {rest : List α} {y : α} :
    y ∈ (q.popTo x rest).running ↔ y = x ∨ y ∈ q.running := by simp [popTo]
@[simp] theorem popTo_queued {q : RunQueue α} {x : α} {rest : List α} : (q.popTo x rest).base.queued = rest := rfl
@[simp] theorem popTo_all {q : RunQueue α} {x : α} {rest : List α} : (q.popTo x rest).base.all = q.base.all := rfl
@[simp] theorem popTo_needs {q : RunQueue α} {x : α} {rest : List α} :
    (q.popTo x rest).base.needsSaving = q.base.needsSaving := rfl
@[simp] theorem mem_finishOf {q : RunQueue α} {x y : α} :
    y ∈ (q.finishOf x).running ↔ y ≠ x ∧ y ∈ q.running := by simp [finishOf]
@[simp] theorem finishOf_queued {q : RunQueue α} {x : α} : (q.finishOf x).base.queued = q.base.queued := rfl
@[simp] theorem finishOf_all {q : RunQueue α} {x : α} : (q.finishOf x).base.all = q.base.all := rfl
@[simp] theorem finishOf_needs {q : RunQueue α} {x : α} : (q.finishOf x).base.needsSaving = true := rfl
end RunQueue

namespace ObjQueue
variable {α : Type}
/-- the queue after handing out its first object -/
def popTo (q : ObjQueue α) (rest : List α) : ObjQueue α := { q with queued := rest }
theorem popQueued_cons {q : ObjQueue α} {x : α} {rest : List α} (h : q.queued = x :: rest) :
    q.popQueued = some (x, q.popTo rest) := by
  simp [popQueued, h, popTo]
theorem popQueued_nil {q : ObjQueue α} (h : q.queued = []) : q.popQueued = none := by
  simp [popQueued, h]
@[simp] theorem popTo_queued {q : ObjQueue α} {rest : List α} : (q.popTo rest).queued = rest := rfl
@[simp] theorem popTo_all {q : ObjQueue α} {rest : List α} : (q.popTo rest).all = q.all := rfl
@[simp] theorem popTo_needs {q : ObjQueue α} {rest : List α} : (q.popTo rest).needsSaving = q.needsSaving := rfl
end ObjQueue

theorem fillStep_next {p : CtlParams d} {c c' : Ctl d} (h : fillStep p c = .next c') :
    (c.state.simplexQueue.numRunning : ℤ) < p.numMinimizeParallel ∧
    ((∃ x rest, c.state.simplexQueue.base.queued = x :: rest ∧ checkSimplex p c.state.result x = true ∧
        c' = { c with
          state := { c.state with simplexQueue := c.state.simplexQueue.popTo x rest }
          tasks := c.tasks ++ [x], log := c.log ++ [.scheduled x] }) ∨
     (∃ x rest, c.state.simplexQueue.base.queued = x :: rest ∧ checkSimplex p c.state.result x = false ∧
        c' = { c with
          state := { c.state with simplexQueue := (c.state.simplexQueue.popTo x rest).finishOf x }
          log := c.log ++ [.skipped x] }) ∨
     (∃ pos rest st, c.state.simplexQueue.base.queued = [] ∧ c.state.positionQueue.queued = pos :: rest ∧
        (p.recheckPosDist = false ∨ checkPosRefinement p c.state.result pos p.recheckCountCutoff = true) ∧
        p.stencil = some st ∧
        c' = { c with
          state := ⟨c.state.result.setRefined pos,
            c.state.simplexQueue.addObjects (normalizeSimplices (translateStencil pos st)),
            c.state.positionQueue.popTo rest⟩
          log := c.log ++ [.refined pos] }) ∨
     (∃ pos rest, c.state.simplexQueue.base.queued = [] ∧ c.state.positionQueue.queued = pos :: rest ∧
        p.recheckPosDist = true ∧ checkPosRefinement p c.state.result pos p.recheckCountCutoff = false ∧
        c' = { c with
          state := { c.state with positionQueue := c.state.positionQueue.popTo rest }
          log := c.log ++ [.discarded pos] })) := by
  unfold fillStep at h
  split at h
  · cases h
  · rename_i hlt
    refine ⟨by simpa using hlt, ?_⟩
    cases hq : c.state.simplexQueue.base.queued with
    | cons x rest =>
      simp only [RunQueue.popQueued_cons hq] at h
      split at h
      · rename_i hc
        injection h with h; subst h
        left; exact ⟨x, rest, rfl, hc, rfl⟩
      · rename_i hc
        have hx : x ∈ (c.state.simplexQueue.popTo x rest).running := by simp
        simp only [RunQueue.setFinished_of_mem hx] at h
        injection h with h; subst h
        right; left; exact ⟨x, rest, rfl, by simpa using hc, rfl⟩
    | nil =>
      simp only [RunQueue.popQueued_nil hq] at h
      cases hp : c.state.positionQueue.queued with
      | nil => simp [ObjQueue.popQueued_nil hp] at h
      | cons y ys =>
        simp only [ObjQueue.popQueued_cons hp] at h
        split at h
        · rename_i hc
          cases hst : p.stencil with
          | none => simp [hst] at h
          | some st =>
            simp only [hst] at h
            injection h with h; subst h
            right; right; left; exact ⟨y, ys, st, rfl, rfl, hc, rfl, rfl⟩
        · rename_i hc
          injection h with h; subst h
          right; right; right
          push Not at hc
          exact ⟨y, ys, rfl, rfl, by simpa using hc.1, by simpa using hc.2, rfl⟩

theorem fillStep_stop {p : CtlParams d} {c : Ctl d} (h : fillStep p c = .stop) :
    p.numMinimizeParallel ≤ c.state.simplexQueue.numRunning ∨
      (c.state.simplexQueue.base.queued = [] ∧ c.state.positionQueue.queued = []) := by
  unfold fillStep at h
  split at h
  · rename_i hlt; left; simpa using hlt
  · right
    cases hq : c.state.simplexQueue.base.queued with
    | cons x rest =>
      simp only [RunQueue.popQueued_cons hq] at h
      split at h
      · cases h
      · have hx : x ∈ (c.state.simplexQueue.popTo x rest).running := by simp
        simp [RunQueue.setFinished_of_mem hx] at h
    | nil =>
      simp only [RunQueue.popQueued_nil hq] at h
      cases hp : c.state.positionQueue.queued with
      | nil => exact ⟨rfl, rfl⟩
      | cons y ys =>
        simp only [ObjQueue.popQueued_cons hp] at h
        split at h
        · split at h <;> cases h
        · cases h

theorem fillStep_raise {p : CtlParams d} {c c' : Ctl d} {e : Err} (h : fillStep p c = .raise e c') :
    e = .type ∧ p.stencil = none ∧ ∃ pos rest, c.state.positionQueue.queued = pos :: rest ∧
      c' = { c with state := { c.state with positionQueue := c.state.positionQueue.popTo rest } } := by
  unfold fillStep at h
  split at h
  · cases h
  · cases hq : c.state.simplexQueue.base.queued with
    | cons x rest =>
      simp only [RunQueue.popQueued_cons hq] at h
      split at h
      · cases h
      · have hx : x ∈ (c.state.simplexQueue.popTo x rest).running := by simp
        simp [RunQueue.setFinished_of_mem hx] at h
    | nil =>
      simp only [RunQueue.popQueued_nil hq] at h
      cases hp : c.state.positionQueue.queued with
      | nil => simp [ObjQueue.popQueued_nil hp] at h
      | cons y ys =>
        simp only [ObjQueue.popQueued_cons hp] at h
        split at h
        · cases hst : p.stencil with
          | none =>
            simp only [hst] at h
            injection h with h1 h2
            exact ⟨h1.symm, rfl, y, ys, rfl, h2.symm⟩
          | some st => simp [hst] at h
        · cases h

/-- Induction over the scheduling round: what every pass preserves, the round preserves. -/
theorem fill_induction {p : CtlParams d} {P : Ctl d → Prop}
    (hstep : ∀ c c', P c → fillStep p c = .next c' → P c') :
    ∀ (c : Ctl d), P c → ∀ e c', fill p c = (e, c') →
      ∃ c1, P c1 ∧ ((e = none ∧ c' = c1 ∧ fillStep p c1 = .stop) ∨
        ∃ err, e = some err ∧ fillStep p c1 = .raise err c') := by
  intro c
  induction hm : fillMeasure c using WellFoundedLT.induction generalizing c with
  | _ m ih =>
  intro hP e c' h
  rw [fill] at h
  split at h
  · rename_i hs
    injection h with h1 h2
    exact ⟨c, hP, Or.inl ⟨h1.symm, h2.symm, hs⟩⟩
  · rename_i e0 c0 hs
    injection h with h1 h2
    subst h2
    exact ⟨c, hP, Or.inr ⟨e0, h1.symm, hs⟩⟩
  · rename_i c0 hs
    exact ih (fillMeasure c0) (hm ▸ fillStep_decreases hs) c0 rfl (hstep c c0 hP hs) e c' h

end NF

namespace NF
open Spec CoordSys
variable {d : ℕ}

/-! ## generic preservation -/

/-- A freshly made result: its position has not been reassigned. -/
def FreshRes (r : SRes d) : Prop := ∀ ch an pa, r = .joined ch an pa → pa = none

/-- What is preserved by every elementary operation is preserved by every step. -/
theorem Step.preserves {p : CtlParams d} {P : Ctl d → Prop}
    (hfill : ∀ c c', P c → fillStep p c = .next c' → P c')
    (hraise : ∀ c e c', P c → fillStep p c = .raise e c' → P c')
    (hdone : ∀ c s r, P c → s ∈ c.tasks → FreshRes r → P (taskDone p c s r))
    (hfail : ∀ c s id, P c → s ∈ c.tasks → P (taskFail c s (.gap id)))
    (hsave : ∀ c enum, P c → IsEnum enum c.state.simplexQueue.running → P (doSave p c enum))
    (hphase : ∀ c ph, P c → P { c with phase := ph })
    {c c' : Ctl d} (h : P c) (hs : Step p c c') : P c' := by
  cases hs with
  | tickRaise s e enum hph hf henum => exact hphase _ _ (hsave _ _ h henum)
  | tickReturn enum hph hf hcond henum => exact hphase _ _ (hsave _ _ h henum)
  | tickFill _ hph hf hcond hfill' =>
    obtain ⟨c1, hc1, h1 | ⟨err, h1, -⟩⟩ := fill_induction hfill c h _ _ hfill'
    · rw [h1.2.1]; exact hc1
    · cases h1
  | tickFillRaise c' e enum hph hf hcond hfill' henum =>
    obtain ⟨c1, hc1, h1 | ⟨err, -, h2⟩⟩ := fill_induction hfill c h _ _ hfill'
    · cases h1.1
    · exact hphase _ _ (hsave _ _ (hraise _ _ _ hc1 h2) henum)
  | exitSaveFail hph hx hsv => exact hphase _ _ h
  | fillRaiseSaveFail c' e hph hf hcond hfill' hsv =>
    obtain ⟨c1, hc1, h1 | ⟨err, -, h2⟩⟩ := fill_induction hfill c h _ _ hfill'
    · cases h1.1
    · exact hphase _ _ (hraise _ _ _ hc1 h2)
  | done s r hph hs hr => exact hdone _ _ _ h hs hr
  | fail s id hph hs => exact hfail _ _ _ h hs
  | save enum hph henum => exact hsave _ _ h henum
  | saveFail hph hsv => exact h

theorem Reach.induction {p : CtlParams d} {P : Ctl d → Prop} (h0 : P (startFresh p))
    (hstep : ∀ c c', P c → Step p c c' → P c') (hcrash : ∀ c, P c → P (restart p c)) {c : Ctl d} (h : Reach p c) : P c := by
  induction h with
  | start => exact h0
  | tail _ hs ih =>
    cases hs with
    | step hs => exact hstep _ _ ih hs
    | crash => exact hcrash _ ih

/-! ## projections of the elementary operations -/

theorem doSave_eq (p : CtlParams d) (c : Ctl d) (enum : List (Simplex d)) :
    (p.saveFile = true ∧ c.state.needsSaving = true ∧
      doSave p c enum = { c with disk := some (c.state.snapshot enum), state := c.state.setSaved }) ∨
    (¬ (p.saveFile = true ∧ c.state.needsSaving = true) ∧ doSave p c enum = c) := by
  unfold doSave
  split
  · rename_i h; exact Or.inl ⟨h.1, h.2, rfl⟩
  · rename_i h; exact Or.inr ⟨h, rfl⟩

theorem processResult_cases (p : CtlParams d) (s : CtlState d) (r : SRes d) :
    (processResult p s r).result = (s.result.addResult r).1 ∧
    (processResult p s r).simplexQueue = s.simplexQueue ∧
    (((s.result.addResult r).2 = true ∧ p.stencil.isSome = true ∧
        checkPosRefinement p (s.result.addResult r).1 (p.coord.normalizePosition r.pos) 0 = true ∧
        (processResult p s r).positionQueue = s.positionQueue.addObjects [p.coord.normalizePosition r.pos]) ∨
     ((processResult p s r).positionQueue = s.positionQueue ∧
       ((s.result.addResult r).2 = true → p.stencil.isSome = true →
        checkPosRefinement p (s.result.addResult r).1 (p.coord.normalizePosition r.pos) 0 = false))) := by
  unfold processResult
  simp only
  split
  · rename_i h
    split
    · rename_i h2; exact ⟨rfl, rfl, Or.inl ⟨h.1, h.2, h2, rfl⟩⟩
    · rename_i h2; exact ⟨rfl, rfl, Or.inr ⟨rfl, fun _ _ => by simpa using h2⟩⟩
  · rename_i h; exact ⟨rfl, rfl, Or.inr ⟨rfl, fun h1 h2 => absurd ⟨h1, h2⟩ h⟩⟩

theorem taskDone_of_mem {p : CtlParams d} {c : Ctl d} {s : Simplex d} (r : SRes d)
    (h : s ∈ c.state.simplexQueue.running) :
    taskDone p c s r = { c with
      state := { processResult p c.state r with simplexQueue := c.state.simplexQueue.finishOf s }
      tasks := c.tasks.erase s
      log := c.log ++ [.completed s r] } := by
  unfold taskDone
  simp only [(processResult_cases p c.state r).2.1, RunQueue.setFinished_of_mem h]

theorem objAddObjects (q : ObjQueue (Vec d)) (x : Vec d) :
    (x ∈ q.all ∧ q.addObjects [x] = q) ∨
      (x ∉ q.all ∧ q.addObjects [x] = ⟨q.queued ++ [x], q.all ∪ {y | y ∈ [x]}, true⟩) := by
  by_cases h : x ∈ q.all
  · left; exact ⟨h, by simp [ObjQueue.addObjects, h]⟩
  · right; exact ⟨h, by simp [ObjQueue.addObjects, h]⟩

theorem runAddObjects_needs (q : RunQueue (Simplex d)) (l : List (Simplex d)) :
    (q.addObjects l).base.needsSaving = true ∨
      (q.addObjects l = q) := by
  unfold RunQueue.addObjects ObjQueue.addObjects
  simp only
  split
  · right; rfl
  · left; rfl

/-! ## the accounting invariant -/

theorem addResult_perm {res : Container d} {cs : CoordSys d} {g dc : ℝ} (h : res.Inv cs g dc) (r : SRes d) :
    (res.addResult r).1.minimizationResults.Perm (res.minimizationResults ++ [Container.stored cs r]) := by
  rw [Container.addResult_def, h.coord]
  split
  · simp only [Container.minimizationResults, CellList.values, CellList.addPoint]
    rw [List.append_assoc, List.append_assoc]
    exact List.Perm.append_left _ List.perm_append_comm
  · simp only [Container.minimizationResults, CellList.values]
    rw [List.append_assoc]

/-- The bookkeeping invariant of a search. -/
structure Acct (p : CtlParams d) (c : Ctl d) : Prop where
  nodup : (handled c.log ++ outstanding c).Nodup
  mem : ∀ s, s ∈ handled c.log ++ outstanding c ↔ s ∈ c.state.simplexQueue.base.all
  run : ∀ s, s ∈ c.tasks ++ c.failed.map Prod.fst ↔ s ∈ c.state.simplexQueue.running
  norm : ∀ s ∈ c.state.simplexQueue.base.all, ∃ s0, s = normalizeSimplex s0
  gapErr : ∀ x ∈ c.failed, ∃ id, x.2 = .gap id
  logFailed : ∀ s, LogEntry.failed s ∈ c.log → s ∈ c.failed.map Prod.fst
  cont : c.state.result.Inv p.coord p.gapThreshold p.distCutoff
  results : c.state.result.minimizationResults.Perm
    (c.base ++ (completedResults c.log).map (Container.stored p.coord))
  fresh : ∀ r ∈ c.state.result.minimizationResults, ∃ r0, r = Container.stored p.coord r0
  posq : ∀ x ∈ c.state.positionQueue.queued, x ∈ c.state.positionQueue.all
  sched : (scheduledSimplices c.log).Perm (completedSimplices c.log ++ (c.tasks ++ c.failed.map Prod.fst))


theorem Acct.transport {p : CtlParams d} {c c' : Ctl d} (h : Acct p c) (hperm : (handled c'.log ++ outstanding c').Perm
      (handled c.log ++ outstanding c)) (hall : c'.state.simplexQueue.base.all = c.state.simplexQueue.base.all)
    : (handled c'.log ++ outstanding c').Nodup ∧
      (∀ s, s ∈ handled c'.log ++ outstanding c' ↔ s ∈ c'.state.simplexQueue.base.all) :=
  ⟨hperm.nodup_iff.2 h.nodup, fun s => by rw [hperm.mem_iff, h.mem, hall]⟩

theorem Acct.fillStep {p : CtlParams d} (hd : DistinctInput p) {c c' : Ctl d} (h : Acct p c)
    (hs : fillStep p c = .next c') : Acct p c' := by
  obtain ⟨-, ⟨x, rest, hq, -, rfl⟩ | ⟨x, rest, hq, -, rfl⟩ | ⟨pos, rest, st, hq, hpq, -, hst, rfl⟩ |
    ⟨pos, rest, hq, hpq, -, -, rfl⟩⟩ := fillStep_next hs
  · -- scheduled
    have hx : x ∉ c.tasks ++ c.failed.map Prod.fst := by
      intro hx
      have := h.nodup
      simp only [outstanding, hq] at this
      have := (List.nodup_append.1 (List.nodup_append.1 this).2.1).2.2
      exact this x hx x (by simp) rfl
    have hperm : (handled (c.log ++ [LogEntry.scheduled x]) ++ ((c.tasks ++ [x]) ++ c.failed.map Prod.fst ++ rest)).Perm
        (handled c.log ++ outstanding c) := by
      simp only [outstanding, hq, handled_append, handled, List.append_nil]
      refine List.Perm.append_left _ ?_
      rw [List.append_assoc, List.append_assoc, List.append_assoc]
      refine List.Perm.append_left _ ?_
      simpa using List.perm_middle.symm
    obtain ⟨h1, h2⟩ := Acct.transport (c' := { c with
          state := { c.state with simplexQueue := c.state.simplexQueue.popTo x rest }
          tasks := c.tasks ++ [x], log := c.log ++ [.scheduled x] }) h hperm rfl
    refine ⟨h1, h2, ?_, h.norm, h.gapErr, ?_, h.cont, ?_, h.fresh, h.posq, ?_⟩
    · intro s
      have := h.run s
      simp only [List.mem_append, RunQueue.mem_popTo, List.mem_singleton] at this ⊢
      rw [← this]; tauto
    · intro s hs
      apply h.logFailed s
      simpa using hs
    · simpa [completedResults] using h.results
    · simp only [scheduledSimplices_append, completedSimplices_append, scheduledSimplices, completedSimplices, List.append_nil]
      refine (h.sched.append_right [x]).trans ?_
      simp only [List.append_assoc]
      refine List.Perm.append_left _ (List.Perm.append_left _ List.perm_append_comm)
  · -- skipped
    have hxr : x ∉ c.tasks ++ c.failed.map Prod.fst := by
      intro hx
      have := h.nodup
      simp only [outstanding, hq] at this
      have := (List.nodup_append.1 (List.nodup_append.1 this).2.1).2.2
      exact this x hx x (by simp) rfl
    have hperm : (handled (c.log ++ [LogEntry.skipped x]) ++ (c.tasks ++ c.failed.map Prod.fst ++ rest)).Perm
        (handled c.log ++ outstanding c) := by
      simp only [outstanding, hq, handled_append, handled]
      rw [List.append_assoc]
      refine List.Perm.append_left _ ?_
      simpa using (List.perm_middle (a := x) (l₁ := c.tasks ++ c.failed.map Prod.fst) (l₂ := rest)).symm
    obtain ⟨h1, h2⟩ := Acct.transport (c' := { c with
          state := { c.state with simplexQueue := (c.state.simplexQueue.popTo x rest).finishOf x }
          log := c.log ++ [.skipped x] }) h hperm rfl
    refine ⟨h1, h2, ?_, h.norm, h.gapErr, ?_, h.cont, ?_, h.fresh, h.posq, ?_⟩
    · intro s
      simp only [RunQueue.mem_finishOf, RunQueue.mem_popTo]
      rw [← h.run s]
      constructor
      · intro hs; exact ⟨fun e => hxr (e ▸ hs), Or.inr hs⟩
      · rintro ⟨h1, h2 | h2⟩
        · exact absurd h2 h1
        · exact h2
    · intro s hs
      apply h.logFailed s
      simpa using hs
    · simpa [completedResults] using h.results
    · simpa [scheduledSimplices, completedSimplices] using h.sched
  · -- refined
    set new := normalizeSimplices (translateStencil pos st) with hnew
    have hnd : new.Nodup := nodup_normalizeSimplices (distinct_translate pos (hd.2 st hst))
    obtain ⟨a1, a2, a3⟩ := addObjects_queued c.state.simplexQueue new
    have hl : handled (c.log ++ [LogEntry.refined pos]) ++ outstanding { c with
          state := ⟨c.state.result.setRefined pos, c.state.simplexQueue.addObjects new,
            c.state.positionQueue.popTo rest⟩
          log := c.log ++ [.refined pos] }
        = (handled c.log ++ outstanding c) ++ new.filter (fun o => decide (o ∉ c.state.simplexQueue.base.all)) := by
      simp [outstanding, handled, a1]
    refine ⟨?_, ?_, ?_, ?_, h.gapErr, ?_, h.cont.setRefined pos, ?_, h.fresh, ?_, ?_⟩
    · refine hl ▸ List.nodup_append.2 ⟨h.nodup, hnd.filter _, ?_⟩
      rintro a ha b hb rfl
      have := (List.mem_filter.1 hb).2
      simp only [decide_eq_true_eq] at this
      exact this ((h.mem a).1 ha)
    · intro s
      refine hl ▸ ?_
      rw [List.mem_append, h.mem]
      simp only [a2, List.mem_filter, decide_eq_true_eq, Set.mem_union, Set.mem_ofPred_eq]
      by_cases hs : s ∈ c.state.simplexQueue.base.all <;> simp [hs]
    · intro s; simp only [a3]; exact h.run s
    · intro s hs
      simp only [a2, Set.mem_union, Set.mem_ofPred_eq] at hs
      rcases hs with hs | hs
      · exact h.norm s hs
      · rw [hnew, normalizeSimplices] at hs
        obtain ⟨s0, -, rfl⟩ := List.mem_map.1 hs
        exact ⟨s0, rfl⟩
    · intro s hs
      apply h.logFailed s
      simpa using hs
    · have : (c.state.result.setRefined pos).minimizationResults = c.state.result.minimizationResults := rfl
      simp only [this]
      simpa [completedResults] using h.results
    · intro x hx
      apply h.posq x
      rw [hpq]; exact List.mem_cons_of_mem _ hx
    · simpa [scheduledSimplices, completedSimplices] using h.sched
  · -- discarded
    have hperm : (handled (c.log ++ [LogEntry.discarded pos]) ++ outstanding c).Perm
        (handled c.log ++ outstanding c) := by
      simp [handled]
    obtain ⟨h1, h2⟩ := Acct.transport (c' := { c with
          state := { c.state with positionQueue := c.state.positionQueue.popTo rest }
          log := c.log ++ [.discarded pos] }) h hperm rfl
    refine ⟨h1, h2, h.run, h.norm, h.gapErr, ?_, h.cont, ?_, h.fresh, ?_, ?_⟩
    · intro s hs
      apply h.logFailed s
      simpa using hs
    · simpa [completedResults] using h.results
    · intro x hx
      apply h.posq x
      rw [hpq]; exact List.mem_cons_of_mem _ hx
    · simpa [scheduledSimplices, completedSimplices] using h.sched

theorem Acct.raise {p : CtlParams d} {c c' : Ctl d} {e : Err} (h : Acct p c)
    (hs : NF.fillStep p c = .raise e c') : Acct p c' := by
  obtain ⟨-, -, pos, rest, hpq, rfl⟩ := fillStep_raise hs
  refine ⟨h.nodup, h.mem, h.run, h.norm, h.gapErr, h.logFailed, h.cont, h.results, h.fresh, ?_, h.sched⟩
  intro x hx
  apply h.posq x
  rw [hpq]; exact List.mem_cons_of_mem _ hx

theorem Acct.taskDone {p : CtlParams d} {c : Ctl d} {s : Simplex d} {r : SRes d} (h : Acct p c)
    (hs : s ∈ c.tasks) : Acct p (taskDone p c s r) := by
  have hrun : s ∈ c.state.simplexQueue.running := (h.run s).1 (List.mem_append_left _ hs)
  rw [taskDone_of_mem r hrun]
  obtain ⟨pr1, pr2, pr3⟩ := processResult_cases p c.state r
  have herase : c.tasks.Perm (s :: c.tasks.erase s) := List.perm_cons_erase hs
  have hperm : (handled (c.log ++ [LogEntry.completed s r]) ++
      (c.tasks.erase s ++ c.failed.map Prod.fst ++ c.state.simplexQueue.base.queued)).Perm
      (handled c.log ++ outstanding c) := by
    simp only [outstanding, handled_append, handled]
    rw [List.append_assoc]
    refine List.Perm.append_left _ ?_
    simp only [List.append_assoc]
    exact (herase.symm.append_right _)
  obtain ⟨h1, h2⟩ := Acct.transport (c' := { c with
      state := { processResult p c.state r with simplexQueue := c.state.simplexQueue.finishOf s }
      tasks := c.tasks.erase s
      log := c.log ++ [.completed s r] }) h hperm rfl
  have hs_not : s ∉ c.tasks.erase s ++ c.failed.map Prod.fst := by
    have := h1
    have h3 := List.nodup_append.1 this
    intro hin
    refine h3.2.2 s ?_ s ?_ rfl
    · simp [handled]
    · exact List.mem_append_left _ hin
  refine ⟨h1, h2, ?_, h.norm, h.gapErr, ?_, ?_, ?_, ?_, ?_, ?_⟩
  · intro x
    simp only [RunQueue.mem_finishOf]
    rw [← h.run x, List.mem_append, List.mem_append, herase.mem_iff, List.mem_cons]
    constructor
    · intro hx
      refine ⟨fun e => hs_not (by subst e; exact List.mem_append.2 hx), ?_⟩
      tauto
    · rintro ⟨hne, h' ⟩
      tauto
  · intro x hx
    apply h.logFailed x
    simpa using hx
  · simp only [pr1]; exact h.cont.addResult r
  · simp only [pr1, completedResults_append, completedResults, List.map_append, List.map_cons, List.map_nil]
    rw [← List.append_assoc]
    exact (addResult_perm h.cont r).trans (h.results.append_right _)
  · intro x hx
    simp only [pr1] at hx
    rcases List.mem_append.1 ((addResult_perm h.cont r).mem_iff.1 hx) with hx | hx
    · exact h.fresh x hx
    · exact ⟨r, List.mem_singleton.1 hx⟩
  · intro x hx
    simp only at hx ⊢
    rcases pr3 with ⟨-, -, -, e⟩ | ⟨e, -⟩
    · rw [e] at hx ⊢
      rcases objAddObjects c.state.positionQueue (p.coord.normalizePosition r.pos) with ⟨h1, h2⟩ | ⟨h1, h2⟩
      · rw [h2] at hx ⊢; exact h.posq x hx
      · rw [h2] at hx ⊢
        rcases List.mem_append.1 hx with hx | hx
        · exact Or.inl (h.posq x hx)
        · exact Or.inr hx
    · rw [e] at hx ⊢; exact h.posq x hx
  · simp only [scheduledSimplices_append, completedSimplices_append, scheduledSimplices, completedSimplices, List.append_nil]
    refine h.sched.trans ?_
    rw [List.append_assoc]
    refine List.Perm.append_left _ ?_
    simpa using herase.append_right _

theorem Acct.taskFail {p : CtlParams d} {c : Ctl d} {s : Simplex d} {id : ℕ} (h : Acct p c)
    (hs : s ∈ c.tasks) : Acct p (taskFail c s (.gap id)) := by
  have herase : c.tasks.Perm (s :: c.tasks.erase s) := List.perm_cons_erase hs
  have hp2 : (c.tasks.erase s ++ (c.failed ++ [(s, Err.gap id)]).map Prod.fst).Perm
      (c.tasks ++ c.failed.map Prod.fst) := by
    simp only [List.map_append, List.map_cons, List.map_nil]
    refine List.Perm.trans ?_ (herase.symm.append_right _)
    rw [← List.append_assoc]
    exact List.perm_append_comm
  have hperm : (handled (c.log ++ [LogEntry.failed s]) ++
      (c.tasks.erase s ++ (c.failed ++ [(s, Err.gap id)]).map Prod.fst ++ c.state.simplexQueue.base.queued)).Perm
      (handled c.log ++ outstanding c) := by
    simp only [outstanding, handled_append, handled, List.append_nil]
    exact List.Perm.append_left _ (hp2.append_right _)
  obtain ⟨h1, h2⟩ := Acct.transport (c' := NF.taskFail c s (.gap id)) h hperm rfl
  refine ⟨h1, h2, ?_, h.norm, ?_, ?_, h.cont, ?_, h.fresh, h.posq, ?_⟩
  · intro x
    exact hp2.mem_iff.trans (h.run x)
  · intro x hx
    rcases List.mem_append.1 hx with hx | hx
    · exact h.gapErr x hx
    · exact ⟨id, by rw [List.mem_singleton.1 hx]⟩
  · intro x hx
    simp only [NF.taskFail, List.mem_append, List.mem_singleton, LogEntry.failed.injEq, List.map_append,
      List.map_cons, List.map_nil] at hx ⊢
    rcases hx with hx | hx
    · exact Or.inl (h.logFailed x hx)
    · exact Or.inr hx
  · simpa [NF.taskFail, completedResults] using h.results
  · simp only [NF.taskFail, scheduledSimplices_append, completedSimplices_append, scheduledSimplices,
      completedSimplices, List.append_nil]
    exact h.sched.trans (List.Perm.append_left _ hp2.symm)

theorem Acct.doSave {p : CtlParams d} {c : Ctl d} (enum : List (Simplex d)) (h : Acct p c) :
    Acct p (doSave p c enum) := by
  rcases doSave_eq p c enum with ⟨-, -, e⟩ | ⟨-, e⟩
  · rw [e]
    exact ⟨h.nodup, h.mem, h.run, h.norm, h.gapErr, h.logFailed,
      ⟨h.cont.coord, h.cont.gap, h.cont.dist, h.cont.nper, h.cont.nnum, h.cont.ninv, h.cont.rper,
        h.cont.rnum, h.cont.rinv⟩, h.results, h.fresh, h.posq, h.sched⟩
  · rw [e]; exact h

theorem Acct.phase {p : CtlParams d} {c : Ctl d} (ph : Phase) (h : Acct p c) : Acct p { c with phase := ph } :=
  ⟨h.nodup, h.mem, h.run, h.norm, h.gapErr, h.logFailed, h.cont, h.results, h.fresh, h.posq, h.sched⟩

theorem Acct.step {p : CtlParams d} (hd : DistinctInput p) {c c' : Ctl d} (h : Acct p c) (hs : Step p c c') :
    Acct p c' :=
  Step.preserves (P := Acct p) (fun _ _ h hs => Acct.fillStep hd h hs) (fun _ _ _ h hs => Acct.raise h hs)
    (fun _ _ _ h hs _ => Acct.taskDone h hs) (fun _ _ _ h hs => Acct.taskFail h hs)
    (fun _ enum h _ => Acct.doSave enum h) (fun _ ph h => Acct.phase ph h) h hs


/-! ## starting and restarting -/


theorem freshRes_reload (r : SRes d) : FreshRes r.reload := by
  intro ch an pa h
  cases r with
  | plain m => simp [SRes.reload] at h
  | joined a b c => simp only [SRes.reload, SRes.joined.injEq] at h; exact h.2.2.symm

theorem normalizeSimplices_of_norm {l : List (Simplex d)} (h : ∀ s ∈ l, ∃ s0, s = normalizeSimplex s0) :
    normalizeSimplices l = l := by
  unfold normalizeSimplices
  conv_rhs => rw [← List.map_id l]
  apply List.map_congr_left
  intro s hs
  obtain ⟨s0, rfl⟩ := h s hs
  exact normalizeSimplex_idem s0

theorem create_minimizationResults_mem {cs : CoordSys d} {rs : List (SRes d)} {g dc : ℝ} {ps : List (Vec d)} {r : SRes d}
    (h : r ∈ (Container.create cs rs g dc ps).minimizationResults) : ∃ r0 ∈ rs, r = Container.stored cs r0 := by
  obtain ⟨h1, h2, -⟩ := Container.create_contents cs rs g dc ps
  unfold Container.minimizationResults CellList.values at h
  rw [h1, h2] at h
  rcases List.mem_append.1 h with h | h <;>
  · obtain ⟨r0, hr0, rfl⟩ := List.mem_map.1 h
    exact ⟨r0, (List.mem_filter.1 hr0).1, rfl⟩

theorem acct_start {p : CtlParams d} (hd : DistinctInput p) (disk initial : Option (Saved d))
    (hi : ∀ sv, initial = some sv → WellFormedSaved sv) : Acct p (startFrom p disk initial) := by
  have key : ∀ (sq : RunQueue (Simplex d)) (res : Container d) (pq : ObjQueue (Vec d)),
      sq.base.queued.Nodup → (∀ s, s ∈ sq.base.queued ↔ s ∈ sq.base.all) → sq.running = ∅ →
      (∀ s ∈ sq.base.queued, ∃ s0, s = normalizeSimplex s0) →
      res.Inv p.coord p.gapThreshold p.distCutoff →
      (∀ r ∈ res.minimizationResults, ∃ r0, r = Container.stored p.coord r0) →
      (∀ x ∈ pq.queued, x ∈ pq.all) →
      Acct p ⟨⟨res, sq, pq⟩, [], [], disk, .running, [], res.minimizationResults⟩ := by
    intro sq res pq h1 h2 h3 h4 h5 h6 h7
    refine ⟨by simpa [handled, outstanding] using h1, by simpa [handled, outstanding] using h2, by simp [h3],
      fun s hs => h4 s ((h2 s).2 hs), by simp, by simp, h5, by simp [completedResults], h6, h7, ?_⟩
    simp [scheduledSimplices, completedSimplices]
  have hnormmesh : ∀ s ∈ normalizeSimplices p.mesh, ∃ s0, s = normalizeSimplex s0 := by
    intro s hs
    obtain ⟨s0, -, rfl⟩ := List.mem_map.1 hs
    exact ⟨s0, rfl⟩
  cases initial with
  | none =>
    refine key _ _ _ (nodup_normalizeSimplices hd.1) (fun s => Iff.rfl) rfl hnormmesh (Container.Inv.create _ _) ?_ ?_
    · intro r hr
      obtain ⟨r0, hr0, -⟩ := create_minimizationResults_mem hr
      simp at hr0
    · intro x hx; exact hx
  | some sv =>
    have hsv := hi sv rfl
    have e := normalizeSimplices_of_norm hsv.norm
    have hres : ∀ r ∈ (Container.create p.coord sv.results p.gapThreshold p.distCutoff sv.refined).minimizationResults,
        ∃ r0, r = Container.stored p.coord r0 := by
      intro r hr
      obtain ⟨r0, hr0, rfl⟩ := create_minimizationResults_mem hr
      exact ⟨r0, rfl⟩
    cases hf : p.forceInitialMesh with
    | false =>
      have : startFrom p disk (some sv) = ⟨⟨Container.create p.coord sv.results p.gapThreshold p.distCutoff sv.refined,
          RunQueue.create (normalizeSimplices sv.simplices), ObjQueue.create sv.positions⟩, [], [], disk, .running, [],
          (Container.create p.coord sv.results p.gapThreshold p.distCutoff sv.refined).minimizationResults⟩ := by
        simp [startFrom, createStateFrom, hf]
      rw [this, e]
      exact key _ _ _ hsv.nodup (fun s => Iff.rfl) rfl hsv.norm (Container.Inv.create _ _) hres (fun x hx => hx)
    | true =>
      have : startFrom p disk (some sv) = ⟨⟨Container.create p.coord sv.results p.gapThreshold p.distCutoff sv.refined,
          (RunQueue.create (normalizeSimplices sv.simplices)).addObjects (normalizeSimplices p.mesh),
          ObjQueue.create sv.positions⟩, [], [], disk, .running, [],
          (Container.create p.coord sv.results p.gapThreshold p.distCutoff sv.refined).minimizationResults⟩ := by
        simp [startFrom, createStateFrom, hf]
      rw [this, e]
      obtain ⟨a1, a2, a3⟩ := addObjects_queued (RunQueue.create sv.simplices) (normalizeSimplices p.mesh)
      refine key _ _ _ ?_ ?_ a3 ?_ (Container.Inv.create _ _) hres (fun x hx => hx)
      · rw [a1]
        refine List.nodup_append.2 ⟨hsv.nodup, (nodup_normalizeSimplices hd.1).filter _, ?_⟩
        rintro a ha b hb rfl
        have := (List.mem_filter.1 hb).2
        simp only [decide_eq_true_eq] at this
        exact this ha
      · intro s
        rw [a1, a2]
        simp only [List.mem_append, List.mem_filter, decide_eq_true_eq, Set.mem_union, Set.mem_ofPred_eq]
        have : s ∈ (RunQueue.create sv.simplices).base.queued ↔ s ∈ (RunQueue.create sv.simplices).base.all := Iff.rfl
        rw [this]
        by_cases hs : s ∈ (RunQueue.create sv.simplices).base.all <;> simp [hs]
      · intro s hs
        rw [a1] at hs
        rcases List.mem_append.1 hs with hs | hs
        · exact hsv.norm s hs
        · exact hnormmesh s (List.mem_filter.1 hs).1

theorem snapshot_ok {p : CtlParams d} {c : Ctl d} (h : Acct p c) {enum : List (Simplex d)}
    (he : IsEnum enum c.state.simplexQueue.running) : WellFormedSaved (c.state.snapshot enum) := by
  have hnd := (List.nodup_append.1 h.nodup).2.1
  have hout := List.nodup_append.1 hnd
  refine ⟨?_, ?_⟩
  · change (enum ++ _).Nodup
    refine List.nodup_append.2 ⟨he.1, hout.2.1, ?_⟩
    intro a ha b hb
    exact hout.2.2 a ((h.run a).2 ((he.2 a).1 ha)) b hb
  · intro s hs
    apply h.norm s
    rw [← h.mem]
    rcases List.mem_append.1 hs with hs | hs
    · exact List.mem_append_right _ (List.mem_append_left _ ((h.run s).2 ((he.2 s).1 hs)))
    · exact List.mem_append_right _ (List.mem_append_right _ hs)

/-- Accounting, and a well-formed save file. -/
def Good (p : CtlParams d) (c : Ctl d) : Prop := Acct p c ∧ ∀ sv, c.disk = some sv → WellFormedSaved sv

theorem fillStep_disk {p : CtlParams d} {c c' : Ctl d} (h : fillStep p c = .next c') :
    c'.disk = c.disk ∧ c'.phase = c.phase ∧ c'.failed = c.failed ∧ c'.base = c.base := by
  obtain ⟨-, ⟨x, rest, hq, -, rfl⟩ | ⟨x, rest, hq, -, rfl⟩ | ⟨pos, rest, st, hq, hpq, -, hst, rfl⟩ |
    ⟨pos, rest, hq, hpq, -, -, rfl⟩⟩ := fillStep_next h <;> exact ⟨rfl, rfl, rfl, rfl⟩

theorem taskDone_disk (p : CtlParams d) (c : Ctl d) (s : Simplex d) (r : SRes d) :
    (taskDone p c s r).disk = c.disk ∧ (taskDone p c s r).phase = c.phase ∧ (taskDone p c s r).base = c.base := by
  unfold taskDone
  simp only
  split <;> exact ⟨rfl, rfl, rfl⟩

theorem good_step {p : CtlParams d} (hd : DistinctInput p) {c c' : Ctl d} (h : Good p c) (hs : Step p c c') :
    Good p c' := by
  refine Step.preserves (P := Good p) ?_ ?_ ?_ ?_ ?_ ?_ h hs
  · intro c c' h hs
    exact ⟨h.1.fillStep hd hs, by rw [(fillStep_disk hs).1]; exact h.2⟩
  · intro c e c' h hs
    refine ⟨h.1.raise hs, ?_⟩
    obtain ⟨-, -, pos, rest, hpq, rfl⟩ := fillStep_raise hs
    exact h.2
  · intro c s r h hs hr
    exact ⟨h.1.taskDone hs, by rw [(taskDone_disk p c s r).1]; exact h.2⟩
  · intro c s id h hs
    exact ⟨h.1.taskFail hs, h.2⟩
  · intro c enum h he
    refine ⟨h.1.doSave enum, ?_⟩
    rcases doSave_eq p c enum with ⟨-, -, e⟩ | ⟨-, e⟩
    · rw [e]
      intro sv hsv
      obtain rfl := Option.some.inj hsv
      exact snapshot_ok h.1 he
    · rw [e]; exact h.2
  · intro c ph h
    exact ⟨h.1.phase ph, h.2⟩

theorem ReachAny.induction {p : CtlParams d} {P : Ctl d → Prop}
    (h0 : ∀ disk initial, (∀ sv, disk = some sv → WellFormedSaved sv) → (∀ sv, initial = some sv → WellFormedSaved sv) →
      P (startFrom p disk initial))
    (hstep : ∀ c c', P c → Step p c c' → P c') (hcrash : ∀ c, P c → P (restart p c)) {c : Ctl d}
    (h : ReachAny p c) : P c := by
  induction h with
  | start disk initial h1 h2 => exact h0 disk initial h1 h2
  | tail _ hs ih =>
    cases hs with
    | step hs => exact hstep _ _ ih hs
    | crash => exact hcrash _ ih

theorem Reach.any {p : CtlParams d} {c : Ctl d} (h : Reach p c) : ReachAny p c := by
  induction h with
  | start => exact ReachAny.start none none (by simp) (by simp)
  | tail _ hs ih => exact ReachAny.tail ih hs

theorem good_any {p : CtlParams d} (hd : DistinctInput p) {c : Ctl d} (h : ReachAny p c) : Good p c := by
  refine ReachAny.induction (P := Good p) ?_ (fun c c' h hs => good_step hd h hs) ?_ h
  · intro disk initial h1 h2
    exact ⟨acct_start hd disk initial h2, h1⟩
  · intro c h
    exact ⟨acct_start hd c.disk c.disk h.2, h.2⟩

theorem good_inRound {p : CtlParams d} (hd : DistinctInput p) {c : Ctl d} (h : InRound p c) : Good p c := by
  induction h with
  | reached h => exact good_any hd h
  | next _ hs ih => exact ⟨ih.1.fillStep hd hs, by rw [(fillStep_disk hs).1]; exact ih.2⟩

theorem good_reach {p : CtlParams d} (hd : DistinctInput p) {c : Ctl d} (h : Reach p c) : Good p c :=
  good_any hd h.any

end NF
