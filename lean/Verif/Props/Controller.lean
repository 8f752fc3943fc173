import Verif.Lemmas.Phase
import Verif.Lemmas.Demo

/-! # C21-C25, C29, C32-C35: the search loop -/

noncomputable section
open Classical
namespace NF
open Spec CoordSys
variable {d : ℕ}

/-! ## C21 -/

/-- C21.  At every moment of a search the number of running minimizations is at most `num_minimize_parallel`
(zero if that is negative). -/
theorem C21_parallel_bound {p : CtlParams d} (hd : DistinctInput p) {c : Ctl d} (h : ReachAny p c) :
    (c.tasks.length : ℤ) ≤ max p.numMinimizeParallel 0 := by
  have key : Good p c ∧ (c.tasks.length : ℤ) + c.failed.length ≤ max p.numMinimizeParallel 0 := by
    refine ReachAny.induction (P := fun c => Good p c ∧ (c.tasks.length : ℤ) + c.failed.length ≤ max p.numMinimizeParallel 0)
      ?_ ?_ ?_ h
    · intro disk initial h1 h2
      exact ⟨⟨acct_start hd disk initial h2, h1⟩, by simp [startFrom]⟩
    · intro c c' h hs
      refine ⟨good_step hd h.1 hs, ?_⟩
      refine (Step.preserves (P := fun c => Acct p c ∧ (c.tasks.length : ℤ) + c.failed.length ≤ max p.numMinimizeParallel 0)
        ?_ ?_ ?_ ?_ ?_ ?_ ⟨h.1.1, h.2⟩ hs).2
      · intro c c' h hs
        refine ⟨h.1.fillStep hd hs, ?_⟩
        obtain ⟨hlt, ⟨x, rest, hq, -, rfl⟩ | ⟨x, rest, hq, -, rfl⟩ | ⟨pos, rest, st, hq, hpq, -, hst, rfl⟩ |
          ⟨pos, rest, hq, hpq, -, -, rfl⟩⟩ := fillStep_next hs
        · rw [numRunning_eq h.1] at hlt
          simp only [List.length_append, List.length_singleton]
          push_cast at hlt ⊢
          omega
        · exact h.2
        · exact h.2
        · exact h.2
      · intro c e c' h hs
        refine ⟨h.1.raise hs, ?_⟩
        obtain ⟨-, -, pos, rest, -, rfl⟩ := fillStep_raise hs
        exact h.2
      · intro c s r h hs _
        refine ⟨h.1.taskDone hs, ?_⟩
        rw [taskDone_of_mem r ((h.1.run s).1 (List.mem_append_left _ hs))]
        have := (List.erase_sublist (a := s) (l := c.tasks)).length_le
        have h2 := h.2
        simp only
        omega
      · intro c s id h hs
        refine ⟨h.1.taskFail hs, ?_⟩
        have h2 := h.2
        have hpos : 0 < c.tasks.length := List.length_pos_of_mem hs
        simp only [taskFail, List.length_append, List.length_singleton, List.length_erase_of_mem hs]
        omega
      · intro c enum h _
        refine ⟨h.1.doSave enum, ?_⟩
        rw [(doSave_same p c enum).1, (doSave_same p c enum).2.1]
        exact h.2
      · intro c ph h
        exact ⟨h.1.phase ph, h.2⟩
    · intro c h
      exact ⟨⟨acct_start hd c.disk c.disk h.1.2, h.1.2⟩, by simp [restart, startFrom]⟩
  have := key.2
  omega

/-- non-vacuity: the bound is attained in the demonstration run -/
example : (Demo.c1.tasks.length : ℤ) = max Demo.params.numMinimizeParallel 0 ∧
    (Demo.c1.tasks.length : ℤ) ≤ max Demo.params.numMinimizeParallel 0 :=
  ⟨by simp [Demo.c1, Demo.params], C21_parallel_bound Demo.distinct Demo.reach1.any⟩

/-! ## C22 -/

/-- C22.  Whatever the order in which tasks finish or fail: every running task is in the running set of the queue, so that
`set_finished` succeeds when it ends; the running set consists of exactly the running and the failed tasks, each once; and no task has ended
with an error other than that of the gap function. -/
theorem C22_bookkeeping {p : CtlParams d} (hd : DistinctInput p) {c : Ctl d} (h : ReachAny p c) :
    (∀ s ∈ c.tasks, ∃ q, c.state.simplexQueue.setFinished s = .ok q) ∧
    (c.tasks ++ c.failed.map Prod.fst).Nodup ∧
    (∀ s, s ∈ c.state.simplexQueue.running ↔ s ∈ c.tasks ∨ s ∈ c.failed.map Prod.fst) ∧
    (∀ x ∈ c.failed, ∃ id, x.2 = .gap id) := by
  have hg := (good_any hd h).1
  refine ⟨fun s hs => ⟨_, RunQueue.setFinished_of_mem ((hg.run s).1 (List.mem_append_left _ hs))⟩,
    (List.nodup_append.1 (List.nodup_append.1 hg.nodup).2.1).1, fun s => ?_, hg.gapErr⟩
  rw [← hg.run s, List.mem_append]

/-- C22, the scheduling round: it can fail only if there is no stencil (and then only with a TypeError, see C32). -/
theorem C22_round_errors (p : CtlParams d) (c : Ctl d) {e : Err} {c' : Ctl d} (h : fill p c = (some e, c')) :
    e = .type ∧ p.stencil = none := by
  obtain ⟨c2, -, h1 | ⟨err, h1, h2⟩⟩ := fill_induction (p := p) (P := fun _ => True) (fun _ _ _ _ => trivial) c trivial _ _ h
  · cases h1.1
  · obtain ⟨h3, h4, -⟩ := fillStep_raise h2
    cases h1
    exact ⟨h3, h4⟩

/-- non-vacuity: a task runs in the demonstration -/
example : ∃ q, Demo.c3.state.simplexQueue.setFinished Demo.t = .ok q :=
  (C22_bookkeeping Demo.distinct Demo.reach3.any).1 _ (by simp [Demo.c3])

/-! ## C23 -/

theorem sessionAll {p : CtlParams d} (disk initial : Option (Saved d)) {c : Ctl d}
    (h : ReachFrom p (startFrom p disk initial) c) (hd : DistinctInput p)
    (hi : ∀ sv, initial = some sv → WellFormedSaved sv) :
    Acct p c ∧ c.base = (startFrom p disk initial).base ∧ ∀ s, s ∈ c.state.simplexQueue.base.all ↔
      ∃ s0 ∈ startSimplices p initial ++ stencilSimplices p (refinedPositions c.log), s = normalizeSimplex s0 := by
  refine ReachFrom.induction (P := fun c => Acct p c ∧ c.base = (startFrom p disk initial).base ∧
    ∀ s, s ∈ c.state.simplexQueue.base.all ↔
      ∃ s0 ∈ startSimplices p initial ++ stencilSimplices p (refinedPositions c.log), s = normalizeSimplex s0) ?_ ?_ h
  · refine ⟨acct_start hd disk initial hi, rfl, ?_⟩
    intro s
    have hstart : (startFrom p disk initial).log = [] := rfl
    rw [hstart]
    have : stencilSimplices p (refinedPositions ([] : List (LogEntry d))) = [] := by
      unfold stencilSimplices refinedPositions; split <;> simp
    rw [this, List.append_nil]
    have hm : ∀ (l : List (Simplex d)) (s : Simplex d), s ∈ normalizeSimplices l ↔ ∃ s0 ∈ l, s = normalizeSimplex s0 := by
      intro l s
      simp only [normalizeSimplices, List.mem_map]
      constructor <;> rintro ⟨a, h1, h2⟩ <;> exact ⟨a, h1, h2.symm⟩
    cases initial with
    | none => exact hm _ _
    | some sv =>
      cases hf : p.forceInitialMesh with
      | false =>
        simp only [startFrom, createStateFrom, hf, startSimplices, Bool.false_eq_true, if_false, List.append_nil]
        exact hm _ _
      | true =>
        simp only [startFrom, createStateFrom, hf, startSimplices, if_true]
        rw [(addObjects_queued _ _).2.1]
        simp only [List.mem_append, or_and_right, exists_or]
        rw [← hm, ← hm]
        exact Iff.rfl
  · intro c c' h hs
    refine Step.preserves (P := fun c => Acct p c ∧ c.base = (startFrom p disk initial).base ∧
      ∀ s, s ∈ c.state.simplexQueue.base.all ↔
      ∃ s0 ∈ startSimplices p initial ++ stencilSimplices p (refinedPositions c.log), s = normalizeSimplex s0) ?_ ?_ ?_ ?_ ?_ ?_ h hs
    · intro c c' h hs
      refine ⟨h.1.fillStep hd hs, (fillStep_disk hs).2.2.2.trans h.2.1, ?_⟩
      obtain ⟨-, ⟨x, rest, hq, -, rfl⟩ | ⟨x, rest, hq, -, rfl⟩ | ⟨pos, rest, st, hq, hpq, -, hst, rfl⟩ |
          ⟨pos, rest, hq, hpq, -, -, rfl⟩⟩ := fillStep_next hs
      · simpa [refinedPositions] using h.2.2
      · simpa [refinedPositions] using h.2.2
      · intro s
        simp only
        rw [(addObjects_queued _ _).2.1]
        simp only [Set.mem_union, Set.mem_ofPred_eq, h.2.2 s, refinedPositions_append, refinedPositions]
        have e : stencilSimplices p (refinedPositions c.log ++ [pos])
            = stencilSimplices p (refinedPositions c.log) ++ translateStencil pos st := by
          simp only [stencilSimplices, hst, List.flatMap_append, List.flatMap_cons, List.flatMap_nil, List.append_nil]
          rfl
        rw [e, ← List.append_assoc]
        conv_rhs => simp only [List.mem_append (t := translateStencil pos st), or_and_right, exists_or]
        refine or_congr Iff.rfl ?_
        simp only [normalizeSimplices, List.mem_map]
        constructor <;> rintro ⟨a, h1, h2⟩ <;> exact ⟨a, h1, h2.symm⟩
      · simpa [refinedPositions] using h.2.2
    · intro c e c' h hs
      have := h.1.raise hs
      obtain ⟨-, -, pos, rest, -, rfl⟩ := fillStep_raise hs
      exact ⟨this, h.2⟩
    · intro c s r h hs _
      refine ⟨h.1.taskDone hs, (taskDone_disk p c s r).2.2.trans h.2.1, ?_⟩
      rw [taskDone_of_mem r ((h.1.run s).1 (List.mem_append_left _ hs))]
      simpa [refinedPositions] using h.2.2
    · intro c s id h hs
      refine ⟨h.1.taskFail hs, h.2.1, ?_⟩
      simpa [refinedPositions, taskFail] using h.2.2
    · intro c enum h _
      refine ⟨h.1.doSave enum, ?_⟩
      rcases doSave_eq p c enum with ⟨-, -, e⟩ | ⟨-, e⟩ <;> rw [e] <;> exact h.2
    · intro c ph h
      exact ⟨h.1.phase ph, h.2⟩

/-- C23.  In a search started from any (or no) initial state, at every moment:
* the recorded results are those of the initial state and one per completed minimization, moved into the box;
* every simplex that was ever queued, that is every simplex of the initial queue and of the stencils of the refined positions, is, with sorted
  vertices, either completed or skipped or outstanding (queued, running or failed), in exactly one of these ways and exactly once;
* minimizations were started exactly for the simplices that are completed, running or failed. -/
theorem C23_accounting {p : CtlParams d} (hd : DistinctInput p) (disk initial : Option (Saved d))
    (hi : ∀ sv, initial = some sv → WellFormedSaved sv) {c : Ctl d} (h : ReachFrom p (startFrom p disk initial) c) :
    c.state.result.minimizationResults.Perm
      ((startResults initial ++ completedResults c.log).map fun r => movedTo r (p.coord.normalizePosition r.pos)) ∧
    (handled c.log ++ outstanding c).Nodup ∧
    (∀ s, s ∈ handled c.log ++ outstanding c ↔
      ∃ s0 ∈ startSimplices p initial ++ stencilSimplices p (refinedPositions c.log), s = normalizeSimplex s0) ∧
    (scheduledSimplices c.log).Perm (completedSimplices c.log ++ c.tasks ++ c.failed.map Prod.fst) := by
  obtain ⟨ha, hb, hall⟩ := sessionAll disk initial h hd hi
  refine ⟨?_, ha.nodup, fun s => (ha.mem s).trans (hall s), by rw [List.append_assoc]; exact ha.sched⟩
  refine ha.results.trans ?_
  rw [List.map_append, hb]
  refine List.Perm.append ?_ (List.Perm.refl _)
  have key : ∀ (rs : List (SRes d)) (ps : List (Vec d)),
      (Container.create p.coord rs p.gapThreshold p.distCutoff ps).minimizationResults.Perm
        (rs.map fun r => movedTo r (p.coord.normalizePosition r.pos)) := by
    intro rs ps
    rw [Container.create_eq_history]
    refine (C12_minimization_results_complete _ _ _ _).trans ?_
    have : resultsOf (rs.map ContainerOp.addResult ++ ps.map ContainerOp.setRefined) = rs := by
      rw [Container.resultsOf_append]
      have h1 : ∀ l : List (SRes d), resultsOf (l.map ContainerOp.addResult) = l := by
        intro l; induction l with
        | nil => rfl
        | cons a l ih => simp [resultsOf, ih]
      have h2 : ∀ l : List (Vec d), resultsOf (l.map ContainerOp.setRefined) = [] := by
        intro l; induction l with
        | nil => rfl
        | cons a l ih => simp [resultsOf, ih]
      rw [h1, h2, List.append_nil]
    rw [this]
  cases initial with
  | none => exact key _ _
  | some sv => exact key _ _

/-- non-vacuity: in the demonstration both simplices have been handled and two results recorded -/
example : handled Demo.c4.log = [Demo.s, Demo.t] ∧ completedResults Demo.c4.log = [Demo.node, Demo.bad] := by
  rw [Demo.c4_eq]
  simp [Demo.c3, handled, completedResults]

/-! ## C24, C25 -/

/-- C24.  When the search returns normally, no simplex is queued or running, no position waits for refinement, no minimization has failed, and
(with a save file) the file holds exactly the final results and refined positions and no outstanding simplex. -/
theorem C24_return_means_finished {p : CtlParams d} (hd : DistinctInput p) {c : Ctl d} (h : ReachAny p c)
    (hret : c.phase = .returned) :
    c.state.simplexQueue.base.queued = [] ∧ c.tasks = [] ∧ c.failed = [] ∧ c.state.positionQueue.queued = [] ∧
    (∀ s, LogEntry.failed s ∉ c.log) ∧
    (p.saveFile = true → ∃ sv, c.disk = some sv ∧ sv.simplices = [] ∧
      sv.results = c.state.result.minimizationResults.map SRes.reload ∧ sv.refined = c.state.result.refined.values ∧
      ∀ x ∈ sv.positions, p.stencil = none ∨
        (p.recheckPosDist = true ∧ checkPosRefinement p c.state.result x p.recheckCountCutoff = false)) := by
  have he := endInv_any hd h
  unfold EndInv at he
  rw [hret] at he
  obtain ⟨h1, h2, h3⟩ := he
  unfold loopCondition at h1
  push Not at h1
  obtain ⟨⟨hrun, hq⟩, hpos⟩ := h1
  have hpos : c.state.positionQueue.queued = [] := by
    simpa [ObjQueue.hasQueued] using hpos
  have ha := (good_any hd h).1
  have ht : c.tasks = [] := by
    rw [List.eq_nil_iff_forall_not_mem]
    intro s hs
    have := (ha.run s).1 (List.mem_append_left _ hs)
    rw [hrun] at this; cases this
  refine ⟨hq, ht, h2, hpos, ?_, ?_⟩
  · intro s hs
    have := ha.logFailed s hs
    rw [h2] at this; cases this
  · intro hsf
    obtain ⟨sv, hsv, hu⟩ := (diskInv_any hd h).2 (h3 hsf)
    obtain ⟨stale, e, hst⟩ := hu.positions
    rw [hpos, List.append_nil] at e
    refine ⟨sv, hsv, ?_, hu.results, hu.refined, ?_⟩
    · rw [List.eq_nil_iff_forall_not_mem]
      intro s hs
      have := (hu.simplices s).1 hs
      simp [outstanding, ht, h2, hq] at this
    · rw [e]; exact hst

/-- non-vacuity: the demonstration returns, with two results -/
example : Demo.c5.phase = .returned ∧ Reach Demo.params Demo.c5 := ⟨rfl, Demo.reach5⟩

/-- C25.  If the search raises, it raises the error of a failed minimization, the simplex of which is then still outstanding in the state and, with a save
file, in the file, and stays so; or else saving the state has failed.  (Without a stencil also a TypeError is possible: see C32.) -/
theorem C25_raise_is_failure {p : CtlParams d} (hd : DistinctInput p) {c : Ctl d} (h : ReachAny p c) {e : Err}
    (hr : c.phase = .raised e) (hst : p.stencil ≠ none) :
    (∃ s id, e = .gap id ∧ (s, e) ∈ c.failed ∧ s ∈ c.state.simplexQueue.running ∧
      (p.saveFile = true → ∃ sv, c.disk = some sv ∧ s ∈ sv.simplices)) ∨ (e = .io ∧ p.saveFile = true) := by
  have he := endInv_any hd h
  unfold EndInv at he
  rw [hr] at he
  obtain ⟨s, hs, hsv⟩ | ⟨-, h1⟩ | h1 := he
  · have ha := (good_any hd h).1
    obtain ⟨id, hid⟩ := ha.gapErr _ hs
    have hm : s ∈ c.failed.map Prod.fst := List.mem_map.2 ⟨_, hs, rfl⟩
    exact Or.inl ⟨s, id, hid, hs, (ha.run s).1 (List.mem_append_right _ hm), hsv⟩
  · exact absurd h1 hst
  · exact Or.inr h1

theorem failed_step {p : CtlParams d} {c c' : Ctl d} (ha : Acct p c) (hne : c.failed ≠ []) (hph : c.phase ≠ .returned) (hs : Step p c c') :
    c'.failed ≠ [] ∧ c'.phase ≠ .returned ∧ scheduledSimplices c'.log = scheduledSimplices c.log := by
  cases hs with
  | tickRaise s e enum hph hf henum =>
    have := doSave_same p c enum
    exact ⟨by rw [this.2.1]; exact hne, by simp, by rw [this.2.2.1]⟩
  | tickReturn enum hph hf hcond henum => exact absurd hf hne
  | tickFill _ hph hf hcond hfill => exact absurd hf hne
  | tickFillRaise c1 e enum hph hf hcond hfill henum => exact absurd hf hne
  | exitSaveFail hph hx hsv => exact ⟨hne, by simp, rfl⟩
  | fillRaiseSaveFail c1 e hph hf hcond hfill hsv => exact absurd hf hne
  | done s r hph hs hr =>
    rw [taskDone_of_mem r ((ha.run s).1 (List.mem_append_left _ hs))]
    exact ⟨hne, hph, by simp [scheduledSimplices]⟩
  | fail s id hph hs => exact ⟨by simp [taskFail], hph, by simp [taskFail, scheduledSimplices]⟩
  | save enum hph' henum =>
    have := doSave_same p c enum
    exact ⟨by rw [this.2.1]; exact hne, by rw [this.2.2.2.1]; exact hph, by rw [this.2.2.1]⟩
  | saveFail hph' hsv => exact ⟨hne, hph, rfl⟩

/-- C25.  If some minimization has failed, the search never returns normally, whatever happens afterwards, and nothing new is started. -/
theorem C25_failure_prevents_return {p : CtlParams d} (hd : DistinctInput p) {c : Ctl d} (h : ReachAny p c) {s : Simplex d}
    (hf : LogEntry.failed s ∈ c.log) {c' : Ctl d} (h' : ReachFrom p c c') :
    c'.phase ≠ .returned ∧ scheduledSimplices c'.log = scheduledSimplices c.log := by
  have hmem := (good_any hd h).1.logFailed s hf
  have hne : c.failed ≠ [] := by intro e; rw [e] at hmem; cases hmem
  have hph : c.phase ≠ .returned := fun hret => hne (C24_return_means_finished hd h hret).2.2.1
  have key : Acct p c' ∧ c'.failed ≠ [] ∧ c'.phase ≠ .returned ∧ scheduledSimplices c'.log = scheduledSimplices c.log := by
    refine ReachFrom.induction (P := fun x => Acct p x ∧ x.failed ≠ [] ∧ x.phase ≠ .returned ∧ scheduledSimplices x.log = scheduledSimplices c.log)
      ⟨(good_any hd h).1, hne, hph, rfl⟩ ?_ h'
    intro a b ⟨h1, h2, h3, h4⟩ hs
    have := failed_step h1 h2 h3 hs
    exact ⟨h1.step hd hs, this.1, this.2.1, this.2.2.trans h4⟩
  exact key.2.2

/-- C25.  A failure is noticed: as long as the search has not ended, its next turn ends it with an exception. -/
theorem C25_failure_raises {p : CtlParams d} (hd : DistinctInput p) {c c' : Ctl d} (h : ReachAny p c) {s : Simplex d}
    (hf : LogEntry.failed s ∈ c.log) (hs : Step p c c') (ht : Turn p c c') : ∃ e, c'.phase = .raised e := by
  have hret := (C25_failure_prevents_return hd h hf (.tail .refl hs)).1
  have hmem := (good_any hd h).1.logFailed s hf
  rcases ht with h1 | ⟨h1, -, -⟩
  · cases hp : c'.phase with
    | running => exact absurd hp h1
    | returned => exact absurd hp hret
    | raised e => exact ⟨e, rfl⟩
  · rw [h1] at hmem; cases hmem

/-- non-vacuity: the failing variant of the demonstration -/
example : LogEntry.failed Demo.t ∈ Demo.c5f.log ∧ Demo.c5f.phase = .raised (.gap 7) := by
  refine ⟨?_, rfl⟩
  change _ ∈ (doSave Demo.params Demo.c4f [Demo.t]).log
  rw [(doSave_same _ _ _).2.2.1]
  simp [Demo.c4f, taskFail]

/-! ## C29 -/

/-- C29.  A scheduling round always terminates (`fill` is a total function, defined by a decreasing measure); and with
`num_minimize_parallel ≥ 1`, if the search is not finished after a round, a minimization is running or has failed. -/
theorem C29_no_stall {p : CtlParams d} (hd : DistinctInput p) {c c' : Ctl d} (h : ReachAny p c)
    (hN : 1 ≤ p.numMinimizeParallel) (hf : fill p c = (none, c')) (hc : loopCondition c') :
    c'.tasks ≠ [] ∨ c'.failed ≠ [] := by
  have ha := (good_any hd h).1
  obtain ⟨c1, h1, h2 | ⟨err, h2, -⟩⟩ := fill_induction (P := Acct p) (fun _ _ h hs => Acct.fillStep hd h hs) c ha _ _ hf
  · obtain ⟨-, rfl, hstop⟩ := h2
    have hn := numRunning_eq h1
    have hpos : 0 < c'.state.simplexQueue.numRunning := by
      rcases fillStep_stop hstop with h3 | ⟨h3, h4⟩
      · omega
      · rcases hc with hc | hc
        · unfold RunQueue.finished at hc
          rw [not_and] at hc
          have : c'.state.simplexQueue.running ≠ ∅ := fun e => hc e h3
          exact Finset.card_pos.2 (Finset.nonempty_iff_ne_empty.2 this)
        · simp [ObjQueue.hasQueued, h4] at hc
    by_contra hcon
    push Not at hcon
    rw [hn, hcon.1, hcon.2] at hpos
    simp at hpos
  · cases h2

/-- non-vacuity: a round of the demonstration after which a minimization is running -/
example : fill Demo.params Demo.c0 = (none, Demo.c1) ∧ loopCondition Demo.c1 :=
  ⟨Demo.fill0, Or.inl fun h => by have := h.1; have h2 := Demo.run1; rw [this] at h2; cases h2⟩

/-- C29, the excluded case: with `num_minimize_parallel ≤ 0` a search with a non-empty initial mesh never does anything and
never ends (until it is killed). -/
theorem C29_zero_parallel_livelock {p : CtlParams d} (hN : p.numMinimizeParallel ≤ 0) (hm : p.mesh ≠ []) {c : Ctl d}
    (h : ReachFrom p (startFresh p) c) : c.phase = .running ∧ c.log = [] ∧ loopCondition c := by
  have key : c.phase = .running ∧ c.log = [] ∧ c.failed = [] ∧ c.tasks = [] ∧ c.state.simplexQueue.base.queued ≠ [] := by
    refine ReachFrom.induction (P := fun c => c.phase = .running ∧ c.log = [] ∧ c.failed = [] ∧ c.tasks = [] ∧
      c.state.simplexQueue.base.queued ≠ []) ?_ ?_ h
    · refine ⟨rfl, rfl, rfl, rfl, ?_⟩
      change normalizeSimplices p.mesh ≠ []
      simpa [normalizeSimplices] using hm
    · intro c c' h hs
      obtain ⟨h1, h2, h3, h4, h5⟩ := h
      have hstop : fillStep p c = .stop := by
        unfold fillStep
        rw [if_pos]
        have : (0 : ℤ) ≤ c.state.simplexQueue.numRunning := by positivity
        omega
      have hfill : fill p c = (none, c) := Demo.fill_stop hstop
      cases hs with
      | tickRaise s e enum hph hf henum => rw [h3] at hf; cases hf
      | tickReturn enum hph hf hcond henum =>
        exfalso; apply hcond; left; intro hfin; exact h5 hfin.2
      | tickFill _ hph hf hcond hfill' =>
        rw [hfill] at hfill'
        cases hfill'
        exact ⟨h1, h2, h3, h4, h5⟩
      | tickFillRaise c1 e enum hph hf hcond hfill' henum => rw [hfill] at hfill'; cases hfill'
      | exitSaveFail hph hx hsv =>
        exfalso
        rcases hx with hx | hx
        · exact hx h3
        · exact hx (Or.inl fun hfin => h5 hfin.2)
      | fillRaiseSaveFail c1 e hph hf hcond hfill' hsv => rw [hfill] at hfill'; cases hfill'
      | saveFail hph hsv => exact ⟨h1, h2, h3, h4, h5⟩
      | done s r hph hs hr => rw [h4] at hs; cases hs
      | fail s id hph hs => rw [h4] at hs; cases hs
      | save enum hph henum =>
        have hsv := doSave_same p c enum
        exact ⟨hsv.2.2.2.1.trans h1, hsv.2.2.1.trans h2, hsv.2.1.trans h3, hsv.1.trans h4, by rw [hsv.2.2.2.2.2.1]; exact h5⟩
  exact ⟨key.1, key.2.1, Or.inl fun hfin => key.2.2.2.2 hfin.2⟩

/-! ## C32 -/

/-- C32.  Without a refinement stencil, a search that does not start with queued positions never queues a position, never fails with a
TypeError, and only ever handles the simplices it starts with. -/
theorem C32_no_stencil {p : CtlParams d} (hd : DistinctInput p) (hst : p.stencil = none) (disk initial : Option (Saved d))
    (hi : ∀ sv, initial = some sv → WellFormedSaved sv) (hpos : startPositions initial = [])
    {c : Ctl d} (h : ReachFrom p (startFrom p disk initial) c) :
    c.state.positionQueue.queued = [] ∧ c.phase ≠ .raised .type ∧
      ∀ s, s ∈ handled c.log ++ outstanding c ↔ ∃ s0 ∈ startSimplices p initial, s = normalizeSimplex s0 := by
  have key : Acct p c ∧ c.state.positionQueue.queued = [] ∧ c.phase ≠ .raised .type := by
    refine ReachFrom.induction (P := fun c => Acct p c ∧ c.state.positionQueue.queued = [] ∧ c.phase ≠ .raised .type) ?_ ?_ h
    · refine ⟨acct_start hd disk initial hi, ?_, by simp [startFrom]⟩
      cases initial with
      | none => rfl
      | some sv => exact hpos
    · intro c c' h hs
      refine ⟨h.1.step hd hs, ?_⟩
      have hfill : ∀ e c', fill p c = (e, c') → e = none ∧ c'.state.positionQueue.queued = [] := by
        intro e c' hf
        obtain ⟨c1, hc1, h1 | ⟨err, h1, h2⟩⟩ := fill_induction (p := p) (P := fun x => x.state.positionQueue.queued = [])
          (fun a b ha hs => by
            obtain ⟨-, ⟨x, rest, hq, -, rfl⟩ | ⟨x, rest, hq, -, rfl⟩ | ⟨pos, rest, st, hq, hpq, -, hst, rfl⟩ |
              ⟨pos, rest, hq, hpq, -, -, rfl⟩⟩ := fillStep_next hs
            · exact ha
            · exact ha
            · rw [ha] at hpq; cases hpq
            · rw [ha] at hpq; cases hpq) c h.2.1 _ _ hf
        · rw [h1.2.1]; exact ⟨h1.1, hc1⟩
        · obtain ⟨-, -, pos, rest, hpq, -⟩ := fillStep_raise h2
          rw [hc1] at hpq; cases hpq
      cases hs with
      | tickRaise s e enum hph hf henum =>
        obtain ⟨id, hid⟩ := h.1.gapErr _ hf
        refine ⟨by rw [(doSave_same p c enum).2.2.2.2.2.2.1]; exact h.2.1, ?_⟩
        simp only at hid ⊢
        rw [hid]; simp
      | tickReturn enum hph hf hcond henum =>
        exact ⟨by rw [(doSave_same p c enum).2.2.2.2.2.2.1]; exact h.2.1, by simp⟩
      | tickFill _ hph hf hcond hfill' =>
        exact ⟨(hfill _ _ hfill').2, by rw [(fill_phase hfill').1, hph]; simp⟩
      | tickFillRaise c1 e enum hph hf hcond hfill' henum => exact absurd (hfill _ _ hfill').1 (by simp)
      | exitSaveFail hph hx hsv => exact ⟨h.2.1, by simp⟩
      | fillRaiseSaveFail c1 e hph hf hcond hfill' hsv => exact absurd (hfill _ _ hfill').1 (by simp)
      | saveFail hph hsv => exact h.2
      | done s r hph hs hr =>
        have := processResult_cases p c.state r
        rw [taskDone_of_mem r ((h.1.run s).1 (List.mem_append_left _ hs))]
        refine ⟨?_, h.2.2⟩
        rcases this.2.2 with ⟨-, h1, -⟩ | ⟨h1, -⟩
        · rw [hst] at h1; cases h1
        · simp only [h1]; exact h.2.1
      | fail s id hph hs => exact ⟨h.2.1, h.2.2⟩
      | save enum hph henum =>
        exact ⟨by rw [(doSave_same p c enum).2.2.2.2.2.2.1]; exact h.2.1, by rw [(doSave_same p c enum).2.2.2.1, hph]; simp⟩
  refine ⟨key.2.1, key.2.2, fun s => ?_⟩
  have := (C23_accounting hd disk initial hi h).2.2.1 s
  rw [this]
  simp [stencilSimplices, hst]

/-- C32, the excluded case: started without a stencil from a state which has no outstanding simplex but a queued position, and
with `num_minimize_parallel ≥ 1` and no rechecking, the search fails with a TypeError. -/
theorem C32_no_stencil_with_positions_fails {p : CtlParams d} (hst : p.stencil = none) (hN : 1 ≤ p.numMinimizeParallel)
    (hr : p.recheckPosDist = false) (hf : p.forceInitialMesh = false) (sv : Saved d) (hs : sv.simplices = [])
    (hpos : sv.positions ≠ []) :
    ∃ c, ReachFrom p (startFrom p none (some sv)) c ∧ c.phase = .raised .type := by
  set c := startFrom p none (some sv) with hc
  have hsq : c.state.simplexQueue = RunQueue.create [] := by
    simp [hc, startFrom, createStateFrom, hf, hs, normalizeSimplices]
  obtain ⟨x, rest, hx⟩ := List.exists_cons_of_ne_nil hpos
  have hpq : c.state.positionQueue.queued = x :: rest := hx
  have hraise : fillStep p c = .raise .type { c with state := { c.state with positionQueue := c.state.positionQueue.popTo rest } } := by
    unfold fillStep
    rw [if_neg (by simp [hsq, RunQueue.create, RunQueue.numRunning]; omega)]
    rw [RunQueue.popQueued_nil (by rw [hsq]; rfl)]
    simp only
    rw [ObjQueue.popQueued_cons hpq]
    simp only
    rw [if_pos (Or.inl hr)]
    simp only [hst]
  have hfill : fill p c = (some .type, { c with state := { c.state with positionQueue := c.state.positionQueue.popTo rest } }) := by
    rw [fill]
    split
    · rename_i h'; rw [h'] at hraise; cases hraise
    · rename_i h'; rw [h'] at hraise; cases hraise; rfl
    · rename_i h'; rw [h'] at hraise; cases hraise
  refine ⟨_, .tail .refl (.tickFillRaise c _ .type [] rfl rfl (Or.inr ?_) hfill ?_), rfl⟩
  · simp [ObjQueue.hasQueued, hpq]
  · simp [hsq, RunQueue.create]

/-- non-vacuity of `C32_no_stencil`: the demonstration without its stencil -/
example : ({ Demo.params with stencil := none } : CtlParams 1).stencil = none ∧
    DistinctInput ({ Demo.params with stencil := none } : CtlParams 1) :=
  ⟨rfl, ⟨Demo.distinct.1, by simp⟩⟩

/-! ## C33, C34 -/

/-- C33.  When a simplex is handed out for minimization, it is skipped if and only if more than `simplex_check_cutoff` of its vertices have a node closer
than `dist_cutoff = feature_size / 3` that is not exactly at the vertex; otherwise its minimization is started. -/
theorem C33_skip_iff {p : CtlParams d} (hd : DistinctInput p) (hg : GoodGeometry p) (hcut : 0 ≤ p.simplexCheckCutoff)
    {c c' : Ctl d} (h : InRound p c) {s : Simplex d} {rest : List (Simplex d)}
    (hq : c.state.simplexQueue.base.queued = s :: rest) (hs : fillStep p c = .next c') :
    (c'.log = c.log ++ [.skipped s] ∧ c'.tasks = c.tasks ↔
      p.simplexCheckCutoff < (s.filter fun v => decide (∃ r ∈ c.state.result.nodes.values,
        r.pos ≠ v ∧ p.coord.distance v r.pos < p.featureSize / 3)).length) ∧
    (c'.log = c.log ++ [.scheduled s] ∧ c'.tasks = c.tasks ++ [s] ↔
      ¬ p.simplexCheckCutoff < (s.filter fun v => decide (∃ r ∈ c.state.result.nodes.values,
        r.pos ≠ v ∧ p.coord.distance v r.pos < p.featureSize / 3)).length) := by
  have ha := (good_inRound hd h).1
  have hiff : checkSimplex p c.state.result s = false ↔
      p.simplexCheckCutoff < (s.filter fun v => decide (∃ r ∈ c.state.result.nodes.values,
        r.pos ≠ v ∧ p.coord.distance v r.pos < p.featureSize / 3)).length := by
    unfold checkSimplex
    rw [checkSimplexLoop_eq_false_iff _ _ _ _ (Or.inl hcut), zero_add]
    have e : s.filter (fun v => (c.state.result.neighbourDistances v).any fun x => decide (x < p.distCutoff))
        = s.filter fun v => decide (∃ r ∈ c.state.result.nodes.values,
        r.pos ≠ v ∧ p.coord.distance v r.pos < p.featureSize / 3) := by
      apply List.filter_congr
      intro v _
      have := any_near_iff ha.cont hg.1 (goodGeometry_dc hg) (goodGeometry_sz hg) v
      rw [Bool.eq_iff_iff, this, decide_eq_true_iff]
      rfl
    rw [e]
    constructor
    · exact fun h => h.2
    · intro h
      refine ⟨?_, h⟩
      have hne : s.filter (fun v => decide (∃ r ∈ c.state.result.nodes.values,
        r.pos ≠ v ∧ p.coord.distance v r.pos < p.featureSize / 3)) ≠ [] := by
        intro e; rw [e] at h; simp at h; omega
      rw [← e] at hne
      obtain ⟨v, hv⟩ := List.exists_mem_of_ne_nil _ hne
      exact ⟨v, (List.mem_filter.1 hv).1, (List.mem_filter.1 hv).2⟩
  rw [← hiff]
  obtain ⟨-, ⟨x, rest', hq', hck, rfl⟩ | ⟨x, rest', hq', hck, rfl⟩ | ⟨pos, rest', st, hq', hpq, -, hst, rfl⟩ |
      ⟨pos, rest', hq', hpq, -, -, rfl⟩⟩ := fillStep_next hs
  · rw [hq] at hq'
    cases hq'
    simp [hck]
  · rw [hq] at hq'
    cases hq'
    simp [hck]
  · rw [hq] at hq'; cases hq'
  · rw [hq] at hq'; cases hq'

/-- C33, negative cutoffs: then a single near vertex suffices, as for cutoff 0 (in particular a simplex without near vertices is never
skipped). -/
theorem C33_negative_cutoff {p : CtlParams d} (hg : GoodGeometry p) (hcut : p.simplexCheckCutoff < 0) {res : Container d}
    (hi : res.Inv p.coord p.gapThreshold p.distCutoff) (s : Simplex d) :
    checkSimplex p res s = false ↔
      ∃ v ∈ s, ∃ r ∈ res.nodes.values, r.pos ≠ v ∧ p.coord.distance v r.pos < p.featureSize / 3 := by
  unfold checkSimplex
  rw [checkSimplexLoop_eq_false_iff _ _ _ _ (Or.inr hcut)]
  have e : ∀ v, ((res.neighbourDistances v).any fun x => decide (x < p.distCutoff)) = true ↔
      ∃ r ∈ res.nodes.values, r.pos ≠ v ∧ p.coord.distance v r.pos < p.featureSize / 3 :=
    any_near_iff hi hg.1 (goodGeometry_dc hg) (goodGeometry_sz hg)
  simp only [e]
  constructor
  · exact fun h => h.1
  · exact fun h => ⟨h, by omega⟩

/-- C33, the docstring of `_check_simplex` ("Returns False if all vertices of the simplex are within dist_cutoff from an existing node")
is not what is computed: with the default cutoff 0 a simplex is skipped if one of its vertices is near a node, however far the other one is. -/
theorem C33_docstring_differs : ∃ (p : CtlParams 1) (s : Simplex 1) (res : Container 1), GoodGeometry p ∧ p.simplexCheckCutoff = 0 ∧
    res = history p.coord p.gapThreshold p.distCutoff [.addResult Demo.node] ∧ checkSimplex p res s = false ∧
    ∃ v ∈ s, ∀ r ∈ res.nodes.values, ¬ p.coord.distance v r.pos < p.featureSize / 3 := by
  refine ⟨{ Demo.params with simplexCheckCutoff := 0 }, [Demo.pt (9/20), Demo.pt 0], _, Demo.geometry, rfl, rfl, ?_, ?_⟩
  · set p : CtlParams 1 := { Demo.params with simplexCheckCutoff := 0 }
    have hn := (C12_nodes_and_rejected p.coord p.gapThreshold p.distCutoff [.addResult Demo.node]).1
    have hnode : IsNode p.gapThreshold Demo.node := Demo.isNode
    simp only [resultsOf, List.filter_cons, hnode, decide_true, if_true, List.filter_nil, List.map_cons, List.map_nil] at hn
    have hnp : p.coord.normalizePosition Demo.node.pos = Demo.pt (1/2) := Demo.pos_node
    unfold checkSimplex
    rw [checkSimplexLoop_eq_false_iff _ _ _ _ (Or.inl (by simp [p]))]
    have hnear : ((history p.coord p.gapThreshold p.distCutoff [.addResult Demo.node]).neighbourDistances (Demo.pt (9/20))).any
        (fun x => decide (x < p.distCutoff)) = true := by
      rw [any_near_iff (Container.Inv.history _ _ _ _) Demo.geometry.1 (goodGeometry_dc (p := p) Demo.geometry)
        (goodGeometry_sz (p := p) Demo.geometry)]
      refine ⟨movedTo Demo.node (Demo.pt (1/2)), ?_, ?_, ?_⟩
      · rw [← hnp]
        change _ ∈ (history p.coord p.gapThreshold p.distCutoff [.addResult Demo.node]).nodes.values
        rw [hn]; simp
      · simp [movedTo, Demo.pt, funext_iff]; norm_num
      · rw [distance_eucl rfl]
        simp only [eucl, movedTo, SRes.pos_setPos, Demo.pt, p, Demo.params, CtlParams.distCutoff, Finset.univ_unique,
          Finset.sum_const, Finset.card_singleton, one_smul]
        rw [Real.sqrt_lt' (by norm_num)]
        norm_num
    refine ⟨⟨_, by simp, hnear⟩, ?_⟩
    simp only [List.filter_cons, hnear, if_true, List.length_cons]
    simp only [p]
    positivity
  · refine ⟨Demo.pt 0, by simp, ?_⟩
    intro r hr
    rw [(C12_nodes_and_rejected _ _ _ _).1] at hr
    obtain ⟨r0, hr0, rfl⟩ := List.mem_map.1 hr
    have := (List.mem_filter.1 hr0).1
    simp only [resultsOf, List.mem_singleton] at this
    subst this
    rw [distance_eucl rfl]
    simp only [movedTo, SRes.pos_setPos]
    have hnp : (Demo.params).coord.normalizePosition Demo.node.pos = Demo.pt (1/2) := Demo.pos_node
    simp only [hnp]
    simp only [eucl, Demo.pt, Demo.params, Finset.univ_unique,
          Finset.sum_const, Finset.card_singleton, one_smul]
    rw [not_lt]
    apply Real.le_sqrt_of_sq_le
    norm_num

/-- C34.  A position popped for refinement is discarded if and only if more than `recheck_count_cutoff` refined positions are closer than
`dist_cutoff`; otherwise it is refined.  (With `recheck_pos_dist` on, a non-negative cutoff, and a box large enough for the
neighbour count to be exact: C10.) -/
theorem C34_discard_iff {p : CtlParams d} (hd : DistinctInput p) (hg : GoodGeometry p) (hcut : 0 ≤ p.recheckCountCutoff)
    (hre : p.recheckPosDist = true) (h3 : p.coord.periodic = true → ∀ i, p.featureSize ≤ p.coord.upper i - p.coord.lower i)
    {c c' : Ctl d} (h : InRound p c) {x : Vec d} {rest : List (Vec d)} (hq : c.state.simplexQueue.base.queued = [])
    (hpq : c.state.positionQueue.queued = x :: rest) (hs : fillStep p c = .next c') :
    (c'.log = c.log ++ [.discarded x] ∧ c'.state.result.refined.values = c.state.result.refined.values ↔
      p.recheckCountCutoff < (c.state.result.refined.values.filter fun q =>
        decide (p.coord.distance x q < p.featureSize / 3)).length) ∧
    (c'.log = c.log ++ [.refined x] ∧ c'.state.result.refined.values = c.state.result.refined.values ++ [x] ↔
      ¬ p.recheckCountCutoff < (c.state.result.refined.values.filter fun q =>
        decide (p.coord.distance x q < p.featureSize / 3)).length) := by
  have ha := (good_inRound hd h).1
  have hiff : checkPosRefinement p c.state.result x p.recheckCountCutoff = false ↔
      p.recheckCountCutoff < (c.state.result.refined.values.filter fun q =>
        decide (p.coord.distance x q < p.featureSize / 3)).length := by
    rw [checkPos_eq_false_iff]
    have e := near_count_eq ha.cont hg.1 (goodGeometry_dc hg) (goodGeometry_sz hg)
      (by intro hp i; have := h3 hp i; unfold CtlParams.distCutoff size; linarith) x
    rw [e]
    constructor
    · exact fun h => h.2
    · intro h
      refine ⟨?_, h⟩
      intro e2
      rw [e2] at e
      change p.recheckCountCutoff < ((c.state.result.refined.flat.filter _).length : ℤ) at h
      unfold CtlParams.distCutoff at e
      rw [← e] at h
      simp at h; omega
  rw [← hiff]
  obtain ⟨-, ⟨y, rest', hq', hck, rfl⟩ | ⟨y, rest', hq', hck, rfl⟩ | ⟨pos, rest', st, hq', hpq', hck, hst, rfl⟩ |
      ⟨pos, rest', hq', hpq', -, hck, rfl⟩⟩ := fillStep_next hs
  · rw [hq] at hq'; cases hq'
  · rw [hq] at hq'; cases hq'
  · rw [hpq] at hpq'
    cases hpq'
    have hck : checkPosRefinement p c.state.result x p.recheckCountCutoff = true := by
      rcases hck with h | h
      · rw [hre] at h; cases h
      · exact h
    simp [hck, Container.setRefined, CellList.values, CellList.addPoint]
  · rw [hpq] at hpq'
    cases hpq'
    simp [hck]

/-- non-vacuity: the demonstration pops a position and refines it -/
example : Demo.c2.state.simplexQueue.base.queued = [] ∧ Demo.c2.state.positionQueue.queued = [Demo.pt (1/2)] ∧
    fill Demo.params Demo.c2 = (none, Demo.c3) := ⟨Demo.queued2, Demo.pos2, Demo.fill2⟩

/-- C34, the excluded case: in a small periodic box a single refined position is counted `3 ^ d` times, so that a position may be discarded although
`recheck_count_cutoff` allows more near refined positions than there are. -/
theorem C34_small_box_discards : ∃ (p : CtlParams 1) (res : Container 1) (x : Vec 1), GoodGeometry p ∧ p.recheckCountCutoff = 2 ∧
    res = history p.coord p.gapThreshold p.distCutoff [.setRefined x] ∧
    checkPosRefinement p res x p.recheckCountCutoff = false ∧ res.refined.values.length = 1 := by
  set p : CtlParams 1 := { Demo.params with coord := ⟨Demo.pt 0, Demo.pt 1, true⟩, featureSize := 3, recheckCountCutoff := 2 } with hp
  have hb : ProperBox p.coord := fun i => by simp [hp, Demo.pt]
  refine ⟨p, _, Demo.pt 0, ⟨hb, by norm_num [hp], Or.inl rfl⟩, rfl, rfl, ?_, ?_⟩
  · rw [checkPos_eq_false_iff]
    have hcount := C10_small_periodic_box_overcounts p.coord p.gapThreshold p.distCutoff [.setRefined (Demo.pt 0)] hb rfl
      (by norm_num [hp, CtlParams.distCutoff]) (by intro i; norm_num [hp, CtlParams.distCutoff, Demo.pt]) (Demo.pt 0) (Demo.pt 0)
    have hrefined : refinedOf [ContainerOp.setRefined (Demo.pt 0)] = [Demo.pt 0] := rfl
    rw [hrefined] at hcount
    have hc1 : [Demo.pt 0].count (Demo.pt 0) = 1 := by simp
    rw [hc1] at hcount
    set res := history p.coord p.gapThreshold p.distCutoff [.setRefined (Demo.pt 0)] with hres
    have hi : res.Inv p.coord p.gapThreshold p.distCutoff := Container.Inv.history _ _ _ _
    have hdist : p.coord.distance (Demo.pt 0) (Demo.pt 0) < p.distCutoff := by
      rw [(C03_distance_metric p.coord hb (Demo.pt 0) (Demo.pt 0) (Demo.pt 0)).2.2.2.2]
      · norm_num [hp, CtlParams.distCutoff]
      · exact ⟨0, by funext i; simp [shift]⟩
    have hlen : 3 ≤ ((res.refinedNeighbourDistances (Demo.pt 0)).filter fun y => decide (y < p.distCutoff)).length := by
      rw [Container.refinedNeighbourDistances, hi.coord, List.filter_map, List.length_map]
      calc 3 = (res.refined.neighbourValues (p.coord.getFrac (Demo.pt 0))).count (Demo.pt 0) := by rw [hcount]; norm_num
        _ = ((res.refined.neighbourValues (p.coord.getFrac (Demo.pt 0))).filter
              ((fun y => decide (y < p.distCutoff)) ∘ fun q => p.coord.distance (Demo.pt 0) q)).count (Demo.pt 0) := by
            rw [List.count_filter]
            simpa using hdist
        _ ≤ _ := List.count_le_length
    have h3 : ((3 : ℕ) : ℤ) ≤ (((res.refinedNeighbourDistances (Demo.pt 0)).filter fun y => decide (y < p.distCutoff)).length : ℤ) := by
      exact_mod_cast hlen
    refine ⟨?_, ?_⟩
    · intro e; rw [e] at hlen; simp at hlen
    · have : p.recheckCountCutoff = 2 := rfl
      rw [this]; push_cast at h3; omega
  · rw [(C12_nodes_and_rejected _ _ _ _).2.2]; rfl

/-! ## C35 -/

/-- C35.  `load` together with an initial state is a ValueError. -/
theorem C35_load_and_initial_state (p : CtlParams d) (sv : Saved d) (loadQuiet : Bool) (file : Except Err (Saved d)) :
    createState p (some sv) true loadQuiet file = .error .value := rfl

/-- C35.  A failing load raises the IOError if and only if `load_quiet` is off; otherwise the search starts like a new one. -/
theorem C35_load_fails (p : CtlParams d) (loadQuiet : Bool) :
    createState p none true loadQuiet (.error .io) =
      if loadQuiet then createState p none false loadQuiet (.error .io) else .error .io := by
  cases loadQuiet <;> rfl

/-- C35.  Errors other than IOError are never silenced. -/
theorem C35_other_errors (p : CtlParams d) (loadQuiet : Bool) (e : Err) (he : e ≠ .io) :
    createState p none true loadQuiet (.error e) = .error e := by
  cases e <;> first | rfl | exact absurd rfl he

/-- C35.  A new search starts with exactly the simplices of the initial mesh (vertices sorted), nothing running, no positions to refine, no
results, no refined positions. -/
theorem C35_fresh (p : CtlParams d) (loadQuiet : Bool) (file : Except Err (Saved d)) :
    ∃ s, createState p none false loadQuiet file = .ok s ∧ s.simplexQueue.base.queued = p.mesh.map normalizeSimplex ∧
      s.simplexQueue.running = ∅ ∧ s.positionQueue.queued = [] ∧ s.result.minimizationResults = [] ∧
      s.result.refined.values = [] :=
  ⟨_, rfl, rfl, rfl, rfl, rfl, rfl⟩

/-- C35.  With a previous state (given, or loaded) the search starts with its outstanding simplices, first and in the same order, then, if this is
forced, those simplices of the initial mesh which are not among them; with its positions; and with its refined positions. -/
theorem C35_previous (p : CtlParams d) (sv : Saved d) (hsv : WellFormedSaved sv) (loadQuiet : Bool) (file : Except Err (Saved d)) :
    (createState p none true loadQuiet (.ok sv) = createState p (some sv) false loadQuiet file) ∧
    ∃ s, createState p (some sv) false loadQuiet file = .ok s ∧
      s.simplexQueue.base.queued = sv.simplices ++
        (if p.forceInitialMesh then (p.mesh.map normalizeSimplex).filter fun x => decide (x ∉ sv.simplices) else []) ∧
      s.simplexQueue.running = ∅ ∧ s.positionQueue.queued = sv.positions ∧
      s.result.minimizationResults.Perm (sv.results.map fun r => movedTo r (p.coord.normalizePosition r.pos)) ∧
      s.result.refined.values = sv.refined := by
  refine ⟨rfl, _, rfl, ?_, ?_, rfl, ?_, ?_⟩
  · simp only [createStateFrom]
    rw [normalizeSimplices_of_norm hsv.norm]
    split
    · rw [(addObjects_queued _ _).1]
      congr 1
      exact List.filter_congr fun x _ => decide_eq_decide.2 Iff.rfl
    · simp [RunQueue.create, ObjQueue.create]
  · simp only [createStateFrom]
    split
    · rw [(addObjects_queued _ _).2.2]; rfl
    · rfl
  · have := (C23_accounting (p := { p with mesh := [], stencil := none }) ⟨by simp [DistinctSimplices], by simp⟩ none (some sv)
      (by rintro _ ⟨⟩; exact hsv) .refl).1
    simp only [startFrom, startResults, completedResults, List.append_nil] at this
    exact this
  · exact (Container.create_contents _ _ _ _ _).2.2

/-- C35.  `check_dimensions`: a single number is used for every dimension; a sequence must have the length of the limits. -/
theorem C35_check_dimensions (limits : List (ℝ × ℝ)) (n : ℤ) (l : List ℤ) :
    checkDimensions limits (.inl n) = .ok (limits.length, List.replicate limits.length n) ∧
    (checkDimensions limits (.inr l) = if l.length = limits.length then .ok (limits.length, l) else .error .value) := by
  constructor
  · simp [checkDimensions]
  · unfold checkDimensions
    simp only
    by_cases h : l.length = limits.length
    · rw [if_pos h, if_pos h.symm]
    · rw [if_neg h, if_neg fun e => h e.symm]

/-- non-vacuity: the state saved by the demonstration run is well-formed and not empty -/
example : ∃ sv, Demo.c5f.disk = some sv ∧ WellFormedSaved sv ∧ Demo.t ∈ sv.simplices := by
  obtain ⟨s, id, hid, hs, -, h3⟩ | ⟨h3, -⟩ := C25_raise_is_failure Demo.distinct Demo.reach5f.any (e := .gap 7) rfl (by simp [Demo.params])
  swap
  · cases h3
  obtain ⟨sv, h4, h5⟩ := h3 rfl
  refine ⟨sv, h4, (good_reach Demo.distinct Demo.reach5f).2 sv h4, ?_⟩
  have hf : Demo.c5f.failed = [(Demo.t, .gap 7)] := by
    change (doSave Demo.params Demo.c4f [Demo.t]).failed = _
    rw [(doSave_same _ _ _).2.1]
    simp [Demo.c4f, taskFail, Demo.failed3]
  rw [hf] at hs
  simp only [List.mem_singleton, Prod.mk.injEq] at hs
  rw [← hs.1]; exact h5

end NF
