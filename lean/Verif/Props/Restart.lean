import Verif.Lemmas.Hist
import Verif.Props.Controller
import Mathlib.Logic.Relation

/-! # C30, C31: crashes and restarts -/

noncomputable section
open Classical
namespace NF
open Spec CoordSys Container
variable {d : ℕ}

/-- C30.  At every moment, the save file (if there is one) holds a complete copy of an earlier state of this search: never a mixture. -/
theorem C30_file_is_earlier_state {p : CtlParams d} {c : Ctl d} (h : Reach p c) {sv : Saved d}
    (hsv : c.disk = some sv) :
    ∃ c0 enum, Reach p c0 ∧ Relation.ReflTransGen (CrashStep p) c0 c ∧ IsEnum enum c0.state.simplexQueue.running ∧
      sv = c0.state.snapshot enum := by
  induction h with
  | start => cases hsv
  | @tail c1 c2 h1 hs ih =>
    have hsave : ∀ enum, IsEnum enum c1.state.simplexQueue.running → (doSave p c1 enum).disk = some sv →
        ∃ c0 enum, Reach p c0 ∧ Relation.ReflTransGen (CrashStep p) c0 c2 ∧ IsEnum enum c0.state.simplexQueue.running ∧
          sv = c0.state.snapshot enum := by
      intro enum he hd
      rcases doSave_eq p c1 enum with ⟨-, -, e⟩ | ⟨-, e⟩
      · rw [e] at hd
        exact ⟨c1, enum, h1, .single hs, he, (Option.some.inj hd).symm⟩
      · rw [e] at hd
        obtain ⟨c0, en, a, b, c, d⟩ := ih hd
        exact ⟨c0, en, a, b.tail hs, c, d⟩
    have hkeep : c1.disk = some sv → ∃ c0 enum, Reach p c0 ∧ Relation.ReflTransGen (CrashStep p) c0 c2 ∧
        IsEnum enum c0.state.simplexQueue.running ∧ sv = c0.state.snapshot enum := by
      intro hd
      obtain ⟨c0, en, a, b, c, d⟩ := ih hd
      exact ⟨c0, en, a, b.tail hs, c, d⟩
    cases hs with
    | crash => exact hkeep hsv
    | step hs' =>
      cases hs' with
      | tickRaise s e enum hph hf henum => exact hsave enum henum hsv
      | tickReturn enum hph hf hcond henum => exact hsave enum henum hsv
      | tickFill _ hph hf hcond hfill =>
        apply hkeep
        obtain ⟨c3, hc3, h2 | ⟨err, h2, -⟩⟩ := fill_induction (p := p) (P := fun x => x.disk = c1.disk)
          (fun a b ha hs => (fillStep_disk hs).1.trans ha) c1 rfl _ _ hfill
        · rw [← hc3, ← h2.2.1]; exact hsv
        · cases h2
      | tickFillRaise c3 e enum hph hf hcond hfill henum =>
        obtain ⟨c4, hc4, h2 | ⟨err, h2, h3⟩⟩ := fill_induction (p := p) (P := fun x => p.stencil = none → x.state.positionQueue.queued = [])
          (fun a b ha hs hn => by
            have ha := ha hn
            obtain ⟨-, ⟨x, rest, hq, -, rfl⟩ | ⟨x, rest, hq, -, rfl⟩ | ⟨pos, rest, st, hq, hpq, -, hst, rfl⟩ |
              ⟨pos, rest, hq, hpq, -, -, rfl⟩⟩ := fillStep_next hs
            · exact ha
            · exact ha
            · rw [ha] at hpq; cases hpq
            · rw [ha] at hpq; cases hpq) c1 (fun hn => (noPos_reach h1 hn).1) _ _ hfill
        · cases h2.1
        · obtain ⟨-, hn, pos, rest, hpq, -⟩ := fillStep_raise h3
          rw [hc4 hn] at hpq; cases hpq
      | exitSaveFail hph hx hsf => exact hkeep hsv
      | fillRaiseSaveFail c3 e hph hf hcond hfill hsf =>
        apply hkeep
        obtain ⟨c4, hc4, h2 | ⟨err, h2, h3⟩⟩ := fill_induction (p := p) (P := fun x => x.disk = c1.disk)
          (fun a b ha hs => (fillStep_disk hs).1.trans ha) c1 rfl _ _ hfill
        · cases h2.1
        · obtain ⟨-, -, pos, rest, -, e3⟩ := fillStep_raise h3
          have : c3.disk = c4.disk := by rw [e3]
          rw [← hc4, ← this]; exact hsv
      | done s r hph hs hr => exact hkeep ((taskDone_disk p c1 s r).1 ▸ hsv)
      | fail s id hph hs => exact hkeep hsv
      | save enum hph henum => exact hsave enum henum hsv
      | saveFail hph hsf => exact hkeep hsv

/-- C30.  A search started from the copy of the state `c` has the same nodes, rejected results and refined positions, the same positions waiting for
refinement in the same order, and every simplex that was outstanding (queued, running or failed) in `c` is queued again, exactly once; if the initial mesh
is not forced, nothing else is. -/
theorem C30_restart_restores {p : CtlParams d} (hd : DistinctInput p) (hb : ProperBox p.coord) {c : Ctl d} (h : Reach p c)
    {enum : List (Simplex d)} (he : IsEnum enum c.state.simplexQueue.running) (disk : Option (Saved d)) :
    let c' := startFrom p disk (some (c.state.snapshot enum))
    c'.state.result.nodes.values = c.state.result.nodes.values ∧
    c'.state.result.rejected = c.state.result.rejected ∧
    c'.state.result.refined.values = c.state.result.refined.values ∧
    c'.state.positionQueue.queued = c.state.positionQueue.queued ∧
    c'.state.simplexQueue.base.queued.Nodup ∧
    (∀ s ∈ outstanding c, s ∈ c'.state.simplexQueue.base.queued) ∧
    (p.forceInitialMesh = false → c'.state.simplexQueue.base.queued.Perm (outstanding c)) := by
  intro c'
  have hg := (good_reach hd h).1
  have hrec := recreate hb (hist_reach h).1
  simp only at hrec
  have hok := snapshot_ok hg he
  have hup := snapshot_upToDate hg he
  obtain ⟨-, s, hs, hq, -⟩ := C35_previous p (c.state.snapshot enum) hok true (.error .io)
  have hs' : c'.state = s := by
    have : createState p (some (c.state.snapshot enum)) false true (.error .io) = .ok c'.state := rfl
    rw [this] at hs
    exact Except.ok.inj hs
  rw [← hs'] at hq
  have hnd : (outstanding c).Nodup := (List.nodup_append.1 hg.nodup).2.1
  have hacct := acct_start hd disk (some (c.state.snapshot enum)) (by rintro _ ⟨⟩; exact hok)
  refine ⟨hrec.1, hrec.2.1, ?_, rfl, ?_, ?_, ?_⟩
  · exact congrArg CellList.values hrec.2.2.1
  · exact (List.nodup_append.1 (List.nodup_append.1 hacct.nodup).2.1).2.1
  · intro s hs
    rw [hq]
    exact List.mem_append_left _ ((hup.simplices s).2 hs)
  · intro hf
    rw [hq, hf]
    simp only [Bool.false_eq_true, if_false, List.append_nil]
    rw [List.perm_ext_iff_of_nodup hok.nodup hnd]
    exact hup.simplices

/-- C30, put together: a crash at any moment loses at most what happened since the last save.  If there is a save file, the restarted search has
the results, refined positions, queued positions and outstanding simplices of an earlier state `c0` of the search. -/
theorem C30_crash_loses_nothing_saved {p : CtlParams d} (hd : DistinctInput p) (hb : ProperBox p.coord) {c : Ctl d} (h : Reach p c)
    {sv : Saved d} (hsv : c.disk = some sv) :
    ∃ c0, Reach p c0 ∧ Relation.ReflTransGen (CrashStep p) c0 c ∧
      (restart p c).state.result.nodes.values = c0.state.result.nodes.values ∧
      (restart p c).state.result.rejected = c0.state.result.rejected ∧
      (restart p c).state.result.refined.values = c0.state.result.refined.values ∧
      (restart p c).state.positionQueue.queued = c0.state.positionQueue.queued ∧
      (∀ s ∈ outstanding c0, s ∈ (restart p c).state.simplexQueue.base.queued) ∧
      (p.forceInitialMesh = false → (restart p c).state.simplexQueue.base.queued.Perm (outstanding c0)) := by
  obtain ⟨c0, enum, h1, h2, h3, rfl⟩ := C30_file_is_earlier_state h hsv
  have := C30_restart_restores hd hb h1 h3 c.disk
  simp only at this
  refine ⟨c0, h1, h2, ?_⟩
  unfold restart
  rw [hsv] at this ⊢
  exact ⟨this.1, this.2.1, this.2.2.1, this.2.2.2.1, this.2.2.2.2.2.1, this.2.2.2.2.2.2⟩

/-- C30.  Whenever the state is marked as saved, the file is up to date: same results, refined positions and outstanding
simplices, and the same queued positions (except for dropped positions, which would be dropped again). -/
theorem C30_saved_means_up_to_date {p : CtlParams d} (hd : DistinctInput p) {c : Ctl d} (h : ReachAny p c)
    (hn : c.state.needsSaving = false) : ∃ sv, c.disk = some sv ∧ UpToDate p c sv :=
  (diskInv_any hd h).2 hn

/-- C30, the search restarted without a save file starts over with the initial mesh. -/
theorem C30_no_file (p : CtlParams d) {c : Ctl d} (h : c.disk = none) : restart p c = startFresh p := by
  unfold restart startFresh; rw [h]

/-- non-vacuity: in the failing demonstration, the crash after the failure re-queues the failed simplex, and keeps the node and the refined position -/
example : ∃ sv, Demo.c5f.disk = some sv ∧ Demo.t ∈ (restart Demo.params Demo.c5f).state.simplexQueue.base.queued := by
  have hn : Demo.c5f.state.needsSaving = false := doSave_saved _ _ _ rfl
  obtain ⟨sv, h1, h2⟩ := C30_saved_means_up_to_date Demo.distinct Demo.reach5f.any hn
  refine ⟨sv, h1, ?_⟩
  have hwf := (good_reach Demo.distinct Demo.reach5f).2 sv h1
  obtain ⟨-, s, hs, hq, -⟩ := C35_previous Demo.params sv hwf true (.error .io)
  have hs' : (restart Demo.params Demo.c5f).state = s := by
    have : createState Demo.params (some sv) false true (.error .io) = .ok (restart Demo.params Demo.c5f).state := by
      unfold restart; rw [h1]; rfl
    rw [this] at hs
    exact Except.ok.inj hs
  rw [hs', hq]
  refine List.mem_append_left _ ((h2.simplices _).2 ?_)
  have hf : Demo.c5f.failed = [(Demo.t, .gap 7)] := by
    change (doSave Demo.params Demo.c4f [Demo.t]).failed = _
    rw [(doSave_same _ _ _).2.1]
    simp [Demo.c4f, taskFail, Demo.failed3]
  simp [outstanding, hf]

/-! ## C31 -/

/-- an idle restarted search: nothing to minimize, and every queued position would be dropped -/
structure Idle (p : CtlParams d) (c0 c : Ctl d) : Prop where
  queued : c.state.simplexQueue.base.queued = []
  running : c.state.simplexQueue.running = ∅
  tasks : c.tasks = []
  failed : c.failed = []
  log : scheduledSimplices c.log = [] ∧ refinedPositions c.log = []
  refined : c.state.result.refined = c0.state.result.refined
  coord : c.state.result.coord = c0.state.result.coord
  nodes : c.state.result.nodes.values = c0.state.result.nodes.values
  rejected : c.state.result.rejected = c0.state.result.rejected
  positions : ∀ x ∈ c.state.positionQueue.queued,
    p.recheckPosDist = true ∧ checkPosRefinement p c0.state.result x p.recheckCountCutoff = false
  phase : c.phase = .running ∨ c.phase = .returned ∨ (c.phase = .raised .io ∧ p.saveFile = true)

theorem idle_fillStep {p : CtlParams d} {c0 c c' : Ctl d} (h : Idle p c0 c) (hs : fillStep p c = .next c') :
    Idle p c0 c' := by
  obtain ⟨-, ⟨x, rest, hq, -, rfl⟩ | ⟨x, rest, hq, -, rfl⟩ | ⟨pos, rest, st, hq, hpq, hck, hst, rfl⟩ |
        ⟨pos, rest, hq, hpq, -, -, rfl⟩⟩ := fillStep_next hs
  · rw [h.queued] at hq; cases hq
  · rw [h.queued] at hq; cases hq
  · have := h.positions pos (by rw [hpq]; simp)
    rcases hck with hck | hck
    · rw [this.1] at hck; cases hck
    · rw [checkPos_congr h.refined h.coord, this.2] at hck; cases hck
  · refine ⟨h.queued, h.running, h.tasks, h.failed, by simpa [scheduledSimplices, refinedPositions] using h.log, h.refined, h.coord,
      h.nodes, h.rejected, ?_, h.phase⟩
    intro x hx
    exact h.positions x (by rw [hpq]; exact List.mem_cons_of_mem _ hx)

theorem idle_not_raise {p : CtlParams d} {c0 c c' : Ctl d} {e : Err} (h : Idle p c0 c) : fillStep p c ≠ .raise e c' := by
  intro hs
  unfold fillStep at hs
  split at hs
  · cases hs
  · simp only [RunQueue.popQueued_nil h.queued] at hs
    cases hp : c.state.positionQueue.queued with
    | nil => simp [ObjQueue.popQueued_nil hp] at hs
    | cons y ys =>
      simp only [ObjQueue.popQueued_cons hp] at hs
      have := h.positions y (by rw [hp]; simp)
      split at hs
      · rename_i hck
        rcases hck with hck | hck
        · rw [this.1] at hck; cases hck
        · rw [checkPos_congr h.refined h.coord, this.2] at hck; cases hck
      · cases hs

theorem idle_fill {p : CtlParams d} {c0 c c' : Ctl d} {e : Option Err} (h : Idle p c0 c) (hf : fill p c = (e, c')) :
    e = none ∧ Idle p c0 c' ∧ fillStep p c' = .stop := by
  obtain ⟨c1, hc1, h1 | ⟨err, h1, h2⟩⟩ := fill_induction (p := p) (P := Idle p c0) (fun _ _ h hs => idle_fillStep h hs) c h _ _ hf
  · exact ⟨h1.1, by rw [h1.2.1]; exact hc1, by rw [h1.2.1]; exact h1.2.2⟩
  · exact absurd h2 (idle_not_raise hc1)

theorem idle_doSave {p : CtlParams d} {c0 c : Ctl d} (h : Idle p c0 c) (enum : List (Simplex d)) (ph : Phase)
    (hph : ph = .running ∨ ph = .returned ∨ (ph = .raised .io ∧ p.saveFile = true)) : Idle p c0 { doSave p c enum with phase := ph } := by
  rcases doSave_eq p c enum with ⟨-, -, e⟩ | ⟨-, e⟩ <;> rw [e] <;>
  exact ⟨h.queued, h.running, h.tasks, h.failed, h.log, h.refined, h.coord, h.nodes, h.rejected, h.positions, hph⟩

theorem idle_step {p : CtlParams d} {c0 c c' : Ctl d} (h : Idle p c0 c) (hs : Step p c c') : Idle p c0 c' := by
  cases hs with
  | tickRaise s e enum hph hf henum => rw [h.failed] at hf; cases hf
  | tickReturn enum hph hf hcond henum => exact idle_doSave h enum _ (Or.inr (Or.inl rfl))
  | tickFill _ hph hf hcond hfill => exact (idle_fill h hfill).2.1
  | tickFillRaise c1 e enum hph hf hcond hfill henum => exact absurd (idle_fill h hfill).1 (by simp)
  | exitSaveFail hph hx hsv =>
    exact ⟨h.queued, h.running, h.tasks, h.failed, h.log, h.refined, h.coord, h.nodes, h.rejected, h.positions, Or.inr (Or.inr ⟨rfl, hsv.1⟩)⟩
  | fillRaiseSaveFail c1 e hph hf hcond hfill hsv => exact absurd (idle_fill h hfill).1 (by simp)
  | done s r hph hs hr => rw [h.tasks] at hs; cases hs
  | fail s id hph hs => rw [h.tasks] at hs; cases hs
  | save enum hph henum =>
    have := idle_doSave h enum c.phase h.phase
    rw [← (doSave_same p c enum).2.2.2.1] at this
    exact this
  | saveFail hph hsv => exact h

theorem idle_restart {p : CtlParams d} (hd : DistinctInput p) (hb : ProperBox p.coord) (hsf : p.saveFile = true)
    (hforce : p.forceInitialMesh = false) {c : Ctl d} (h : Reach p c) (hret : c.phase = .returned) : Idle p c (restart p c) := by
  obtain ⟨hq, ht, hf, hpos, -, hdisk⟩ := C24_return_means_finished hd h.any hret
  obtain ⟨sv, h1, h2, h3, h4, h5⟩ := hdisk hsf
  have hrec := recreate hb (hist_reach h).1
  simp only at hrec
  have hst : (restart p c).state = ⟨Container.create p.coord sv.results p.gapThreshold p.distCutoff sv.refined,
      RunQueue.create [], ObjQueue.create sv.positions⟩ := by
    unfold restart
    rw [h1]
    simp [startFrom, createStateFrom, hforce, h2, normalizeSimplices]
  have hns : p.stencil = none → sv.positions = [] := fun hn => (noPos_reach h hn).2 sv h1
  rw [h3, h4] at hst
  refine ⟨by rw [hst]; rfl, by rw [hst]; rfl, rfl, rfl, ⟨rfl, rfl⟩, by rw [hst]; exact hrec.2.2.1, by rw [hst]; exact hrec.2.2.2,
    by rw [hst]; exact hrec.1, by rw [hst]; exact hrec.2.1, ?_, Or.inl rfl⟩
  intro x hx
  rw [hst] at hx
  have hx : x ∈ sv.positions := hx
  rcases h5 x hx with hn | h6
  · rw [hns hn] at hx; cases hx
  · exact h6

/-- C31.  Let a search with a save file have returned.  Restarted with `load=True` and the same settings (and without `force_initial_mesh`), the
search never starts a minimization or refinement, never fails (unless saving again does), and always has exactly the same nodes, in the same order, rejected results and refined positions. -/
theorem C31_restart_finished {p : CtlParams d} (hd : DistinctInput p) (hb : ProperBox p.coord) (hsf : p.saveFile = true)
    (hforce : p.forceInitialMesh = false) {c : Ctl d} (h : Reach p c) (hret : c.phase = .returned) {c' : Ctl d}
    (h' : ReachFrom p (restart p c) c') :
    scheduledSimplices c'.log = [] ∧ refinedPositions c'.log = [] ∧ c'.tasks = [] ∧
    (c'.phase = .running ∨ c'.phase = .returned ∨ c'.phase = .raised .io) ∧
    c'.state.result.nodes.values = c.state.result.nodes.values ∧
    c'.state.result.rejected = c.state.result.rejected ∧
    c'.state.result.refined.values = c.state.result.refined.values := by
  have hidle := idle_restart hd hb hsf hforce h hret
  have := ReachFrom.induction (P := Idle p c) hidle (fun _ _ h hs => idle_step h hs) h'
  exact ⟨this.log.1, this.log.2, this.tasks, this.phase.imp id (Or.imp id And.left), this.nodes, this.rejected, congrArg CellList.values this.refined⟩

/-- C31, termination: with `num_minimize_parallel ≥ 1` the restarted search is finished after at most one scheduling round, i.e. its loop condition
is false when it is evaluated the second time. -/
theorem C31_restart_returns {p : CtlParams d} (hd : DistinctInput p) (hb : ProperBox p.coord) (hsf : p.saveFile = true)
    (hforce : p.forceInitialMesh = false) (hN : 1 ≤ p.numMinimizeParallel) {c : Ctl d} (h : Reach p c) (hret : c.phase = .returned) :
    ∃ c1, fill p (restart p c) = (none, c1) ∧ ¬ loopCondition c1 := by
  have hidle := idle_restart hd hb hsf hforce h hret
  obtain ⟨e, c1, hf⟩ : ∃ e c1, fill p (restart p c) = (e, c1) := ⟨_, _, rfl⟩
  obtain ⟨rfl, h1, h2⟩ := idle_fill hidle hf
  refine ⟨c1, hf, ?_⟩
  rcases fillStep_stop h2 with h3 | ⟨h3, h4⟩
  · rw [RunQueue.numRunning, h1.running] at h3
    simp at h3; omega
  · rintro (h5 | h5)
    · exact h5 ⟨h1.running, h3⟩
    · simp [ObjQueue.hasQueued, h4] at h5

/-- non-vacuity: the demonstration run returns with its file saved -/
example : Reach Demo.params Demo.c5 ∧ Demo.c5.phase = .returned ∧ Demo.params.saveFile = true ∧ 1 ≤ Demo.params.numMinimizeParallel :=
  ⟨Demo.reach5, rfl, rfl, by simp [Demo.params]⟩

end NF
