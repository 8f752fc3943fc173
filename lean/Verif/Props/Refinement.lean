import Verif.Lemmas.Flood
import Verif.Lemmas.Demo
import Verif.Props.Controller

/-! # C26–C28: refinement centres, coverage, termination -/

noncomputable section
open Classical
namespace NF
open Spec CoordSys Container
variable {d : ℕ}

/-! ## C26 -/

/-- C26.  With rechecking enabled, each refinement centre has at most `recheck_count_cutoff` earlier refinement centres closer than
`dist_cutoff` (wrapped distance), at every moment of the search, crashes and restarts included. -/
theorem C26_centres_spread {p : CtlParams d} (hd : DistinctInput p) (hg : GoodGeometry p) (hr : p.recheckPosDist = true)
    (hcut : 0 ≤ p.recheckCountCutoff) {c : Ctl d} (h : Reach p c) (before : List (Vec d)) (x : Vec d) (after : List (Vec d))
    (hx : c.state.result.refined.values = before ++ x :: after) :
    ((before.filter fun q => decide (p.coord.distance x q < p.distCutoff)).length : ℤ) ≤ p.recheckCountCutoff := by
  have := reach_spread hd hg hr h before x after hx
  omega

/-- C26, as stated: with `recheck_count_cutoff = 0` any two refinement centres are at least `dist_cutoff` apart. -/
theorem C26_centres_keep_distance {p : CtlParams d} (hd : DistinctInput p) (hg : GoodGeometry p) (hr : p.recheckPosDist = true)
    (hcut : p.recheckCountCutoff = 0) {c : Ctl d} (h : Reach p c) :
    c.state.result.refined.values.Pairwise fun a b => p.featureSize / 3 ≤ p.coord.distance a b := by
  have hs := reach_spread hd hg hr h
  rw [hcut] at hs
  rw [List.pairwise_iff_forall_sublist]
  intro a b hab
  obtain ⟨r1, r2, e, h1, h2⟩ := List.append_sublist_iff.1 (show List.Sublist ([a] ++ [b]) _ from hab)
  obtain ⟨s1, t1, e1⟩ := List.append_of_mem (List.singleton_sublist.1 h2)
  have := hs (r1 ++ s1) b t1 (by change c.state.result.refined.values = _; rw [e, e1]; simp)
  by_contra hcon
  rw [(C03_distance_metric p.coord hg.1 a b a).2.1] at hcon
  have hmem : a ∈ (r1 ++ s1).filter fun q => decide (p.coord.distance b q < p.distCutoff) := by
    rw [List.mem_filter]
    refine ⟨List.mem_append_left _ (List.singleton_sublist.1 h1), ?_⟩
    exact decide_eq_true (not_le.1 hcon)
  have h3 := List.length_pos_of_mem hmem
  exact absurd h3 (not_lt.2 this)

/-- non-vacuity: the demonstration has a refinement centre -/
example : DistinctInput Demo.params ∧ GoodGeometry Demo.params ∧ Demo.params.recheckPosDist = true ∧
    Demo.params.recheckCountCutoff = 0 ∧ Reach Demo.params Demo.c5 ∧ Demo.c5.state.result.refined.values = [Demo.pt (1/2)] := by
  refine ⟨Demo.distinct, Demo.geometry, rfl, rfl, Demo.reach5, ?_⟩
  change (doSave Demo.params Demo.c4 []).state.result.refined.values = _
  rw [(doSave_same _ _ _).2.2.2.2.2.2.2.1, Demo.c4_eq]
  change ((Demo.c3.state.result.addResult Demo.bad).1).refined.values = _
  rw [(addResult_refined _ _).1]
  change (Demo.c2.state.result.setRefined (Demo.pt (1/2))).refined.values = _
  rw [Demo.c2_eq]
  change (Container.setRefined (Demo.c1.state.result.addResult Demo.node).1 (Demo.pt (1/2))).refined.flat = _
  have : (Demo.c1.state.result.addResult Demo.node).1.refined.flat = [] := Demo.refined_empty
  simp [Container.setRefined, CellList.addPoint, this]

/-! ## C27 -/

/-- C27.  When a search with a refinement stencil returns, every node is closer than `dist_cutoff` to a position around which a
refinement was performed (here or, after a restart, in an earlier session with the same settings). -/
theorem C27_nodes_covered {p : CtlParams d} (hd : DistinctInput p) (hg : GoodGeometry p) (hst : p.stencil ≠ none)
    (hrc : p.recheckPosDist = false ∨ 0 ≤ p.recheckCountCutoff) {c : Ctl d} (h : Reach p c) (hret : c.phase = .returned) :
    ∀ r ∈ c.state.result.nodes.values, ∃ q ∈ c.state.result.refined.values, p.coord.distance r.pos q < p.featureSize / 3 := by
  have hcov := reach_cov hd hg (Option.isSome_iff_ne_none.2 hst) hrc h
  have hfin := C24_return_means_finished hd h.any hret
  intro r hr
  rcases hcov.1 r hr with h1 | h1
  · exact h1
  · rw [hfin.2.2.2.1] at h1; cases h1

/-- C27, before the end: every node is covered or its position is still waiting for refinement. -/
theorem C27_nodes_covered_or_queued {p : CtlParams d} (hd : DistinctInput p) (hg : GoodGeometry p) (hst : p.stencil ≠ none)
    (hrc : p.recheckPosDist = false ∨ 0 ≤ p.recheckCountCutoff) {c : Ctl d} (h : Reach p c) :
    ∀ r ∈ c.state.result.nodes.values,
      (∃ q ∈ c.state.result.refined.values, p.coord.distance r.pos q < p.featureSize / 3) ∨ r.pos ∈ c.state.positionQueue.queued :=
  (reach_cov hd hg (Option.isSome_iff_ne_none.2 hst) hrc h).1

/-- non-vacuity: the demonstration returns with one node -/
example : Reach Demo.params Demo.c5 ∧ Demo.c5.phase = .returned ∧ Demo.params.stencil ≠ none ∧
    (Demo.c5.state.result.nodes.values).length = 1 := by
  refine ⟨Demo.reach5, rfl, by simp [Demo.params], ?_⟩
  change (doSave Demo.params Demo.c4 []).state.result.nodes.values.length = _
  rw [(doSave_same _ _ _).2.2.2.2.2.2.2.2.1, Demo.c4_eq]
  change ((Demo.c3.state.result.addResult Demo.bad).1).nodes.values.length = _
  rw [addResult_def, if_neg (by rw [(good_reach Demo.distinct Demo.reach3).1.cont.gap]; exact Demo.bad_not_node (by norm_num [Demo.params]))]
  change (Demo.c2.state.result).nodes.values.length = _
  rw [Demo.c2_eq]
  change ((Demo.c1.state.result.addResult Demo.node).1).nodes.flat.length = 1
  rw [addResult_def, if_pos (by rw [Demo.inv1.gap]; exact Demo.isNode)]
  simp only [CellList.addPoint, List.length_append, List.length_cons, List.length_nil]
  have : Demo.c1.state.result.nodes.flat = [] := rfl
  rw [this]; rfl

/-! ## C28 -/

/-- C28.  In a periodic search with rechecking, the number of refinement centres (over all sessions) is bounded by a number that depends only on
the box, `dist_cutoff` and `recheck_count_cutoff`. -/
theorem C28_refinements_bounded {p : CtlParams d} (hd : DistinctInput p) (hg : GoodGeometry p) (hp : p.coord.periodic = true)
    (hr : p.recheckPosDist = true) {c : Ctl d} (h : Reach p c) :
    c.state.result.refined.values.length ≤ packingBound p.coord (p.featureSize / 3) p.recheckCountCutoff.toNat := by
  refine packing hg.1 (goodGeometry_dc hg) (reach_spread hd hg hr h) ?_
  intro x hx
  exact reach_inBox hd hg.1 hp h x (List.mem_append_left _ hx)

theorem scheduled_le {p : CtlParams d} {c : Ctl d} (h : Acct p c) :
    (scheduledSimplices c.log).length ≤ (handled c.log ++ outstanding c).length := by
  have h1 : ∀ l : List (LogEntry d), (completedSimplices l).length ≤ (handled l).length := by
    intro l
    induction l with
    | nil => simp [completedSimplices, handled]
    | cons x l ih => cases x <;> simp [completedSimplices, handled] <;> omega
  have := h.sched.length_eq
  have h2 := h1 c.log
  simp only [outstanding, List.length_append, List.length_map] at this ⊢
  omega

/-- C28.  In a fresh periodic search with rechecking the total number of minimizations started is at most the number of simplices of the initial mesh plus the
stencil size times the maximal number of refinements. -/
theorem C28_work_bounded {p : CtlParams d} (hd : DistinctInput p) (hg : GoodGeometry p) (hp : p.coord.periodic = true)
    (hr : p.recheckPosDist = true) {c : Ctl d} (h : ReachFrom p (startFresh p) c) :
    (scheduledSimplices c.log).length ≤
      p.mesh.length + (p.stencil.getD []).length * packingBound p.coord (p.featureSize / 3) p.recheckCountCutoff.toNat := by
  have hreach : Reach p c := ReachFrom.induction (P := Reach p) .start (fun _ _ h hs => .tail h (.step hs)) h
  have hw := work_from hd (disk := none) (initial := none) (by simp) (by simp) h
  have hb := C28_refinements_bounded hd hg hp hr hreach
  have hs := scheduled_le (good_reach hd hreach).1
  have h1 := hw.simplices
  have h2 : (startFrom p none none).state.result.refined.flat = [] :=
    (create_contents p.coord [] p.gapThreshold p.distCutoff []).2.2
  have h3 := hw.refined
  rw [h2] at h3
  have h4 : (refinedPositions c.log).length ≤ packingBound p.coord (p.featureSize / 3) p.recheckCountCutoff.toNat := by
    change c.state.result.refined.flat.length ≤ _ at hb
    simp at h3; omega
  have e : stencilSize p = (p.stencil.getD []).length := by
    unfold stencilSize
    cases p.stencil <;> rfl
  rw [e] at h1
  have h5 := Nat.mul_le_mul_left ((p.stencil.getD []).length) h4
  have h6 : (startSimplices p none).length = p.mesh.length := rfl
  omega

/-- what a session does is bounded by the number of refinement centres, over all sessions -/
theorem work_restarts {p : CtlParams d} (hd : DistinctInput p) (hforce : p.forceInitialMesh = false) {c : Ctl d} (h : Reach p c) {N : ℕ}
    (hb : c.state.result.refined.values.length ≤ N) :
    (scheduledSimplices c.log).length ≤ p.mesh.length + (p.stencil.getD []).length * N := by
  have key : (∃ B P R, WorkInv p B P R c ∧ B ≤ p.mesh.length + stencilSize p * R) ∧
      ∀ sv, c.disk = some sv → sv.simplices.length ≤ p.mesh.length + stencilSize p * sv.refined.length := by
    refine reach_of_elem hd (P := fun c => (∃ B P R, WorkInv p B P R c ∧ B ≤ p.mesh.length + stencilSize p * R) ∧
      ∀ sv, c.disk = some sv → sv.simplices.length ≤ p.mesh.length + stencilSize p * sv.refined.length) ?_ ?_ ?_ h
    · refine Elem.and ⟨?_, ?_, ?_, ?_, ?_, ?_⟩ (elem_disk ?_)
      · rintro c c' hG ⟨B, P, R, h1, h2⟩ hs; exact ⟨B, P, R, elem_work.fill c c' hG.1 h1 hs, h2⟩
      · rintro c e c' hG ⟨B, P, R, h1, h2⟩ hs; exact ⟨B, P, R, elem_work.raise c e c' hG.1 h1 hs, h2⟩
      · rintro c s r hG ⟨B, P, R, h1, h2⟩ hs hr; exact ⟨B, P, R, elem_work.done c s r hG.1 h1 hs hr, h2⟩
      · rintro c s id hG ⟨B, P, R, h1, h2⟩ hs; exact ⟨B, P, R, elem_work.fail c s id hG.1 h1 hs, h2⟩
      · rintro c en hG ⟨B, P, R, h1, h2⟩ hs; exact ⟨B, P, R, elem_work.save c en hG.1 h1 hs, h2⟩
      · rintro c ph hG ⟨B, P, R, h1, h2⟩; exact ⟨B, P, R, elem_work.phase c ph hG.1 h1, h2⟩
      · rintro c enum ⟨⟨hG, -⟩, B, P, R, h1, h2⟩ he
        have e1 : enum.length = (c.tasks ++ c.failed.map Prod.fst).length := by
          apply List.Perm.length_eq
          have nd := (List.nodup_append.1 (List.nodup_append.1 hG.1.nodup).2.1).1
          rw [List.perm_ext_iff_of_nodup he.1 nd]
          intro s; rw [he.2, hG.1.run]
        have h3 := h1.simplices
        have h4 := h1.refined
        change (enum ++ c.state.simplexQueue.base.queued).length ≤ _ + _ * (c.state.result.refined.flat).length
        rw [h4, mul_add]
        simp only [outstanding, List.length_append] at h3 e1 ⊢
        omega
    · refine ⟨⟨_, _, _, work_start p none none, ?_⟩, by simp [startFresh, startFrom]⟩
      exact Nat.le_add_right _ _
    · intro c _ _ hP
      refine ⟨?_, hP.2⟩
      unfold restart
      cases hdk : c.disk with
      | none => exact ⟨_, _, _, work_start p none none, Nat.le_add_right _ _⟩
      | some sv =>
        refine ⟨_, _, _, work_start p (some sv) (some sv), ?_⟩
        have e : (startFrom p (some sv) (some sv)).state.result.refined.flat = sv.refined :=
          (create_contents p.coord sv.results p.gapThreshold p.distCutoff sv.refined).2.2
        rw [e]
        simpa [startSimplices, hforce] using hP.2 sv hdk
  obtain ⟨⟨B, P, R, hw, hB⟩, -⟩ := key
  have hs := scheduled_le (good_reach hd h).1
  have h1 := hw.simplices
  have h3 := hw.refined
  have e : stencilSize p = (p.stencil.getD []).length := by
    unfold stencilSize
    cases p.stencil <;> rfl
  rw [e] at h1 hB
  have h5 := Nat.mul_le_mul_left ((p.stencil.getD []).length) hb
  have h6 : c.state.result.refined.values.length = R + (refinedPositions c.log).length := h3
  rw [h6, mul_add] at h5
  omega

/-- C28, with crashes: the same bound holds for what each session does and for what is outstanding, however often the search is restarted from its save file
(without forcing the initial mesh). -/
theorem C28_work_bounded_restarts {p : CtlParams d} (hd : DistinctInput p) (hg : GoodGeometry p) (hp : p.coord.periodic = true)
    (hr : p.recheckPosDist = true) (hforce : p.forceInitialMesh = false) {c : Ctl d} (h : Reach p c) :
    (scheduledSimplices c.log).length ≤
      p.mesh.length + (p.stencil.getD []).length * packingBound p.coord (p.featureSize / 3) p.recheckCountCutoff.toNat :=
  work_restarts hd hforce h (C28_refinements_bounded hd hg hp hr h)

/-! ### without rechecking -/

theorem cells_grid {p : CtlParams d} (hg : GoodGeometry p) (box : CoordSys d) :
    Cells p (fun x => ∀ i, box.lower i ≤ x i ∧ x i ≤ box.upper i) (packCell box p.distCutoff) (packGrid box p.distCutoff) :=
  ⟨fun _ h => packCell_mem (goodGeometry_dc hg) fun i => (h i).2, fun _ _ hx hy e => packCell_close hg.1 (goodGeometry_dc hg) (fun i => (hx i).1) (fun i => (hy i).1) e⟩

theorem nodes_in_box {p : CtlParams d} (hb : ProperBox p.coord) (hp : p.coord.periodic = true) {c : Ctl d} (h : Reach p c) :
    ∀ r ∈ c.state.result.nodes.values, ∀ i, p.coord.lower i ≤ r.pos i ∧ r.pos i ≤ p.coord.upper i := by
  intro r hr i
  obtain ⟨ops, h1, -⟩ := (hist_reach h).1
  obtain ⟨-, -, -, f4, -, -⟩ := h1.fields
  rw [f4] at hr
  obtain ⟨-, -, -, h3, -⟩ := C13_stored_positions_normalized p.coord p.gapThreshold p.distCutoff ops hb r (List.mem_append_left _ hr)
  exact ⟨(h3 hp i).1, (h3 hp i).2.le⟩

theorem stencilSize_eq (p : CtlParams d) : stencilSize p = (p.stencil.getD []).length := by
  unfold stencilSize
  cases p.stencil <;> rfl

theorem flood_bound {p : CtlParams d} (hd : DistinctInput p) (hg : GoodGeometry p) (hforce : p.forceInitialMesh = false) (box : CoordSys d) {c : Ctl d} (h : Reach p c)
    (hreg : ∀ r ∈ c.state.result.nodes.values, ∀ i, box.lower i ≤ r.pos i ∧ r.pos i ≤ box.upper i) :
    c.state.result.refined.values.length ≤ p.mesh.length * ∑ j ∈ Finset.range (packingBound box (p.featureSize / 3) 0), (p.stencil.getD []).length ^ j := by
  have h1 := flood_reach hd hg (cells_grid hg box) hforce h hreg
  rw [card_packGrid, stencilSize_eq, mul_comm] at h1
  have e : packingBound box (p.featureSize / 3) 0 = ∏ i, packCells box p.distCutoff i := by
    simp [packingBound, packCells, CoordSys.size, CtlParams.distCutoff]
  rw [e]
  exact (Nat.le_add_right _ _).trans h1

/-- C28, without rechecking (`recheck_pos_dist=False`): the number of refinement centres (over all sessions) is still bounded, by a much larger number that depends on the sizes of the mesh and of the stencil
as well. -/
theorem C28_refinements_bounded_without_recheck {p : CtlParams d} (hd : DistinctInput p) (hg : GoodGeometry p) (hp : p.coord.periodic = true)
    (hforce : p.forceInitialMesh = false) {c : Ctl d} (h : Reach p c) :
    c.state.result.refined.values.length ≤ p.mesh.length * ∑ j ∈ Finset.range (packingBound p.coord (p.featureSize / 3) 0), (p.stencil.getD []).length ^ j :=
  flood_bound hd hg hforce p.coord h (nodes_in_box hg.1 hp h)

/-- C28, without rechecking: the number of minimizations that a session starts is bounded. -/
theorem C28_work_bounded_without_recheck {p : CtlParams d} (hd : DistinctInput p) (hg : GoodGeometry p) (hp : p.coord.periodic = true)
    (hforce : p.forceInitialMesh = false) {c : Ctl d} (h : Reach p c) :
    (scheduledSimplices c.log).length ≤ p.mesh.length + (p.stencil.getD []).length *
      (p.mesh.length * ∑ j ∈ Finset.range (packingBound p.coord (p.featureSize / 3) 0), (p.stencil.getD []).length ^ j) :=
  work_restarts hd hforce h (C28_refinements_bounded_without_recheck hd hg hp hforce h)

/-! ### termination -/

theorem elem_log {p : CtlParams d} (L : List (LogEntry d)) : Elem p (fun _ => True) (fun c => L <+: c.log) where
  fill c c' _ h hs := by
    obtain ⟨-, ⟨x, rest, hq, -, rfl⟩ | ⟨x, rest, hq, -, rfl⟩ | ⟨pos, rest, st, hq, hpq, -, hst, rfl⟩ |
      ⟨pos, rest, hq, hpq, -, -, rfl⟩⟩ := fillStep_next hs <;> exact h.trans (List.prefix_append _ _)
  raise c e c' _ h hs := by
    obtain ⟨-, -, pos, rest, hpq, rfl⟩ := fillStep_raise hs
    exact h
  done c s r _ h hs hr := by
    unfold taskDone
    simp only
    split <;> exact h.trans (List.prefix_append _ _)
  fail c s id _ h hs := h.trans (List.prefix_append _ _)
  save c enum _ h he := by rw [(doSave_same p c enum).2.2.1]; exact h
  phase c ph _ h := h

theorem step_log {p : CtlParams d} {c c' : Ctl d} (h : Step p c c') : c.log <+: c'.log :=
  (elem_log c.log).step (List.prefix_refl _) h

theorem fill_same_log {p : CtlParams d} {c c' : Ctl d} {e : Option Err} (h : fill p c = (e, c')) (hl : c'.log.length = c.log.length)
    (he : e = none) : c' = c := by
  rw [fill] at h
  split at h
  · injection h with _ h; exact h.symm
  · injection h with h _; rw [he] at h; cases h
  · rename_i c1 hs
    exfalso
    have h1 : c1.log.length = c.log.length + 1 := by
      obtain ⟨-, ⟨x, rest, hq, -, rfl⟩ | ⟨x, rest, hq, -, rfl⟩ | ⟨pos, rest, st, hq, hpq, -, hst, rfl⟩ |
        ⟨pos, rest, hq, hpq, -, -, rfl⟩⟩ := fillStep_next hs <;> simp
    obtain ⟨c2, hc2, h2 | ⟨err, h2, -⟩⟩ := fill_induction (p := p) (P := fun x => c1.log <+: x.log)
      (fun a b ha hs => (elem_log c1.log).fill a b trivial ha hs) c1 (List.prefix_refl _) _ _ h
    · have := hc2.length_le
      rw [← h2.2.1] at this
      omega
    · rw [he] at h2; cases h2

theorem step_same_log {p : CtlParams d} {c c' : Ctl d} (h : Step p c c') (hl : c'.log.length = c.log.length) :
    c.phase = .running ∧ (c'.phase = .running → c'.tasks = c.tasks) := by
  have hdone : ∀ s r, c.log.length < (taskDone p c s r).log.length := by
    intro s r
    unfold taskDone
    simp only
    split <;> simp
  cases h with
  | tickRaise s e enum hph hf henum => exact ⟨hph, fun h => by cases h⟩
  | tickReturn enum hph hf hcond henum => exact ⟨hph, fun h => by cases h⟩
  | tickFill _ hph hf hcond hfill => exact ⟨hph, fun _ => by rw [fill_same_log hfill hl rfl]⟩
  | tickFillRaise c1 e enum hph hf hcond hfill henum => exact ⟨hph, fun h => by cases h⟩
  | exitSaveFail hph hx hsv => exact ⟨hph, fun h => by cases h⟩
  | fillRaiseSaveFail c1 e hph hf hcond hfill hsv => exact ⟨hph, fun h => by cases h⟩
  | done s r hph hs hr => exfalso; have := hdone s r; omega
  | fail s id hph hs => simp [taskFail] at hl
  | save enum hph henum => exact ⟨hph, fun _ => by rw [(doSave_same p c enum).1]⟩
  | saveFail hph hsv => exact ⟨hph, fun _ => rfl⟩

/-- C28.  A search that has not ended can always take a turn of its main loop ... -/
theorem C28_progress {p : CtlParams d} {c : Ctl d} (h : c.phase = .running) : ∃ c', Step p c c' ∧ Turn p c c' := by
  have henum : ∀ c : Ctl d, c.state.simplexQueue.running.toList.Nodup ∧
      ∀ x, x ∈ c.state.simplexQueue.running.toList ↔ x ∈ c.state.simplexQueue.running :=
    fun c => ⟨Finset.nodup_toList _, fun x => Finset.mem_toList⟩
  cases hf : c.failed with
  | cons x xs =>
    exact ⟨_, .tickRaise c x.1 x.2 _ h (by rw [hf]; simp) (henum c), Or.inl (by simp)⟩
  | nil =>
    by_cases hc : loopCondition c
    · obtain ⟨e, c', hfl⟩ : ∃ e c', fill p c = (e, c') := ⟨_, _, rfl⟩
      cases e with
      | none => exact ⟨c', .tickFill c c' h hf hc hfl, Or.inr ⟨hf, hc, hfl⟩⟩
      | some e => exact ⟨_, .tickFillRaise c c' e _ h hf hc hfl (henum c'), Or.inl (by simp)⟩
    · exact ⟨_, .tickReturn c _ h hf hc (henum c), Or.inl (by simp)⟩

/-- no fair execution with boundedly many refinement centres goes on for ever -/
theorem terminates {p : CtlParams d} (hd : DistinctInput p) (hN : 1 ≤ p.numMinimizeParallel) (f : ℕ → Ctl d) (h0 : Reach p (f 0)) {N : ℕ}
    (hbound : ∀ n, Reach p (f n) → (f n).state.result.refined.values.length ≤ N) : ¬ FairRun p f := by
  intro hf
  have hreach : ∀ n, Reach p (f n) := by
    intro n
    induction n with
    | zero => exact h0
    | succ n ih => exact .tail ih (.step (hf.step n))
  obtain ⟨disk, initial, w1, w2, w3⟩ := session hd h0.any
  have hfrom : ∀ n, ReachFrom p (startFrom p disk initial) (f n) := by
    intro n
    induction n with
    | zero => exact w3
    | succ n ih => exact .tail ih (hf.step n)
  -- the record is bounded
  obtain ⟨M, hM⟩ : ∃ M, ∀ n, (f n).log.length ≤ M := by
    refine ⟨3 * ((startSimplices p initial).length + stencilSize p * N) +
      (startPositions initial).length, fun n => ?_⟩
    have hw := work_from hd w1 w2 (hfrom n)
    have hb := hbound n (hreach n)
    have h1 := hw.simplices
    have h2 := hw.log
    have h3 := hw.refined
    have h4 : (refinedPositions (f n).log).length ≤ N := by
      change (f n).state.result.refined.flat.length ≤ _ at hb
      omega
    have h5 := Nat.mul_le_mul_left (stencilSize p) h4
    simp only [outstanding, List.length_append, List.length_map] at h1
    omega
  -- so it is constant from some time on
  have hmono : ∀ n m, n ≤ m → (f n).log.length ≤ (f m).log.length := by
    intro n m hnm
    induction m, hnm using Nat.le_induction with
    | base => exact le_rfl
    | succ m _ ih => exact ih.trans (step_log (hf.step m)).length_le
  obtain ⟨n0, hn0⟩ : ∃ n0, ∀ m, n0 ≤ m → (f m).log.length = (f n0).log.length := by
    set g : ℕ → ℕ := fun n => M - (f n).log.length
    refine ⟨Function.argmin g, fun m hm => ?_⟩
    have h1 : g (Function.argmin g) ≤ g m := Function.argmin_le g m
    have h2 := hmono _ _ hm
    have h3 := hM m
    have h4 := hM (Function.argmin g)
    simp only [g] at h1 h2 h4 ⊢
    omega
  have hrun : ∀ m, n0 ≤ m → (f m).phase = .running := fun m hm =>
    (step_same_log (hf.step m) (by rw [hn0 m hm, hn0 (m + 1) (by omega)])).1
  have htasks : ∀ m, n0 ≤ m → (f m).tasks = (f n0).tasks := by
    intro m hm
    induction m, hm using Nat.le_induction with
    | base => rfl
    | succ m hm ih =>
      rw [← ih]
      exact (step_same_log (hf.step m) (by rw [hn0 m hm, hn0 (m + 1) (by omega)])).2 (hrun _ (by omega))
  obtain ⟨m, hm, hturn⟩ := hf.turns n0
  rcases hturn with h1 | ⟨h1, h2, h3⟩
  · exact h1 (hrun _ (by omega))
  · have e := fill_same_log h3 (by rw [hn0 m hm, hn0 (m + 1) (by omega)]) rfl
    have := C29_no_stall hd (hreach m).any hN h3 (by rw [e]; exact h2)
    rw [e, h1] at this
    have hne : (f m).tasks ≠ [] := by simpa using this
    obtain ⟨s, hs⟩ := List.exists_mem_of_ne_nil _ hne
    obtain ⟨m', hm', hs'⟩ := hf.tasks m s hs
    rw [htasks m' (by omega), ← htasks m hm] at hs'
    exact hs' hs

/-- no fair execution whose nodes stay in a bounded region goes on for ever, with or without rechecking -/
theorem terminates_within {p : CtlParams d} (hd : DistinctInput p) (hg : GoodGeometry p) (hN : 1 ≤ p.numMinimizeParallel) (box : CoordSys d) (f : ℕ → Ctl d) (h0 : Reach p (f 0))
    (hreg : ∀ n, Reach p (f n) → ∀ r ∈ (f n).state.result.nodes.values, ∀ i, box.lower i ≤ r.pos i ∧ r.pos i ≤ box.upper i) : ¬ FairRun p f := by
  intro hf
  obtain ⟨K, hK⟩ := flood_from hd hg (cells_grid hg box) h0 hf.step
  exact terminates hd hN f h0 (fun n hn => (Nat.le_add_right _ _).trans (hK n (hreg n hn))) hf

/-- C28.  ... and, in a periodic search with `num_minimize_parallel ≥ 1` (with or without rechecking), no fair execution goes on for ever.
So every fair schedule ends, by returning or by raising. -/
theorem C28_terminates {p : CtlParams d} (hd : DistinctInput p) (hg : GoodGeometry p) (hp : p.coord.periodic = true)
    (hN : 1 ≤ p.numMinimizeParallel) (f : ℕ → Ctl d) (h0 : Reach p (f 0)) : ¬ FairRun p f :=
  terminates_within hd hg hN p.coord f h0 fun _ h => nodes_in_box hg.1 hp h

/-- non-vacuity: parameters of a periodic search that satisfy all hypotheses -/
example : ∃ p : CtlParams 1, DistinctInput p ∧ GoodGeometry p ∧ p.coord.periodic = true ∧ p.recheckPosDist = true ∧
    1 ≤ p.numMinimizeParallel ∧ p.stencil ≠ none ∧ p.mesh ≠ [] ∧ packingBound p.coord (p.featureSize / 3) p.recheckCountCutoff.toNat = 21 := by
  refine ⟨{ Demo.params with coord := ⟨Demo.pt 0, Demo.pt 1, true⟩ }, Demo.distinct, ⟨fun i => by simp [Demo.pt], by norm_num [Demo.params], Or.inl rfl⟩,
    rfl, rfl, by simp [Demo.params], by simp [Demo.params], by simp [Demo.params], ?_⟩
  simp only [packingBound, Demo.params, Demo.pt]
  norm_num

end NF
