import Verif.Lemmas.Checks

/-! # A concrete search run, used to show that the hypotheses of the controller theorems can be met

One dimension, the box `[0, 1]`, one initial simplex.  Its minimization finds a node at `1/2`; the refinement around it queues another
simplex, whose minimization ends above the gap threshold; then the search returns. -/

noncomputable section
open Classical
namespace NF.Demo
open NF Spec CoordSys

/-- the point `x` of the line -/
def pt (x : ℝ) : Vec 1 := fun _ => x

/-- the parameters of the demonstration -/
def params : CtlParams 1 where
  coord := ⟨pt 0, pt 1, false⟩
  gapThreshold := 1
  featureSize := 3 / 10
  stencil := some [[pt (1/5), pt (2/5)]]
  numMinimizeParallel := 1
  recheckPosDist := true
  recheckCountCutoff := 0
  simplexCheckCutoff := 5
  saveFile := true
  mesh := [[pt 0, pt (1/4)]]
  forceInitialMesh := false

theorem distinct : DistinctInput params := by
  refine ⟨by simp [DistinctSimplices, params], ?_⟩
  intro st h
  have : st = [[pt (1/5), pt (2/5)]] := by simpa [params] using h.symm
  subst this
  simp [DistinctSimplices]

theorem geometry : GoodGeometry params := by
  refine ⟨fun i => by simp [params, pt], by norm_num [params], Or.inr fun i => by norm_num [params, pt]⟩

/-- the initial simplex -/
def s : Simplex 1 := normalizeSimplex [pt 0, pt (1/4)]
/-- the simplex queued by the refinement -/
def t : Simplex 1 := normalizeSimplex [pt (1/2 + 1/5), pt (1/2 + 2/5)]

theorem t_ne_s : t ≠ s := by
  intro h
  have := ((normalizeSimplex_eq_iff _ _).1 h).mem_iff (a := pt 0)
  simp [pt, funext_iff] at this
  norm_num at this

/-- the node found -/
def node : SRes 1 := .plain ⟨pt (1/2), FVal.ofReal 0, 1, 1, 0, true, "", [], none⟩
/-- a minimization that ends above the gap threshold -/
def bad : SRes 1 := .plain ⟨pt (7/10), FVal.ofReal 5, 1, 1, 0, true, "", [], none⟩

theorem fill_next {d : ℕ} {p : CtlParams d} {c c' : Ctl d} (h : fillStep p c = .next c') : fill p c = fill p c' := by
  rw [fill]
  split
  · rename_i h'; rw [h'] at h; cases h
  · rename_i h'; rw [h'] at h; cases h
  · rename_i h'; rw [h'] at h; injection h with h; rw [h]

theorem fill_stop {d : ℕ} {p : CtlParams d} {c : Ctl d} (h : fillStep p c = .stop) : fill p c = (none, c) := by
  rw [fill]
  split
  · rfl
  · rename_i h'; rw [h'] at h; cases h
  · rename_i h'; rw [h'] at h; cases h

theorem check_true (res : Container 1) (x : Simplex 1) (h : x.length ≤ 5) : checkSimplex params res x = true := by
  by_contra hc
  have hc : checkSimplexLoop params res 0 x = false := by simpa [checkSimplex] using hc
  rw [checkSimplexLoop_eq_false_iff _ _ _ _ (Or.inl (by simp [params]))] at hc
  have h1 := hc.2
  have h2 := List.length_filter_le (fun v => (res.neighbourDistances v).any fun x => decide (x < params.distCutoff)) x
  simp only [params] at h1 h2
  omega

/-- the start -/
def c0 : Ctl 1 := startFresh params
/-- the minimization of `s` is running -/
def c1 : Ctl 1 := { c0 with
  state := { c0.state with simplexQueue := c0.state.simplexQueue.popTo s [] }
  tasks := [s], log := [.scheduled s] }
/-- it is completed -/
def c2 : Ctl 1 := taskDone params c1 s node

theorem q0 : c0.state.simplexQueue.base.queued = [s] := rfl

theorem fill0 : fill params c0 = (none, c1) := by
  have h1 : fillStep params c0 = .next c1 := by
    unfold fillStep
    rw [if_neg (by simp [c0, startFresh, startFrom, createStateFrom, RunQueue.create, RunQueue.numRunning, params])]
    rw [RunQueue.popQueued_cons q0]
    simp only
    rw [if_pos (check_true _ _ (by simp [s, normalizeSimplex]))]
    rfl
  have h2 : fillStep params c1 = .stop := by
    unfold fillStep
    rw [if_pos]
    have : s ∈ c1.state.simplexQueue.running := by
      change s ∈ (c0.state.simplexQueue.popTo s []).running; simp
    have := Finset.card_pos.2 ⟨s, this⟩
    simp only [params, RunQueue.numRunning]; omega
  rw [fill_next h1, fill_stop h2]

theorem reach1 : Reach params c1 :=
  .tail .start (.step (.tickFill c0 c1 rfl rfl (Or.inl (fun h => by have := h.2; rw [q0] at this; cases this)) fill0))

theorem reach2 : Reach params c2 :=
  .tail reach1 (.step (.done c1 s node (by simp [c1, c0, startFresh, startFrom]) (by simp [c1]) (by intro _ _ _ h; simp [node] at h)))

theorem run1 : s ∈ c1.state.simplexQueue.running := by
  change s ∈ (c0.state.simplexQueue.popTo s []).running; simp

theorem isNode : IsNode 1 node := by
  refine ⟨rfl, ?_⟩
  simp [node, SRes.value, SRes.main, FVal.gt, FVal.lt, FVal.ofReal]

theorem node_added : (c1.state.result.addResult node).2 = true := by
  have h : c1.state.result = history params.coord 1 params.distCutoff [] := rfl
  rw [h]
  exact (C12_add_result_return _ _ _ _ _).2 isNode

theorem noRefined1 (c : Container 1) (h : c.Inv params.coord 1 params.distCutoff) (hr : c.refined.flat = []) (x : Vec 1)
    (cut : ℤ) : checkPosRefinement params c x cut = true := by
  by_contra hc
  have hc : checkPosRefinement params c x cut = false := by simpa using hc
  rw [checkPos_eq_false_iff] at hc
  obtain ⟨y, hy⟩ := List.exists_mem_of_ne_nil _ hc.1
  obtain ⟨q, hq, -⟩ := distances_are_of_refined h x hy
  rw [hr] at hq; cases hq

theorem inv1 : c1.state.result.Inv params.coord 1 params.distCutoff := (good_reach distinct reach1).1.cont

theorem refined_empty : (c1.state.result.addResult node).1.refined.flat = [] := by
  rw [Container.addResult_def]
  split <;> rfl

theorem pos_node : params.coord.normalizePosition node.pos = pt (1/2) := by
  funext i
  simp [normalizePosition, params, node, SRes.pos]

theorem c2_eq : c2 = { c1 with
    state := ⟨(c1.state.result.addResult node).1, c1.state.simplexQueue.finishOf s,
      ⟨[pt (1/2)], {y | y = pt (1/2)}, true⟩⟩
    tasks := []
    log := [.scheduled s, .completed s node] } := by
  unfold c2
  rw [taskDone_of_mem _ run1]
  obtain ⟨h1, h2, ⟨-, -, -, h3⟩ | ⟨-, h3⟩⟩ := processResult_cases params c1.state node
  · simp only
    rw [h1, h3]
    have hq : c1.state.positionQueue.addObjects [params.coord.normalizePosition node.pos]
        = ⟨[pt (1/2)], {y | y = pt (1/2)}, true⟩ := by
      rw [pos_node]
      rcases objAddObjects c1.state.positionQueue (pt (1/2)) with ⟨h, -⟩ | ⟨-, h⟩
      · exact absurd (show pt (1/2) ∈ ([] : List (Vec 1)) from h) (by simp)
      · rw [h]
        have : c1.state.positionQueue = ⟨[], {x | x ∈ ([] : List (Vec 1))}, true⟩ := rfl
        rw [this]
        simp
    rw [hq]
    have ht : c1.tasks.erase s = [] := by simp [c1]
    rw [ht]
    rfl
  · have := h3 node_added rfl
    rw [noRefined1 _ (inv1.addResult _) refined_empty] at this
    cases this

/-- the refinement around the node has queued `t`, which is running -/
def c3 : Ctl 1 := { c2 with
  state := ⟨c2.state.result.setRefined (pt (1/2)), (c2.state.simplexQueue.addObjects [t]).popTo t [],
    c2.state.positionQueue.popTo []⟩
  tasks := [t]
  log := [.scheduled s, .completed s node, .refined (pt (1/2)), .scheduled t] }

theorem running2 : c2.state.simplexQueue.running = ∅ := by
  rw [c2_eq]
  apply Finset.eq_empty_of_forall_notMem
  intro x hx
  have hx : x ∈ (c1.state.simplexQueue.finishOf s).running := hx
  rw [RunQueue.mem_finishOf] at hx
  have h2 : x ∈ (c0.state.simplexQueue.popTo s []).running := hx.2
  rw [RunQueue.mem_popTo] at h2
  rcases h2 with h2 | h2
  · exact hx.1 h2
  · exact absurd h2 (by simp [c0, startFresh, startFrom, createStateFrom, RunQueue.create])

theorem stencil_eq : normalizeSimplices (translateStencil (pt (1/2)) [[pt (1/5), pt (2/5)]]) = [t] := by
  rfl

theorem queued2 : c2.state.simplexQueue.base.queued = [] := by rw [c2_eq]; rfl
theorem pos2 : c2.state.positionQueue.queued = [pt (1/2)] := by rw [c2_eq]

theorem all2 : c2.state.simplexQueue.base.all = {x | x ∈ [s]} := by rw [c2_eq]; rfl

theorem queued_t : (c2.state.simplexQueue.addObjects [t]).base.queued = [t] := by
  rw [(addObjects_queued c2.state.simplexQueue [t]).1, queued2, all2]
  simp [t_ne_s]

theorem fill2 : fill params c2 = (none, c3) := by
  set c2' : Ctl 1 := { c2 with
      state := ⟨c2.state.result.setRefined (pt (1/2)), c2.state.simplexQueue.addObjects [t], c2.state.positionQueue.popTo []⟩
      log := c2.log ++ [.refined (pt (1/2))] } with hc2'
  have run2' : c2'.state.simplexQueue.running = ∅ := by
    change (c2.state.simplexQueue.addObjects [t]).running = ∅
    rw [(addObjects_queued c2.state.simplexQueue [t]).2.2, running2]
  have h1 : fillStep params c2 = .next c2' := by
    unfold fillStep
    rw [if_neg (by simp [RunQueue.numRunning, running2, params])]
    rw [RunQueue.popQueued_nil queued2]
    simp only
    rw [ObjQueue.popQueued_cons pos2]
    simp only
    rw [if_pos]
    · simp only [params, hc2', stencil_eq]
    · right
      apply noRefined1 _ (good_reach distinct reach2).1.cont
      rw [c2_eq]; exact refined_empty
  have h2 : fillStep params c2' = .next c3 := by
    unfold fillStep
    rw [if_neg (by simp [RunQueue.numRunning, run2', params])]
    rw [RunQueue.popQueued_cons (show c2'.state.simplexQueue.base.queued = [t] from queued_t)]
    simp only
    rw [if_pos (check_true _ _ (by simp [t, normalizeSimplex]))]
    simp [c3, hc2', c2_eq]
  have h3 : fillStep params c3 = .stop := by
    unfold fillStep
    rw [if_pos]
    have : t ∈ c3.state.simplexQueue.running := by
      change t ∈ ((c2.state.simplexQueue.addObjects [t]).popTo t []).running; simp
    have := Finset.card_pos.2 ⟨t, this⟩
    simp only [params, RunQueue.numRunning]; omega
  rw [fill_next h1, fill_next h2, fill_stop h3]

theorem reach3 : Reach params c3 :=
  .tail reach2 (.step (.tickFill c2 c3 (by rw [c2_eq]; rfl) (by rw [c2_eq]; rfl)
    (Or.inr (by simp [ObjQueue.hasQueued, pos2])) fill2))

/-- the last minimization is completed -/
def c4 : Ctl 1 := taskDone params c3 t bad

theorem phase3 : c3.phase = .running := by
  change c2.phase = _; rw [c2_eq]; rfl
theorem failed3 : c3.failed = [] := by
  change c2.failed = _; rw [c2_eq]; rfl

theorem reach4 : Reach params c4 :=
  .tail reach3 (.step (.done c3 t bad (by rw [phase3]; simp) (by simp [c3]) (by intro _ _ _ h; simp [bad] at h)))

theorem run3 : t ∈ c3.state.simplexQueue.running := by
  change t ∈ ((c2.state.simplexQueue.addObjects [t]).popTo t []).running; simp

theorem bad_not_node {g : ℝ} (hg : g < 5) : ¬ IsNode g bad := by
  rintro ⟨-, h⟩
  apply h
  refine ⟨WithTop.coe_ne_top, WithTop.coe_ne_top, ?_⟩
  change FVal.ofReal g < FVal.ofReal 5
  unfold FVal.ofReal
  rw [WithTop.coe_lt_coe, EReal.coe_lt_coe_iff]
  exact hg

theorem bad_node {g : ℝ} (hg : 5 ≤ g) : IsNode g bad := by
  refine ⟨rfl, ?_⟩
  rintro ⟨-, -, h⟩
  have h : FVal.ofReal g < FVal.ofReal 5 := h
  unfold FVal.ofReal at h
  rw [WithTop.coe_lt_coe, EReal.coe_lt_coe_iff] at h
  linarith

theorem bad_not_added {c : Container 1} (hc : c.gapThreshold = 1) : (c.addResult bad).2 = false := by
  rw [Container.addResult_def, if_neg]
  rw [hc]
  exact bad_not_node (by norm_num)

theorem c4_eq : c4 = { c3 with
    state := ⟨(c3.state.result.addResult bad).1, c3.state.simplexQueue.finishOf t, c3.state.positionQueue⟩
    tasks := []
    log := c3.log ++ [.completed t bad] } := by
  unfold c4
  rw [taskDone_of_mem _ run3]
  obtain ⟨h1, h2, ⟨h4, -, -, h3⟩ | ⟨h3, -⟩⟩ := processResult_cases params c3.state bad
  · rw [bad_not_added (good_reach distinct reach3).1.cont.gap] at h4; cases h4
  · simp only
    rw [h1, h3]
    have ht : c3.tasks.erase t = [] := by simp [c3]
    rw [ht]

theorem finished4 : ¬ loopCondition c4 := by
  rw [c4_eq]
  rintro (h | h)
  · apply h
    constructor
    · apply Finset.eq_empty_of_forall_notMem
      intro x hx
      have hx : x ∈ (((c2.state.simplexQueue.addObjects [t]).popTo t []).finishOf t).running := hx
      simp only [RunQueue.mem_finishOf, RunQueue.mem_popTo] at hx
      rcases hx.2 with h2 | h2
      · exact hx.1 h2
      · rw [(addObjects_queued c2.state.simplexQueue [t]).2.2, running2] at h2; cases h2
    · rfl
  · simp [ObjQueue.hasQueued, c3] at h

/-- the search has returned -/
def c5 : Ctl 1 := { doSave params c4 [] with phase := .returned }

theorem running4 : c4.state.simplexQueue.running = ∅ := by
  have h := finished4
  unfold loopCondition at h
  push Not at h
  exact h.1.1

theorem reach5 : Reach params c5 :=
  .tail reach4 (.step (.tickReturn c4 [] (by rw [c4_eq]; exact phase3) (by rw [c4_eq]; exact failed3) finished4
    (by rw [running4]; simp)))

/-- a failure instead of the second completion -/
def c4f : Ctl 1 := taskFail c3 t (.gap 7)

theorem reach4f : Reach params c4f := .tail reach3 (.step (.fail c3 t 7 (by rw [phase3]; simp) (by simp [c3])))

/-- the search raises that error -/
def c5f : Ctl 1 := { doSave params c4f [t] with phase := .raised (.gap 7) }

theorem reach5f : Reach params c5f := by
  refine .tail reach4f (.step (.tickRaise c4f t (.gap 7) [t] phase3 (by simp [c4f, taskFail]) ?_))
  refine ⟨by simp, fun x => ?_⟩
  have h := (good_reach distinct reach4f).1.run x
  rw [← h]
  have hf : c4f.failed = [(t, .gap 7)] := by simp [c4f, taskFail, failed3]
  have ht : c4f.tasks = [] := by simp [c4f, taskFail, c3]
  rw [hf, ht]; simp

end NF.Demo
