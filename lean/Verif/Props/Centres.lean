import Verif.Lemmas.Flood
import Verif.Spec.Region
import Verif.Props.Exploration
import Verif.Props.Refinement
import Verif.Props.EndToEnd

/-! # C92, C93: refinements happen around nodes only; searches in unbounded space -/

noncomputable section
open Classical
namespace NF
open Spec CoordSys Container
variable {d : ℕ}

/-! ## C92 -/

/-- **C92**: everything around which a search refines, and everything that waits for a refinement, is the position of a node that the search has found: a search looks closer only at nodes, whatever the
schedule, crashes and restarts. -/
theorem C92_refines_around_nodes {p : CtlParams d} (hd : DistinctInput p) (hb : ProperBox p.coord) {c : Ctl d} (h : Reach p c) :
    ∀ x ∈ c.state.result.refined.values ++ c.state.positionQueue.queued, ∃ r ∈ c.state.result.nodes.values, r.pos = x :=
  (ofNodes_reach hd hb h).1

/-- non-vacuity: the demonstration has a refinement centre -/
example : DistinctInput Demo.params ∧ ProperBox Demo.params.coord ∧ Reach Demo.params Demo.c2 ∧ Demo.c2.state.positionQueue.queued = [Demo.pt (1/2)] :=
  ⟨Demo.distinct, Demo.geometry.1, Demo.reach2, Demo.pos2⟩

/-! ## C93 -/

theorem region_centres (hd1 : 1 ≤ d) {p : CtlParams d} (hd : DistinctInput p) (hg : GoodGeometry p) (hper : p.coord.periodic = false) {P : NMParams} (hft : P.ftol ≠ FVal.inf)
    (hc : P.fprimeCutoff = none) {G : Vec d → FVal → Prop} {lo hi : Vec d} (hG : HighOutside G p.gapThreshold lo hi) {c : Ctl d} (h : ReachWith p (MinimizationOf P G) c) :
    (∀ r ∈ c.state.result.nodes.values, ∀ i, lo i ≤ r.pos i ∧ r.pos i ≤ hi i) ∧ ∀ x ∈ c.state.result.refined.values, ∀ i, lo i ≤ x i ∧ x i ≤ hi i := by
  have key : ∀ r ∈ c.state.result.nodes.values, ∀ i, lo i ≤ r.pos i ∧ r.pos i ≤ hi i := by
    intro r hr
    obtain ⟨v, -, hv, x, hx, hgx⟩ := C45_nodes_below_threshold hd1 hg.1 hft hc h hr
    have e : x = r.pos := by
      unfold SamePoint at hx
      rw [if_neg (by simp [hper])] at hx
      exact hx
    rw [← e]
    exact hG x v hgx hv
  refine ⟨key, fun x hx => ?_⟩
  obtain ⟨r, hr, rfl⟩ := C92_refines_around_nodes hd hg.1 (reachWith_reach h) x (List.mem_append_left _ hx)
  exact key r hr

/-- **C93**: a search in unbounded space whose gap function is above the threshold outside a bounded region finds nodes only in this region, and the number of its refinements is bounded by a number that depends only on
this region, `feature_size` and `recheck_count_cutoff`, whatever the mesh, the schedule, crashes and restarts. -/
theorem C93_refinements_bounded (hd1 : 1 ≤ d) {p : CtlParams d} (hd : DistinctInput p) (hg : GoodGeometry p) (hper : p.coord.periodic = false) {P : NMParams} (hft : P.ftol ≠ FVal.inf)
    (hc : P.fprimeCutoff = none) {G : Vec d → FVal → Prop} {lo hi : Vec d} (hG : HighOutside G p.gapThreshold lo hi) (hr : p.recheckPosDist = true) {c : Ctl d}
    (h : ReachWith p (MinimizationOf P G) c) :
    (∀ r ∈ c.state.result.nodes.values, ∀ i, lo i ≤ r.pos i ∧ r.pos i ≤ hi i) ∧
    c.state.result.refined.values.length ≤ packingBound ⟨lo, hi, false⟩ (p.featureSize / 3) p.recheckCountCutoff.toNat := by
  obtain ⟨h1, h2⟩ := region_centres hd1 hd hg hper hft hc hG h
  exact ⟨h1, packing_within ⟨lo, hi, false⟩ hg.1 (goodGeometry_dc hg) (reach_spread hd hg hr (reachWith_reach h)) h2⟩

/-- **C93**, work: each session of such a search starts at most as many minimizations as the mesh has simplices plus the size of the stencil times the maximal number of refinements. -/
theorem C93_work_bounded (hd1 : 1 ≤ d) {p : CtlParams d} (hd : DistinctInput p) (hg : GoodGeometry p) (hper : p.coord.periodic = false) {P : NMParams} (hft : P.ftol ≠ FVal.inf)
    (hc : P.fprimeCutoff = none) {G : Vec d → FVal → Prop} {lo hi : Vec d} (hG : HighOutside G p.gapThreshold lo hi) (hr : p.recheckPosDist = true)
    (hforce : p.forceInitialMesh = false) {c : Ctl d} (h : ReachWith p (MinimizationOf P G) c) :
    (scheduledSimplices c.log).length ≤
      p.mesh.length + (p.stencil.getD []).length * packingBound ⟨lo, hi, false⟩ (p.featureSize / 3) p.recheckCountCutoff.toNat :=
  work_restarts hd hforce (reachWith_reach h) (C93_refinements_bounded hd1 hd hg hper hft hc hG hr h).2

/-- **C93**, without rechecking (`recheck_pos_dist=False`): the number of refinements (over all sessions) is still bounded. -/
theorem C93_refinements_bounded_without_recheck (hd1 : 1 ≤ d) {p : CtlParams d} (hd : DistinctInput p) (hg : GoodGeometry p) (hper : p.coord.periodic = false) {P : NMParams} (hft : P.ftol ≠ FVal.inf)
    (hc : P.fprimeCutoff = none) {G : Vec d → FVal → Prop} {lo hi : Vec d} (hG : HighOutside G p.gapThreshold lo hi)
    (hforce : p.forceInitialMesh = false) {c : Ctl d} (h : ReachWith p (MinimizationOf P G) c) :
    c.state.result.refined.values.length ≤ p.mesh.length * ∑ j ∈ Finset.range (packingBound ⟨lo, hi, false⟩ (p.featureSize / 3) 0), (p.stencil.getD []).length ^ j :=
  flood_bound hd hg hforce ⟨lo, hi, false⟩ (reachWith_reach h) (region_centres hd1 hd hg hper hft hc hG h).1

/-- **C93**, termination: with `num_minimize_parallel ≥ 1` no fair execution of such a search goes on for ever, with or without rechecking. -/
theorem C93_terminates (hd1 : 1 ≤ d) {p : CtlParams d} (hd : DistinctInput p) (hg : GoodGeometry p) (hper : p.coord.periodic = false) {P : NMParams} (hft : P.ftol ≠ FVal.inf)
    (hc : P.fprimeCutoff = none) {G : Vec d → FVal → Prop} {lo hi : Vec d} (hG : HighOutside G p.gapThreshold lo hi)
    (hN : 1 ≤ p.numMinimizeParallel) (f : ℕ → Ctl d) (h : ∀ n, ReachWith p (MinimizationOf P G) (f n)) : ¬ FairRun p f :=
  terminates_within hd hg hN ⟨lo, hi, false⟩ f (reachWith_reach (h 0)) fun n _ => (region_centres hd1 hd hg hper hft hc hG (h n)).1

/-! ## Without such a bound a search in unbounded space may go on for ever: the function that is 0 everywhere -/
namespace C93Demo
open Demo

/-- the gap function that is 0 everywhere -/
abbrev Z : Vec 1 → FVal → Prop := fun _ v => v = FVal.ofReal 0

theorem reachWith_log {p : CtlParams d} {R : Simplex d → SRes d → Prop} {c : Ctl d} (h : ReachWith p R c) : ∀ s r, LogEntry.completed s r ∈ c.log → R s r := by
  cases h with
  | start => intro s r h; cases h
  | tail _ _ hr => exact hr

/-- a search between two refinements: the simplex `[a, b]` is being minimized, nothing else is left, and everything that has been seen lies further left -/
structure Going (a b : ℝ) (c : Ctl 1) : Prop where
  reach : ReachWith params (MinimizationOf NMDemo.wideParams Z) c
  phase : c.phase = .running
  failed : c.failed = []
  tasks : c.tasks = [normalizeSimplex [pt a, pt b]]
  queue : c.state.simplexQueue.base.queued = []
  running : c.state.simplexQueue.running = {normalizeSimplex [pt a, pt b]}
  pos : c.state.positionQueue.queued = []
  lt : a < b
  le : b ≤ a + 1/4
  refined : ∀ q ∈ c.state.result.refined.flat, q 0 ≤ a - 1/5
  known : ∀ q ∈ c.state.positionQueue.all, q 0 ≤ a - 1/5
  all : ∀ s ∈ c.state.simplexQueue.base.all, ∀ v ∈ s, v 0 ≤ b

theorem mem_norm {a b : ℝ} {v : Vec 1} : v ∈ normalizeSimplex [pt a, pt b] ↔ v = pt a ∨ v = pt b := by
  rw [show v ∈ normalizeSimplex [pt a, pt b] ↔ v ∈ [pt a, pt b] from (List.mergeSort_perm _ _).mem_iff]
  simp

theorem far_ok {c : Container 1} (h : c.Inv params.coord 1 params.distCutoff) {x : ℝ} (hx : ∀ q ∈ c.refined.flat, q 0 ≤ x - 1/5) :
    checkPosRefinement params c (pt x) 0 = true := by
  by_contra hc
  have hc : checkPosRefinement params c (pt x) 0 = false := by simpa using hc
  rw [checkPos_eq_false_iff] at hc
  have h1 : 0 < ((c.refinedNeighbourDistances (pt x)).filter fun y => decide (y < params.distCutoff)).length := by exact_mod_cast hc.2
  obtain ⟨y, hy⟩ := List.exists_mem_of_length_pos h1
  rw [List.mem_filter] at hy
  obtain ⟨q, hq, rfl⟩ := distances_are_of_refined h _ hy.1
  have h2 := hx q hq
  have h3 : params.coord.distance (pt x) q < params.distCutoff := of_decide_eq_true hy.2
  have h4 : params.coord.distance (pt x) q = |q 0 - x| := by
    simp [distance, distDelta, params, CoordSys.norm, pt, Real.sqrt_sq_eq_abs]
  rw [h4, abs_of_nonpos (by linarith)] at h3
  norm_num [params, CtlParams.distCutoff] at h3
  linarith

/-- the simplex as a function -/
def simOf (a b : ℝ) : Sim 1 := fun i => (normalizeSimplex [pt a, pt b]).get (Fin.cast (by simp [normalizeSimplex]) i)

theorem simOf_eq (a b : ℝ) : normalizeSimplex [pt a, pt b] = List.ofFn (simOf a b) := by
  refine List.ext_getElem (by simp [normalizeSimplex]) fun i h1 h2 => ?_
  rw [List.getElem_ofFn]
  rfl

/-- a minimization ends at once at a vertex -/
theorem minimize {a b : ℝ} (h1 : a < b) (h2 : b ≤ a + 1/4) : ∃ (r : MinRes 1) (y : ℝ), MinimizationOf NMDemo.wideParams Z (normalizeSimplex [pt a, pt b]) (.plain r) ∧
    r.pos = pt y ∧ (y = a ∨ y = b) ∧ r.success = true ∧ r.value = FVal.ofReal 0 := by
  have hmem : ∀ i, simOf a b i = pt a ∨ simOf a b i = pt b := fun i => mem_norm.1 (List.get_mem _ _)
  have hs : ∀ i j k, |simOf a b i k - simOf a b j k| ≤ 1 := by
    intro i j k
    rcases hmem i with h | h <;> rcases hmem j with h' | h' <;> rw [h, h'] <;> simp only [pt] <;> rw [abs_le] <;> constructor <;> linarith
  have hok : IsMinimization NMDemo.wideParams C45Demo.zero (simOf a b) (rootNelderMead NMDemo.wideParams (fun v => Tuple.sort v) C45Demo.zero (simOf a b)) _ :=
    ⟨_, fun v => Tuple.monotone_sort v, rfl, rfl⟩
  obtain ⟨e1, e2⟩ := C45Demo.const_run hs hok
  have hpos : ∃ i, (rootNelderMead NMDemo.wideParams (fun v => Tuple.sort v) C45Demo.zero (simOf a b)).pos = simOf a b i := by
    refine ⟨Tuple.sort (fun _ : Fin 2 => FVal.ofReal 0) 0, ?_⟩
    unfold rootNelderMead
    rw [C45Demo.const_loop hs]
    rfl
  obtain ⟨i, hi⟩ := hpos
  refine ⟨_, if simOf a b i = pt a then a else b, ⟨C45Demo.zero, none, simOf a b, fun _ _ => rfl, simOf_eq a b, _, fun v => Tuple.monotone_sort v, rfl⟩, ?_, ?_, e1, e2⟩
  · rw [hi]
    split
    · assumption
    · exact (hmem i).resolve_left ‹_›
  · split <;> simp

theorem next {a b : ℝ} {c : Ctl 1} (h : Going a b c) : ∃ c1 c2 a' b', Step params c c1 ∧ Step params c1 c2 ∧ c1.tasks = [] ∧ Turn params c1 c2 ∧
    ReachWith params (MinimizationOf NMDemo.wideParams Z) c1 ∧ Going a' b' c2 ∧ c2.state.result.refined.values.length = c.state.result.refined.values.length + 1 := by
  obtain ⟨r, y, hmin, hpos, hy, hsucc, hval⟩ := minimize h.lt h.le
  have hya : a ≤ y := by rcases hy with rfl | rfl <;> linarith [h.lt]
  have hyb : y ≤ b := by rcases hy with rfl | rfl <;> linarith [h.lt]
  set s := normalizeSimplex [pt a, pt b] with hs
  have hrun : s ∈ c.state.simplexQueue.running := by rw [h.running]; simp [hs]
  have hR := reachWith_reach h.reach
  have hcont : c.state.result.Inv params.coord 1 params.distCutoff := (good_reach distinct hR).1.cont
  have hnorm : params.coord.normalizePosition (SRes.plain r).pos = pt y := by
    funext i
    simp [normalizePosition, params, SRes.pos, hpos]
  have hnode : IsNode 1 (SRes.plain r) := by
    refine ⟨hsucc, ?_⟩
    change ¬ FVal.gt r.value _
    rw [hval]
    intro h
    have := NMDemo.flt.1 h
    norm_num at this
  have hadd : (c.state.result.addResult (.plain r)).2 = true := by
    rw [Container.addResult_def, if_pos (by rw [hcont.gap]; exact hnode)]
  have hcont' := hcont.addResult (.plain r)
  have href : (c.state.result.addResult (.plain r)).1.refined = c.state.result.refined := (addResult_refined _ _).1
  have hfar : ∀ q ∈ (c.state.result.addResult (.plain r)).1.refined.flat, q 0 ≤ y - 1/5 := by
    intro q hq
    rw [href] at hq
    linarith [h.refined q hq]
  have e1 : taskDone params c s (.plain r) = { c with
      state := ⟨(c.state.result.addResult (.plain r)).1, c.state.simplexQueue.finishOf s, ⟨[pt y], c.state.positionQueue.all ∪ {x | x ∈ [pt y]}, true⟩⟩
      tasks := []
      log := c.log ++ [.completed s (.plain r)] } := by
    rw [taskDone_of_mem _ hrun]
    obtain ⟨h1, h2, ⟨-, -, -, h3⟩ | ⟨-, h3⟩⟩ := processResult_cases params c.state (.plain r)
    · simp only
      rw [h1, h3, hnorm]
      have ht : c.tasks.erase s = [] := by simp [h.tasks, ← hs]
      rw [ht]
      rcases objAddObjects c.state.positionQueue (pt y) with ⟨h4, -⟩ | ⟨-, h4⟩
      · have := h.known _ h4
        simp only [pt] at this
        linarith
      · rw [h4, h.pos]
        rfl
    · have := h3 hadd rfl
      rw [hnorm, far_ok hcont' hfar] at this
      cases this
  set c1 := taskDone params c s (.plain r) with hc1
  have hstep1 : Step params c c1 := .done c s _ (by rw [h.phase]; simp) (by rw [h.tasks]; simp [hs]) (by intro _ _ _ h; cases h)
  have hreach1 : ReachWith params (MinimizationOf NMDemo.wideParams Z) c1 := by
    refine .tail h.reach (.step hstep1) fun s' r' hsr => ?_
    rw [e1] at hsr
    rcases List.mem_append.1 hsr with h' | h'
    · exact reachWith_log h.reach s' r' h'
    · simp only [List.mem_singleton, LogEntry.completed.injEq] at h'
      rw [h'.1, h'.2]; exact hmin
  set t := normalizeSimplex [pt (y + 1/5), pt (y + 2/5)] with ht
  have hst : normalizeSimplices (translateStencil (pt y) [[pt (1/5), pt (2/5)]]) = [t] := rfl
  have hq1 : c1.state.simplexQueue.base.queued = [] := by rw [e1]; exact h.queue
  have hp1 : c1.state.positionQueue.queued = [pt y] := by rw [e1]
  have hr1 : c1.state.simplexQueue.running = ∅ := by
    rw [e1]
    apply Finset.eq_empty_of_forall_notMem
    intro x hx
    have hx : x ∈ (c.state.simplexQueue.finishOf s).running := hx
    rw [RunQueue.mem_finishOf, h.running] at hx
    exact hx.1 (Finset.mem_singleton.1 hx.2)
  have hall1 : c1.state.simplexQueue.base.all = c.state.simplexQueue.base.all := by rw [e1]; rfl
  have htn : t ∉ c.state.simplexQueue.base.all := by
    intro hm
    have := h.all t hm (pt (y + 2/5)) (mem_norm.2 (.inr rfl))
    simp only [pt] at this
    linarith [h.le]
  have hqt : (c1.state.simplexQueue.addObjects [t]).base.queued = [t] := by
    rw [(addObjects_queued _ _).1, hq1, hall1]
    simp [htn]
  have hrt : (c1.state.simplexQueue.addObjects [t]).running = ∅ := by rw [(addObjects_queued _ _).2.2, hr1]
  have hat : (c1.state.simplexQueue.addObjects [t]).base.all = c.state.simplexQueue.base.all ∪ {x | x ∈ [t]} := by rw [(addObjects_queued _ _).2.1, hall1]
  set m : Ctl 1 := { c1 with
      state := ⟨c1.state.result.setRefined (pt y), c1.state.simplexQueue.addObjects [t], c1.state.positionQueue.popTo []⟩
      log := c1.log ++ [.refined (pt y)] } with hm
  set c2 : Ctl 1 := { c1 with
      state := ⟨c1.state.result.setRefined (pt y), (c1.state.simplexQueue.addObjects [t]).popTo t [], c1.state.positionQueue.popTo []⟩
      tasks := [t]
      log := c1.log ++ [.refined (pt y)] ++ [.scheduled t] } with hc2
  have ht1 : c1.tasks = [] := by rw [e1]
  have f1 : fillStep params c1 = .next m := by
    unfold fillStep
    rw [if_neg (by simp [RunQueue.numRunning, hr1, params])]
    rw [RunQueue.popQueued_nil hq1]
    simp only
    rw [ObjQueue.popQueued_cons hp1]
    simp only
    rw [if_pos]
    · simp only [params, hm, hst]
    · right
      rw [e1]
      exact far_ok hcont' hfar
  have f2 : fillStep params m = .next c2 := by
    unfold fillStep
    rw [if_neg (by simp [RunQueue.numRunning, hm, hrt, params])]
    rw [RunQueue.popQueued_cons (show m.state.simplexQueue.base.queued = [t] from hqt)]
    simp only
    rw [if_pos (check_true _ _ (by simp [ht, normalizeSimplex]))]
    simp [hc2, hm, ht1]
  have f3 : fillStep params c2 = .stop := by
    unfold fillStep
    rw [if_pos]
    have : t ∈ c2.state.simplexQueue.running := by
      change t ∈ ((c1.state.simplexQueue.addObjects [t]).popTo t []).running; simp
    have := Finset.card_pos.2 ⟨t, this⟩
    simp only [params, RunQueue.numRunning]; omega
  have hfill : fill params c1 = (none, c2) := by rw [fill_next f1, fill_next f2, fill_stop f3]
  have hcond : loopCondition c1 := Or.inr (by simp [ObjQueue.hasQueued, hp1])
  have hf1 : c1.failed = [] := by rw [e1]; exact h.failed
  have hph1 : c1.phase = .running := by rw [e1]; exact h.phase
  have hstep2 : Step params c1 c2 := .tickFill c1 c2 hph1 hf1 hcond hfill
  have href2 : c2.state.result.refined.flat = c.state.result.refined.flat ++ [pt y] := by
    change (c1.state.result.setRefined (pt y)).refined.flat = _
    rw [e1]
    simp [Container.setRefined, CellList.addPoint, href]
  refine ⟨c1, c2, y + 1/5, y + 2/5, hstep1, hstep2, ht1, .inr ⟨hf1, hcond, hfill⟩, hreach1, ⟨?_, hph1, hf1, rfl, rfl, ?_, rfl, by linarith, by linarith, ?_, ?_, ?_⟩, ?_⟩
  · refine .tail hreach1 (.step hstep2) fun s' r' hsr => reachWith_log hreach1 s' r' ?_
    have : c2.log = c1.log ++ [.refined (pt y)] ++ [.scheduled t] := rfl
    rw [this] at hsr
    simpa using hsr
  · ext x
    have : x ∈ c2.state.simplexQueue.running ↔ x = t ∨ x ∈ (c1.state.simplexQueue.addObjects [t]).running := RunQueue.mem_popTo
    rw [this, hrt, Finset.mem_singleton]
    simp [ht]
  · intro q hq
    rw [href2] at hq
    rcases List.mem_append.1 hq with hq | hq
    · linarith [h.refined q hq]
    · rw [List.mem_singleton.1 hq]; simp [pt]
  · intro q hq
    have hq : q ∈ c1.state.positionQueue.all := hq
    rw [e1] at hq
    rcases hq with hq | hq
    · linarith [h.known q hq]
    · rw [List.mem_singleton.1 hq]; simp [pt]
  · intro s' hs' v hv
    have hs' : s' ∈ (c1.state.simplexQueue.addObjects [t]).base.all := hs'
    rw [hat] at hs'
    rcases hs' with h' | h'
    · linarith [h.all s' h' v hv, h.le]
    · rw [List.mem_singleton.1 h'] at hv
      rcases mem_norm.1 hv with rfl | rfl <;> simp only [pt] <;> linarith
  · change c2.state.result.refined.flat.length = c.state.result.refined.flat.length + 1
    rw [href2]; simp

theorem first : Going 0 (1/4) c1 := by
  refine ⟨?_, rfl, rfl, rfl, rfl, ?_, rfl, by norm_num, by norm_num, ?_, ?_, ?_⟩
  · exact .tail .start (.step (.tickFill c0 c1 rfl rfl (Or.inl (fun h => by have := h.2; rw [q0] at this; cases this)) fill0)) (by intro s r h; simp [c1] at h)
  · rfl
  · intro q hq; cases hq
  · intro q hq; cases hq
  · intro s' hs' v hv
    have hs' : s' ∈ [s] := hs'
    rw [List.mem_singleton.1 hs'] at hv
    rcases mem_norm.1 hv with rfl | rfl <;> norm_num [pt]

/-- **C93**, the condition is needed: for the gap function that is 0 everywhere, a search in unbounded space (whose settings satisfy all other conditions of `C93_terminates`) has a fair execution that goes on for ever,
in which the number of refinements grows without bound. -/
theorem _root_.NF.C93_runaway : ∃ (p : CtlParams 1) (P : NMParams) (f : ℕ → Ctl 1), DistinctInput p ∧ GoodGeometry p ∧ p.coord.periodic = false ∧ P.ftol ≠ FVal.inf ∧ P.fprimeCutoff = none ∧
    p.recheckPosDist = true ∧ 1 ≤ p.numMinimizeParallel ∧ (∀ n, ReachWith p (MinimizationOf P fun _ v => v = FVal.ofReal 0) (f n)) ∧ FairRun p f ∧
    ∀ k, ∃ n, k ≤ (f n).state.result.refined.values.length := by
  have hnext : ∀ c : {c : Ctl 1 // ∃ a b, Going a b c}, ∃ (m : Ctl 1) (c' : {c : Ctl 1 // ∃ a b, Going a b c}), Step params c.1 m ∧ Step params m c'.1 ∧ m.tasks = [] ∧ Turn params m c'.1 ∧
      ReachWith params (MinimizationOf NMDemo.wideParams Z) m ∧ c'.1.state.result.refined.values.length = c.1.state.result.refined.values.length + 1 := by
    rintro ⟨c, a, b, h⟩
    obtain ⟨m, c', a', b', h1, h2, h3, h4, h5, h6, h7⟩ := next h
    exact ⟨m, ⟨c', a', b', h6⟩, h1, h2, h3, h4, h5, h7⟩
  choose mid nx h1 h2 h3 h4 h5 h6 using hnext
  let g : ℕ → {c : Ctl 1 // ∃ a b, Going a b c} := fun n => nx^[n] ⟨c1, 0, 1/4, first⟩
  have hg : ∀ n, g (n + 1) = nx (g n) := fun n => Function.iterate_succ_apply' _ _ _
  have hlen : ∀ n, n ≤ (g n).1.state.result.refined.values.length := by
    intro n
    induction n with
    | zero => exact Nat.zero_le _
    | succ n ih => rw [hg, h6]; omega
  let f : ℕ → Ctl 1 := fun n => if n % 2 = 0 then (g (n / 2)).1 else mid (g (n / 2))
  have fe : ∀ n, f (2 * n) = (g n).1 := fun n => by simp [f]
  have fo : ∀ n, f (2 * n + 1) = mid (g n) := fun n => by
    have e1 : (2 * n + 1) % 2 = 1 := by omega
    have e2 : (2 * n + 1) / 2 = n := by omega
    simp [f, e1, e2]
  have hcases : ∀ n : ℕ, ∃ k, n = 2 * k ∨ n = 2 * k + 1 := fun n => ⟨n / 2, by omega⟩
  refine ⟨params, NMDemo.wideParams, f, distinct, geometry, rfl, fun h => EReal.coe_ne_top _ (WithTop.coe_injective h), rfl, rfl, le_rfl, ?_, ⟨?_, ?_, ?_⟩, fun k => ⟨2 * k, by rw [fe]; exact hlen k⟩⟩
  · intro n
    obtain ⟨k, rfl | rfl⟩ := hcases n
    · rw [fe]
      obtain ⟨a, b, h⟩ := (g k).2
      exact h.reach
    · rw [fo]; exact h5 _
  · intro n
    obtain ⟨k, rfl | rfl⟩ := hcases n
    · rw [fe, fo]; exact h1 _
    · rw [fo, show 2 * k + 1 + 1 = 2 * (k + 1) by ring, fe, hg]; exact h2 _
  · intro n
    refine ⟨2 * n + 1, by omega, ?_⟩
    rw [fo, show 2 * n + 1 + 1 = 2 * (n + 1) by ring, fe, hg]
    exact h4 _
  · intro n s hs
    exact ⟨2 * n + 1, by omega, by rw [fo, h3]; simp⟩

/-- non-vacuity of C93: a gap function that is high outside a region -/
example : DistinctInput params ∧ GoodGeometry params ∧ params.coord.periodic = false ∧ params.recheckPosDist = true ∧ params.forceInitialMesh = false ∧ 1 ≤ params.numMinimizeParallel ∧
    HighOutside (fun (x : Vec 1) v => v = FVal.ofReal (x 0 ^ 2)) params.gapThreshold (pt (-1)) (pt 1) ∧ packingBound ⟨pt (-1), pt 1, false⟩ (params.featureSize / 3) params.recheckCountCutoff.toNat = 41 := by
  refine ⟨distinct, geometry, rfl, rfl, rfl, le_rfl, ?_, ?_⟩
  · intro x v hv hle i
    have e : v = x 0 ^ 2 := by
      unfold FVal.ofReal at hv
      exact_mod_cast hv
    rw [e] at hle
    obtain rfl : i = 0 := Subsingleton.elim _ _
    simp only [params] at hle
    simp only [pt]
    constructor <;> nlinarith
  · simp only [packingBound, params, pt]
    norm_num

end C93Demo
end NF
