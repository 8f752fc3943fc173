import Verif.Lemmas.FloatFrom
import Verif.Lemmas.FloatExact
import Verif.Props.FloatSearch

/-! # C103: a search does its job also in floating-point arithmetic -/

noncomputable section
open Classical

namespace NF
open Spec CoordSys FL

variable {d : ℕ} {A : CtlArith d} {p : CtlParams d} {Res : Simplex d → SRes d → Prop}

/-! ## No exceptions of its own -/

/-- **C103** (exceptions): with all arithmetic rounded, a search (with any number of restarts) raises nothing but an exception of the gap function or of `save`: no IndexError of a cell list, no KeyError of a queue and no TypeError. -/
theorem C103_exceptions (hS : FloatSearch A p Res) {n : ℕ} {c : Ctl d} (h : FL.Reach A p Res n c) {e : Err} (he : c.phase = .raised e) :
    (∃ s id, e = .gap id ∧ (s, Err.gap id) ∈ c.failed) ∨ (e = .io ∧ p.saveFile = true) := by
  have h1 := endInv_reach hS h
  unfold FL.EndInv at h1
  rw [he] at h1
  rcases h1 with ⟨s, hs⟩ | ⟨h2, -⟩ | h2
  · obtain ⟨id, hid⟩ := (FL.good_reach hS h).1.gapErr _ hs
    simp only at hid
    subst hid
    exact .inl ⟨s, id, rfl, hs⟩
  · subst h2; exact absurd he (no_type_error hS h)
  · exact .inr h2

/-- **C103** (tasks): a minimization task fails only with an exception of the gap function, never in `process_result` or in `set_finished`. -/
theorem C103_task_errors (hS : FloatSearch A p Res) {n : ℕ} {c : Ctl d} (h : FL.Reach A p Res n c) {s : Simplex d} {e : Err} (hf : (s, e) ∈ c.failed) : ∃ id, e = .gap id :=
  (FL.good_reach hS h).1.gapErr _ hf

/-- **C103** (starting): the first start works, and so does every restart from the save file, at any point. -/
theorem C103_restart (hS : FloatSearch A p Res) : (∃ c0, FL.startFrom A p none none = .ok c0 ∧ c0.phase = .running) ∧
    ∀ n c, FL.Reach A p Res n c → ∃ c', FL.startFrom A p c.disk c.disk = .ok c' ∧ c'.phase = .running := by
  refine ⟨?_, fun n c h => ?_⟩
  · obtain ⟨c, h1, -, -, h2, -⟩ := start_ok hS none none (by simp)
    exact ⟨c, h1, h2⟩
  · obtain ⟨c', h1, -, -, h2, -⟩ := start_ok hS c.disk c.disk (FL.good_reach hS h).2
    exact ⟨c', h1, h2⟩

/-! ## The results -/

/-- **C103** (no result is lost or invented): the results of a search are those with which the session began and one for every completed minimization, at its normalized position. -/
theorem C103_results (hS : FloatSearch A p Res) {n : ℕ} {c : Ctl d} (h : FL.Reach A p Res n c) :
    c.state.result.minimizationResults.Perm (c.base ++ (completedResults c.log).map fun r => r.setPos (FL.normalizePosition A.rnd p.coord r.pos)) :=
  (FL.good_reach hS h).1.results

/-- **C103** (each simplex once): no simplex is minimized twice in a session. -/
theorem C103_each_once (hS : FloatSearch A p Res) {n : ℕ} {c : Ctl d} (h : FL.Reach A p Res n c) : (scheduledSimplices c.log).Nodup := by
  have ha := (FL.good_reach hS h).1
  rw [ha.sched.nodup_iff]
  have h1 : ∀ l : List (LogEntry d), (completedSimplices l).Sublist (handled l) := by
    intro l
    induction l with
    | nil => simp [completedSimplices, handled]
    | cons x l ih => cases x <;> simp [completedSimplices, handled, ih]
  refine List.Nodup.sublist ?_ ha.nodup
  refine List.Sublist.append (h1 _) ?_
  unfold outstanding
  exact List.sublist_append_left _ _

/-- **C103** (returning): a search that has returned has nothing left to do, and every minimization that was started is completed. -/
theorem C103_returned (hS : FloatSearch A p Res) {n : ℕ} {c : Ctl d} (h : FL.Reach A p Res n c) (hret : c.phase = .returned) :
    c.state.simplexQueue.base.queued = [] ∧ c.tasks = [] ∧ c.failed = [] ∧ c.state.positionQueue.queued = [] ∧ (scheduledSimplices c.log).Perm (completedSimplices c.log) ∧
    (p.saveFile = true → c.state.needsSaving = false) := by
  have he := endInv_reach hS h
  unfold FL.EndInv at he
  rw [hret] at he
  obtain ⟨h1, h2, h3⟩ := he
  unfold loopCondition at h1
  push Not at h1
  obtain ⟨⟨hrun, hq⟩, hpos⟩ := h1
  have hpos : c.state.positionQueue.queued = [] := by simpa [ObjQueue.hasQueued] using hpos
  have ha := (FL.good_reach hS h).1
  have ht : c.tasks = [] := by
    rw [List.eq_nil_iff_forall_not_mem]
    intro s hs
    have := (ha.run s).1 (List.mem_append_left _ hs)
    rw [hrun] at this; cases this
  refine ⟨hq, ht, h2, hpos, ?_, h3⟩
  simpa [ht, h2] using ha.sched

/-- **C103** (where results come from): every result has the value and the success of a minimization, and its position is the normalized one of that minimization, up to `driftError` for each of the `n` restarts;
the nodes are those results that succeeded with a value not above the threshold. -/
theorem C103_results_genuine (hS : FloatSearch A p Res) (hn : NearBox p Res) {n : ℕ} {c : Ctl d} (h : FL.Reach A p Res n c) {r : SRes d} (hr : r ∈ c.state.result.minimizationResults) :
    (∃ s r0, Res s r0 ∧ r.value = r0.value ∧ r.success = r0.success ∧ p.coord.distance (FL.normalizePosition A.rnd p.coord r0.pos) r.pos ≤ n * driftError p.coord) ∧
    (r ∈ c.state.result.nodes.values → IsNode p.gapThreshold r) ∧ (IsNode p.gapThreshold r → r ∈ c.state.result.nodes.values) := by
  have hs := reach_src hS hn h
  refine ⟨?_, fun h1 => (hs.nodes r h1).2, fun h1 => ?_⟩
  · rcases List.mem_append.1 hr with h1 | h1
    · exact (hs.nodes r h1).1.1
    · exact (hs.rejected r h1).1.1
  · rcases List.mem_append.1 hr with h2 | h2
    · exact h2
    · exact absurd h1 (hs.rejected r h2).2

/-- **C103** (with rounding in the search and in the minimizations; C43 and C45): every node has a finite value at most the threshold, which the gap function returned at a point whose normalized position is that of the node,
up to the drift of the restarts.  `Res` may be any part of what the minimizations can give (for a non-periodic box, those that end near it). -/
theorem C103_nodes_below_threshold (hd : 1 ≤ d) {P : NMParams} {G : Vec d → FVal → Prop} (hft : P.ftol ≠ FVal.inf) (hc : P.fprimeCutoff = none ∨ ∀ x, ¬ G x FVal.nan)
    (hR : ∀ s r, Res s r → FloatMinimizationOf A.rnd P G s r) (hS : FloatSearch A p Res) (hn : NearBox p Res) {n : ℕ} {c : Ctl d} (h : FL.Reach A p Res n c)
    {r : SRes d} (hr : r ∈ c.state.result.nodes.values) :
    ∃ v : ℝ, r.value = FVal.ofReal v ∧ v ≤ p.gapThreshold ∧ ∃ x, G x (FVal.ofReal v) ∧ p.coord.distance (FL.normalizePosition A.rnd p.coord x) r.pos ≤ n * driftError p.coord := by
  obtain ⟨⟨s, r0, h1, h2, h3, h4⟩, h5, -⟩ := C103_results_genuine hS hn h (List.mem_append_left _ hr)
  have hnode := h5 hr
  obtain ⟨B, f, fake, sim0, hB, -, hG, -, htw⟩ := hR s r0 h1
  obtain ⟨v, hv⟩ : Finite r0.value := C102_two_step_finite (hB ▸ hS.nearest) hd htw (h3 ▸ hnode.1) hft (hc.imp id fun hn n x e => hn x (e ▸ hG n x))
  have hv' : r.value = FVal.ofReal v := h2.trans hv
  refine ⟨v, hv', ?_, r0.pos, ?_, h4⟩
  · by_contra hlt
    have := hnode.2
    rw [hv'] at this
    exact this (NMDemo.flt.2 (not_le.1 hlt))
  · obtain ⟨k, -, hk⟩ := C102_true_function hd htw (by rw [hv]; exact NMDemo.ofReal_ne_nan v)
    rw [← hv, hk]; exact hG _ _

/-! ## The refinements -/

/-- **C103** (C26 with rounding): with rechecking, each refinement centre has at most `recheck_count_cutoff` earlier centres nearer than `dist_cutoff`, less the error of a distance. -/
theorem C103_refinements_apart (hS : FloatSearch A p Res) (hg : FloatGeometry p Res) (hr : p.recheckPosDist = true) {n : ℕ} {c : Ctl d} (h : FL.Reach A p Res n c) {L1 L2 : List (Vec d)} {x : Vec d}
    (hx : c.state.result.refined.values = L1 ++ x :: L2) :
    (L1.filter fun q => decide (p.coord.distance x q < p.featureSize / 3 * (1 - 1 / 2 ^ 39) - distanceError p.coord)).length ≤ p.recheckCountCutoff.toNat :=
  (FL.reach_spread hS hg hr h).1 L1 x L2 hx

/-- **C103** (C27 with rounding): when a search with a stencil returns, every node is nearer than `dist_cutoff`, plus the error of a distance and the drift of the restarts, to a refinement centre. -/
theorem C103_nodes_covered (hS : FloatSearch A p Res) (hg : FloatGeometry p Res) (hst : p.stencil ≠ none) (hrc : p.recheckPosDist = false ∨ 0 ≤ p.recheckCountCutoff) {n : ℕ} {c : Ctl d}
    (h : FL.Reach A p Res n c) (hret : c.phase = .returned) {r : SRes d} (hr : r ∈ c.state.result.nodes.values) :
    ∃ q ∈ c.state.result.refined.values, p.coord.distance r.pos q < p.featureSize / 3 * (1 + 1 / 2 ^ 52) + distanceError p.coord + n * driftError p.coord := by
  have hcov := (FL.reach_cov hS hg (Option.isSome_iff_ne_none.2 hst) hrc h).nodes r hr
  have hq := (C103_returned hS h hret).2.2.2.1
  rcases hcov with h1 | ⟨q, hq', -⟩
  · exact h1
  · rw [hq] at hq'; cases hq'

/-- **C103** (C28 with rounding): the number of refinement centres, over all sessions, is bounded by a number that depends only on the box, `dist_cutoff` and `recheck_count_cutoff`. -/
theorem C103_refinements_bounded (hS : FloatSearch A p Res) (hg : FloatGeometry p Res) (hr : p.recheckPosDist = true) {n : ℕ} {c : Ctl d} (h : FL.Reach A p Res n c) :
    c.state.result.refined.values.length ≤
      packingBound (reachBox p.coord) (p.featureSize / 3 * (1 - 1 / 2 ^ 39) - distanceError p.coord) p.recheckCountCutoff.toNat := by
  refine packing_within (reachBox p.coord) hS.box (sep_pos hg) (FL.reach_spread hS hg hr h).1 ?_
  intro x hx i
  have := ((FL.good_reach hS h).1.positions x (List.mem_append_left _ hx)).inReach hS hg.near i
  have := abs_le.1 this.1
  constructor <;> simp only [reachBox] <;> linarith [this.1, this.2]

/-- **C103** (C28): the number of minimizations that a session starts is bounded. -/
theorem C103_work_bounded (hS : FloatSearch A p Res) (hg : FloatGeometry p Res) (hr : p.recheckPosDist = true) (hforce : p.forceInitialMesh = false) {n : ℕ} {c : Ctl d} (h : FL.Reach A p Res n c) :
    (scheduledSimplices c.log).length ≤ p.mesh.length + (p.stencil.getD []).length *
      packingBound (reachBox p.coord) (p.featureSize / 3 * (1 - 1 / 2 ^ 39) - distanceError p.coord) p.recheckCountCutoff.toNat :=
  scheduled_bound hS hforce h (C103_refinements_bounded hS hg hr h)

/-- **C103** (C28): a search that has not ended can take a turn of its main loop ... -/
theorem C103_progress {c : Ctl d} (h : c.phase = .running) :
    ∃ c', FL.Step A p Res c c' ∧ (c'.phase ≠ .running ∨ (c.failed = [] ∧ loopCondition c ∧ FL.fill A p c = (none, c'))) := by
  have henum : ∀ c : Ctl d, c.state.simplexQueue.running.toList.Nodup ∧ ∀ x, x ∈ c.state.simplexQueue.running.toList ↔ x ∈ c.state.simplexQueue.running :=
    fun c => ⟨Finset.nodup_toList _, fun x => Finset.mem_toList⟩
  cases hf : c.failed with
  | cons x xs => exact ⟨_, .tickRaise c x.1 x.2 _ h (by rw [hf]; simp) (henum c), Or.inl (by simp)⟩
  | nil =>
    by_cases hc : loopCondition c
    · obtain ⟨e, c', hfl⟩ : ∃ e c', FL.fill A p c = (e, c') := ⟨_, _, rfl⟩
      cases e with
      | none => exact ⟨c', .tickFill c c' h hf hc hfl, Or.inr ⟨rfl, hc, hfl⟩⟩
      | some e => exact ⟨_, .tickFillRaise c c' e _ h hf hc hfl (henum c'), Or.inl (by simp)⟩
    · exact ⟨_, .tickReturn c _ h hf hc (henum c), Or.inl (by simp)⟩

/-- **C103** (C28): ... and, with rechecking and `num_minimize_parallel ≥ 1`, no fair execution goes on for ever. -/
theorem C103_terminates (hS : FloatSearch A p Res) (hg : FloatGeometry p Res) (hr : p.recheckPosDist = true) (hN : 1 ≤ p.numMinimizeParallel) {n : ℕ} (f : ℕ → Ctl d)
    (h0 : FL.Reach A p Res n (f 0)) : ¬ FloatFairRun A p Res f :=
  FL.terminates hS hN f h0 fun _ h => C103_refinements_bounded hS hg hr h

/-! ## Without rounding -/

/-- **C103** (without rounding): if nothing is rounded, the search of this model is the one of the rest of the model. -/
theorem C103_exact_arithmetic (hb : ProperBox p.coord) (hrnd : A.rnd = id) (hdist : ∀ x y, FL.Distance A.rnd p.coord x y (A.dist p.coord x y)) (hd : DistinctInput p) (c : Ctl d) :
    (∃ n, FL.Reach A p (fun _ _ => True) n c) ↔ Reach p c := by
  refine Exact.reach ⟨hrnd, hb, fun x y => ?_⟩ hd
  have := hdist x y
  rw [hrnd] at this
  exact (C97_exact_arithmetic hb 0 [] x y _).1.1 this

/-! ## The stencil -/

theorem distinct_map {st : List (Simplex d)} (φ : Vec d → Vec d) (hd : DistinctSimplices st) (hinj : ∀ s ∈ st, ∀ s' ∈ st, ∀ v ∈ s, ∀ w ∈ s', φ v = φ w → v = w) :
    DistinctSimplices (st.map fun s => s.map φ) := by
  unfold DistinctSimplices at *
  rw [List.pairwise_map]
  refine List.Pairwise.imp_of_mem ?_ hd
  intro a b ha hb hab hp
  apply hab
  set S : Set (Vec d) := {v | ∃ s ∈ st, v ∈ s} with hSdef
  have hI : Set.InjOn φ S := by
    rintro v ⟨s, hs, hv⟩ w ⟨s', hs', hw⟩ e
    exact hinj s hs s' hs' v hv w hw e
  have hmap : ∀ s ∈ st, (s.map φ).map (Function.invFunOn φ S) = s := by
    intro s hs
    rw [List.map_map]
    conv_rhs => rw [← List.map_id s]
    refine List.map_congr_left fun v hv => ?_
    exact hI.leftInvOn_invFunOn ⟨s, hs, hv⟩
  have := hp.map (Function.invFunOn φ S)
  rwa [hmap a ha, hmap b hb] at this

/-- **C103** (the hypothesis about the stencil): it holds if the vertices of the stencil are further apart than the rounding of the positions near the box. -/
theorem C103_stencil_resolved (hr : IsNearest A.rnd) (hb : ProperBox p.coord) (hf : ∀ i, IsFloat (p.coord.lower i) ∧ IsFloat (p.coord.upper i)) (hn : NearBox p Res) {st : List (Simplex d)} (hd : DistinctSimplices st)
    (hst : ResolvedStencil p.coord st) {s : Simplex d} {r : SRes d} (h : Res s r) : DistinctSimplices (FL.translateStencil A (FL.normalizePosition A.rnd p.coord r.pos) st) := by
  set x := FL.normalizePosition A.rnd p.coord r.pos with hx
  have hxr : ∀ i, |x i| ≤ |p.coord.lower i| + 2 * (p.coord.upper i - p.coord.lower i) := by
    intro i
    have h1 : |x i - p.coord.lower i| ≤ 2 * (p.coord.upper i - p.coord.lower i) := by
      cases hp : p.coord.periodic with
      | true => exact (C74_normalized_in_reach hr hb hf hp _ i).1
      | false =>
        rw [hx, normalizePosition_open _ hp]
        rcases hn with hn | hn
        · rw [hp] at hn; cases hn
        · exact hn s r h i
    calc |x i| = |x i - p.coord.lower i + p.coord.lower i| := by ring_nf
      _ ≤ |x i - p.coord.lower i| + |p.coord.lower i| := abs_add_le _ _
      _ ≤ _ := by linarith
  refine distinct_map (fun v => fun i => A.rnd (x i + v i)) hd ?_
  intro s hs s' hs' v hv w hw e
  by_contra hne
  obtain ⟨i, hi⟩ := hst s hs s' hs' v hv w hw hne
  have e := congrFun e i
  have h1 := rel_err hr (x i + v i)
  have h2 := rel_err hr (x i + w i)
  have h3 : |v i - w i| ≤ |A.rnd (x i + v i) - (x i + v i)| + |A.rnd (x i + w i) - (x i + w i)| := by
    have : v i - w i = -(A.rnd (x i + v i) - (x i + v i)) + (A.rnd (x i + w i) - (x i + w i)) := by rw [e]; ring
    rw [this]
    exact (abs_add_le _ _).trans (by rw [abs_neg])
  have h4 := abs_add_le (x i) (v i)
  have h5 := abs_add_le (x i) (w i)
  have h6 := hxr i
  have h7 : (|x i + v i| + |x i + w i|) / 2 ^ 53 ≤ (2 * (|p.coord.lower i| + 2 * (p.coord.upper i - p.coord.lower i)) + |v i| + |w i|) / 2 ^ 53 :=
    div_le_div_of_nonneg_right (by linarith) (by positivity)
  have h8 : |A.rnd (x i + v i) - (x i + v i)| + |A.rnd (x i + w i) - (x i + w i)| ≤ (|x i + v i| + |x i + w i|) / 2 ^ 53 := by
    rw [add_div]
    have e1 : ∀ y : ℝ, y / 2 ^ 53 = 1 / 2 ^ 53 * y := fun y => by ring
    rw [e1, e1]
    linarith
  linarith

/-! ## The hypotheses can be met -/

namespace C103Demo
open Demo (pt params s node bad)

/-- any rounding to nearest, with any of the distances it allows -/
def arith (rnd : ℝ → ℝ) : CtlArith 1 := ⟨rnd, fun cs x y => (distance_exists rnd cs x y).choose⟩

/-- the two results of the demonstration -/
def DemoRes : Simplex 1 → SRes 1 → Prop := fun _ r => r = node ∨ r = bad

variable {rnd : ℝ → ℝ} (hr : IsNearest rnd)
include hr

theorem search : FloatSearch (arith rnd) params DemoRes where
  nearest := hr
  distances cs x y := (distance_exists rnd cs x y).choose_spec
  box i := by simp [params, pt]
  floats i := ⟨isFloat_zero, ⟨1, 0, by norm_num, by norm_num [params, pt]⟩⟩
  mesh := by simp [DistinctSimplices, params]
  stencil st h s r _ := by
    have : st = [[pt (1/5), pt (2/5)]] := by simpa [params] using h.symm
    subst this
    simp [DistinctSimplices, FL.translateStencil]

omit hr in
theorem geometry : FloatGeometry params DemoRes where
  positive := by norm_num [params]
  long := .inr fun i => by norm_num [params, pt]
  near := .inr (by
    rintro s r (rfl | rfl) i
    · norm_num [params, pt, node, SRes.pos, SRes.main]
    · norm_num [params, pt, bad, SRes.pos, SRes.main])
  small := by
    have : Real.sqrt (∑ i, (params.coord.upper i - params.coord.lower i) ^ 2) = 1 := by simp [params, pt]
    rw [distanceError, this]
    norm_num [params]
  dim := by norm_num

omit hr in
theorem checkLoop_true {A : CtlArith 1} (res : Container 1) (l : List (Vec 1)) (k : ℤ) (h : k + l.length ≤ 5) : FL.checkSimplexLoop A params res k l = true := by
  induction l generalizing k with
  | nil => rfl
  | cons x l ih =>
    simp only [List.length_cons, Nat.cast_add, Nat.cast_one] at h
    unfold FL.checkSimplexLoop
    split
    · rw [if_neg (by simp only [params]; omega)]
      exact ih _ (by omega)
    · exact ih _ (by omega)

omit hr in
theorem check_true {A : CtlArith 1} (res : Container 1) (x : Simplex 1) (h : x.length ≤ 5) : FL.checkSimplex A params res x = true :=
  checkLoop_true res x 0 (by omega)

omit hr in
theorem fill_next {A : CtlArith 1} {c c' : Ctl 1} (h : FL.fillStep A params c = .next c') : FL.fill A params c = FL.fill A params c' := by
  rw [FL.fill]
  split
  · rename_i h'; rw [h'] at h; cases h
  · rename_i h'; rw [h'] at h; cases h
  · rename_i h'; rw [h'] at h; injection h with h; rw [h]

omit hr in
theorem fill_stop {A : CtlArith 1} {c : Ctl 1} (h : FL.fillStep A params c = .stop) : FL.fill A params c = (none, c) := by
  rw [FL.fill]
  split
  · rfl
  · rename_i h'; rw [h'] at h; cases h
  · rename_i h'; rw [h'] at h; cases h

omit hr in
/-- starting the only queued simplex -/
theorem fill_schedule {A : CtlArith 1} {c : Ctl 1} {x : Simplex 1} (hrun : c.state.simplexQueue.running = ∅) (hq : c.state.simplexQueue.base.queued = [x]) (hx : x.length ≤ 5) :
    FL.fill A params c = (none, { c with
      state := { c.state with simplexQueue := c.state.simplexQueue.popTo x [] }
      tasks := c.tasks ++ [x], log := c.log ++ [.scheduled x] }) := by
  have h1 : FL.fillStep A params c = .next { c with
      state := { c.state with simplexQueue := c.state.simplexQueue.popTo x [] }
      tasks := c.tasks ++ [x], log := c.log ++ [.scheduled x] } := by
    unfold FL.fillStep
    rw [if_neg (by simp [RunQueue.numRunning, hrun, params]), RunQueue.popQueued_cons hq]
    simp only
    rw [if_pos (check_true _ _ hx)]
  rw [fill_next h1, fill_stop]
  unfold FL.fillStep
  rw [if_pos]
  have : x ∈ (c.state.simplexQueue.popTo x []).running := by simp
  have := Finset.card_pos.2 ⟨x, this⟩
  simp only [params, RunQueue.numRunning]; omega

omit hr in
theorem check_pos_true {A : CtlArith 1} {c : Container 1} (h : ContInv A params c) (hr : c.refined.flat = []) (x : Vec 1) (cut : ℤ) : FL.checkPosRefinement A params c x cut = true := by
  by_contra hc
  have hc : FL.checkPosRefinement A params c x cut = false := by simpa using hc
  rw [FL.checkPos_eq_false_iff] at hc
  apply hc.1
  unfold FL.refinedNeighbourDistances
  rw [List.map_eq_nil_iff, List.eq_nil_iff_forall_not_mem]
  intro y hy
  have := ((mem_neighbourValues h.rinv _ _).1 hy).1
  rw [hr] at this; cases this

/-- the simplex queued by the refinement, with rounding -/
def t (rnd : ℝ → ℝ) : Simplex 1 := normalizeSimplex [pt (rnd (1/2 + 1/5)), pt (rnd (1/2 + 2/5))]

theorem t_ne_s : t rnd ≠ s := by
  intro h
  have := ((normalizeSimplex_eq_iff _ _).1 h).mem_iff (a := pt 0)
  have h1 := rel_err hr (1/2 + 1/5)
  have h2 := rel_err hr (1/2 + 2/5)
  have h3 : pt 0 = pt (rnd (1/2 + 1/5)) ∨ pt 0 = pt (rnd (1/2 + 2/5)) := by simpa using this
  rcases h3 with h3 | h3
  · have h3 := congrFun h3 0
    simp only [pt] at h3
    rw [← h3] at h1
    norm_num at h1
  · have h3 := congrFun h3 0
    simp only [pt] at h3
    rw [← h3] at h2
    norm_num at h2

/-- the search of the demonstration finds the node, refines it, and returns -/
theorem returns : ∃ c, FL.Reach (arith rnd) params DemoRes 0 c ∧ c.phase = .returned ∧ c.state.result.nodes.values = [node] ∧ c.state.result.refined.values = [pt (1/2)] ∧
    scheduledSimplices c.log = [s, t rnd] := by
  have hS := search hr
  set A := arith rnd with hA
  obtain ⟨c0, hc0⟩ : ∃ c0, FL.startFrom A params none none = .ok c0 := ⟨_, rfl⟩
  have reach0 : FL.Reach A params DemoRes 0 c0 := .start hc0
  have hc0' := hc0
  simp only [FL.startFrom, FL.createStateFrom] at hc0
  injection hc0 with hc0
  have q0 : c0.state.simplexQueue.base.queued = [s] := by rw [← hc0]; rfl
  have a0 : c0.state.simplexQueue.base.all = {x | x ∈ [s]} := by rw [← hc0]; rfl
  have p0 : c0.state.positionQueue = ⟨[], {x | x ∈ ([] : List (Vec 1))}, true⟩ := by rw [← hc0]; rfl
  have r0 : c0.state.simplexQueue.running = ∅ := by rw [← hc0]; rfl
  have ref0 : c0.state.result.refined.flat = [] := by rw [← hc0]; rfl
  have nod0 : c0.state.result.nodes.flat = [] := by rw [← hc0]; rfl
  have t0 : c0.tasks = [] := by rw [← hc0]
  have f0 : c0.failed = [] := by rw [← hc0]
  have ph0 : c0.phase = .running := by rw [← hc0]
  have l0 : c0.log = [] := by rw [← hc0]
  clear hc0 hc0'
  -- the mesh simplex is started
  have fill0 := fill_schedule (A := A) r0 q0 (by simp [s, normalizeSimplex])
  set c1 : Ctl 1 := { c0 with
      state := { c0.state with simplexQueue := c0.state.simplexQueue.popTo s [] }
      tasks := c0.tasks ++ [s], log := c0.log ++ [.scheduled s] } with hc1
  have reach1 : FL.Reach A params DemoRes 0 c1 := .step reach0 (.tickFill c0 c1 ph0 f0 (Or.inl fun h => by have := h.2; rw [q0] at this; cases this) fill0)
  have s1 : s ∈ c1.tasks := by simp [hc1]
  -- its minimization ends
  have reach2 : FL.Reach A params DemoRes 0 (FL.taskDone A params c1 s node) :=
    .step reach1 (.done c1 s node (by rw [hc1]; simp [ph0]) s1 (by intro _ _ _ h; simp [node] at h) (.inl rfl))
  obtain ⟨st, e2, ct, ref2, nod2, -, hpos⟩ := taskDone_ok hS (FL.good_reach hS reach1).1 s1 node
  have hnorm : FL.normalizePosition A.rnd params.coord node.pos = pt (1/2) := normalizePosition_open _ rfl _
  have hstored : stored A params node = node := by
    unfold stored
    rw [hnorm]
    rfl
  rw [if_pos (show IsNode params.gapThreshold node from Demo.isNode), hstored] at nod2
  have hpq : st.positionQueue = ⟨[pt (1/2)], {y | y = pt (1/2)}, true⟩ := by
    rcases hpos with ⟨-, -, -, h⟩ | ⟨-, h⟩
    · rw [h, hnorm]
      rcases objAddObjects c1.state.positionQueue (pt (1/2)) with ⟨h, -⟩ | ⟨-, h⟩
      · have h : pt (1/2) ∈ c0.state.positionQueue.all := h
        rw [p0] at h
        exact absurd h (by simp)
      · rw [h]
        have : c1.state.positionQueue = ⟨[], {x | x ∈ ([] : List (Vec 1))}, true⟩ := p0
        rw [this]
        simp
    · have := h Demo.isNode rfl
      rw [check_pos_true ct (by rw [ref2]; exact ref0)] at this
      cases this
  rw [e2] at reach2
  set c2 : Ctl 1 := { c1 with
      state := { st with simplexQueue := c1.state.simplexQueue.finishOf s }
      tasks := c1.tasks.erase s
      log := c1.log ++ [.completed s node] } with hc2
  have t2 : c2.tasks = [] := by simp [hc2, hc1, t0]
  have f2 : c2.failed = [] := f0
  have run2 : c2.state.simplexQueue.running = ∅ := by
    apply Finset.eq_empty_of_forall_notMem
    intro x hx
    have := ((FL.good_reach hS reach2).1.run x).2 hx
    rw [t2, f2] at this; cases this
  have q2 : c2.state.simplexQueue.base.queued = [] := rfl
  have a2 : c2.state.simplexQueue.base.all = {x | x ∈ [s]} := a0
  -- the refinement
  obtain ⟨res, e3, ct3, ref3, nod3, -, -⟩ := setRefined_ok hS ct (x := pt (1/2)) ⟨s, node, .inl rfl, hnorm.symm⟩
  set c2' : Ctl 1 := { c2 with
      state := ⟨res, c2.state.simplexQueue.addObjects [t rnd], c2.state.positionQueue.popTo []⟩
      log := c2.log ++ [.refined (pt (1/2))] } with hc2'
  have hfs : FL.fillStep A params c2 = .next c2' := by
    unfold FL.fillStep
    rw [if_neg (by simp [RunQueue.numRunning, run2, params]), RunQueue.popQueued_nil q2]
    simp only
    have p2 : c2.state.positionQueue.queued = [pt (1/2)] := by rw [hc2]; simp only [hpq]
    rw [ObjQueue.popQueued_cons p2]
    simp only
    rw [if_pos]
    · have e4 : FL.setRefined A c2.state.result (pt (1/2)) = .ok res := e3
      have e5 : params.stencil = some [[pt (1/5), pt (2/5)]] := rfl
      simp only [e4, e5]
      rfl
    · right
      exact check_pos_true ct (by rw [ref2]; exact ref0) _ _
  have q2' : c2'.state.simplexQueue.base.queued = [t rnd] := by
    show (c2.state.simplexQueue.addObjects [t rnd]).base.queued = _
    rw [(addObjects_queued c2.state.simplexQueue [t rnd]).1, q2, a2]
    simp [t_ne_s hr]
  have run2' : c2'.state.simplexQueue.running = ∅ := by
    show (c2.state.simplexQueue.addObjects [t rnd]).running = ∅
    rw [(addObjects_queued c2.state.simplexQueue [t rnd]).2.2, run2]
  have fill2 := fill_schedule (A := A) run2' q2' (by simp [t, normalizeSimplex])
  rw [← fill_next hfs] at fill2
  set c3 : Ctl 1 := { c2' with
      state := { c2'.state with simplexQueue := c2'.state.simplexQueue.popTo (t rnd) [] }
      tasks := c2'.tasks ++ [t rnd], log := c2'.log ++ [.scheduled (t rnd)] } with hc3
  have reach3 : FL.Reach A params DemoRes 0 c3 := .step reach2 (.tickFill c2 c3 ph0 f2 (Or.inr (by
    show c2.state.positionQueue.hasQueued = true
    rw [hc2]; simp only [hpq]; rfl)) fill2)
  have t3 : c3.tasks = [t rnd] := by rw [hc3]; simp only [hc2', t2]; rfl
  have s3 : t rnd ∈ c3.tasks := by rw [t3]; simp
  -- the second minimization ends above the threshold
  have reach4 : FL.Reach A params DemoRes 0 (FL.taskDone A params c3 (t rnd) bad) :=
    .step reach3 (.done c3 (t rnd) bad (by show c0.phase ≠ _; simp [ph0]) s3 (by intro _ _ _ h; simp [bad] at h) (.inr rfl))
  obtain ⟨st4, e4, ct4, ref4, nod4, -, hpos4⟩ := taskDone_ok hS (FL.good_reach hS reach3).1 s3 bad
  have hbad : ¬ IsNode params.gapThreshold bad := Demo.bad_not_node (by norm_num [params])
  rw [if_neg hbad] at nod4
  have hpq4 : st4.positionQueue = c3.state.positionQueue := by
    rcases hpos4 with ⟨h, -⟩ | ⟨h, -⟩
    · exact absurd h hbad
    · exact h
  rw [e4] at reach4
  set c4 : Ctl 1 := { c3 with
      state := { st4 with simplexQueue := c3.state.simplexQueue.finishOf (t rnd) }
      tasks := c3.tasks.erase (t rnd)
      log := c3.log ++ [.completed (t rnd) bad] } with hc4
  have t4 : c4.tasks = [] := by simp [hc4, t3]
  have f4 : c4.failed = [] := f0
  have run4 : c4.state.simplexQueue.running = ∅ := by
    apply Finset.eq_empty_of_forall_notMem
    intro x hx
    have := ((FL.good_reach hS reach4).1.run x).2 hx
    rw [t4, f4] at this; cases this
  have hloop : ¬ loopCondition c4 := by
    rintro (h | h)
    · exact h ⟨run4, rfl⟩
    · have e : c4.state.positionQueue = c2.state.positionQueue.popTo [] := hpq4
      rw [e] at h
      simp [ObjQueue.hasQueued] at h
  refine ⟨{ doSave params c4 [] with phase := .returned }, .step reach4 (.tickReturn c4 [] ph0 f4 hloop ⟨by simp, fun x => by rw [run4]; simp⟩), rfl, ?_, ?_, ?_⟩
  · show (doSave params c4 []).state.result.nodes.flat = _
    have : c4.state.result.nodes.flat = [node] := by
      show st4.result.nodes.flat = _
      rw [nod4]
      show res.nodes.flat = _
      rw [nod3, nod2]
      show c0.state.result.nodes.flat ++ _ = _
      rw [nod0]; rfl
    rcases doSave_eq params c4 [] with ⟨-, -, e⟩ | ⟨-, e⟩ <;> rw [e] <;> exact this
  · show (doSave params c4 []).state.result.refined.flat = _
    have : c4.state.result.refined.flat = [pt (1/2)] := by
      show st4.result.refined.flat = _
      rw [ref4]
      show res.refined.flat = _
      rw [ref3, ref2]
      show c0.state.result.refined.flat ++ _ = _
      rw [ref0]; rfl
    rcases doSave_eq params c4 [] with ⟨-, -, e⟩ | ⟨-, e⟩ <;> rw [e] <;> exact this
  · show scheduledSimplices (doSave params c4 []).log = _
    have : c4.log = [.scheduled s, .completed s node, .refined (pt (1/2)), .scheduled (t rnd), .completed (t rnd) bad] := by
      rw [hc4]; simp only [hc3, hc2', hc2, hc1, l0]; rfl
    have h : (doSave params c4 []).log = c4.log := by
      rcases doSave_eq params c4 [] with ⟨-, -, e⟩ | ⟨-, e⟩ <;> rw [e]
    rw [h, this]
    rfl


/-! ### A minimization in floating-point arithmetic -/

/-- the minimization of the constant function 0 -/
def MinRes0 : Simplex 1 → SRes 1 → Prop := fun s' r => s' = s ∧ r = .plain C45Demo.res

omit hr in
theorem res_near (i : Fin 1) : |C45Demo.res.pos i| ≤ 2 := by
  have hs : ∀ i j k, |C45Demo.sim i k - C45Demo.sim j k| ≤ 1 := fun i j k => by
    rcases C45Demo.sim_mem i with h | h <;> rcases C45Demo.sim_mem j with h' | h' <;> rw [h, h'] <;> simp [pt] <;> norm_num [abs_le]
  have : ∃ j, C45Demo.res.pos = C45Demo.sim j := by
    unfold C45Demo.res rootNelderMead
    rw [C45Demo.const_loop hs]
    exact ⟨_, rfl⟩
  obtain ⟨j, hj⟩ := this
  rw [hj]
  rcases C45Demo.sim_mem j with h | h <;> rw [h] <;> norm_num [pt, abs_le]

theorem min_search : FloatSearch (arith rnd) params MinRes0 :=
  ⟨(search hr).nearest, (search hr).distances, (search hr).box, (search hr).floats, (search hr).mesh, fun st h s r _ => (search hr).stencil st h s node (.inl rfl) |> fun _ => by
    have : st = [[pt (1/5), pt (2/5)]] := by simpa [params] using h.symm
    subst this
    simp [DistinctSimplices, FL.translateStencil]⟩

omit hr in
theorem min_near : NearBox params MinRes0 := by
  right
  rintro s r ⟨-, rfl⟩ i
  have := res_near i
  simpa [params, pt, SRes.pos, SRes.main] using this

theorem min_node : ∃ c, FL.Reach (arith rnd) params MinRes0 0 c ∧ (SRes.plain C45Demo.res) ∈ c.state.result.nodes.values := by
  have hS := min_search hr
  set A := arith rnd with hA
  obtain ⟨c0, hc0⟩ : ∃ c0, FL.startFrom A params none none = .ok c0 := ⟨_, rfl⟩
  have reach0 : FL.Reach A params MinRes0 0 c0 := .start hc0
  simp only [FL.startFrom, FL.createStateFrom] at hc0
  injection hc0 with hc0
  have q0 : c0.state.simplexQueue.base.queued = [s] := by rw [← hc0]; rfl
  have r0 : c0.state.simplexQueue.running = ∅ := by rw [← hc0]; rfl
  have f0 : c0.failed = [] := by rw [← hc0]
  have ph0 : c0.phase = .running := by rw [← hc0]
  clear hc0
  have fill0 := fill_schedule (A := A) r0 q0 (by simp [s, normalizeSimplex])
  set c1 : Ctl 1 := { c0 with
      state := { c0.state with simplexQueue := c0.state.simplexQueue.popTo s [] }
      tasks := c0.tasks ++ [s], log := c0.log ++ [.scheduled s] } with hc1
  have reach1 : FL.Reach A params MinRes0 0 c1 := .step reach0 (.tickFill c0 c1 ph0 f0 (Or.inl fun h => by have := h.2; rw [q0] at this; cases this) fill0)
  have s1 : s ∈ c1.tasks := by simp [hc1]
  refine ⟨_, .step reach1 (.done c1 s (.plain C45Demo.res) (by rw [hc1]; simp [ph0]) s1 (by intro _ _ _ h; cases h) ⟨rfl, rfl⟩), ?_⟩
  obtain ⟨st, e2, -, -, nod2, -, -⟩ := taskDone_ok hS (FL.good_reach hS reach1).1 s1 (.plain C45Demo.res)
  have hn : IsNode params.gapThreshold (SRes.plain C45Demo.res) := by
    refine ⟨C45Demo.res_success.1, ?_⟩
    change ¬ FVal.gt C45Demo.res.value _
    rw [C45Demo.res_success.2]
    intro h
    have := NMDemo.flt.1 h
    norm_num [params] at this
  rw [if_pos hn] at nod2
  rw [e2]
  show _ ∈ st.result.nodes.flat
  rw [nod2]
  have hnorm : FL.normalizePosition A.rnd params.coord (SRes.plain C45Demo.res).pos = (SRes.plain C45Demo.res).pos := normalizePosition_open _ rfl _
  have hst : stored A params (SRes.plain C45Demo.res) = SRes.plain C45Demo.res := by
    unfold stored
    rw [hnorm]
    rfl
  rw [hst]
  simp

theorem min_of : ∀ s r, MinRes0 s r → FloatMinimizationOf rnd NMDemo.wideParams (fun _ v => v = FVal.ofReal 0) s r := by
  rintro _ _ ⟨rfl, rfl⟩
  exact ⟨C102Demo.arith 1 rnd, C45Demo.zero, none, C45Demo.sim, rfl, C102Demo.arith_valid 1 rnd, fun _ _ => rfl, C45Demo.s_eq, fun v => Tuple.sort v, fun v => Tuple.monotone_sort v, by
    simp only [FL.runMinimization, C102Demo.float_res (A := C102Demo.arith 1 rnd) hr]⟩

/-- a search with real minimizations whose node has a value not above the threshold -/
example : ∃ v : ℝ, (SRes.plain C45Demo.res).value = FVal.ofReal v ∧ v ≤ params.gapThreshold := by
  obtain ⟨c, h1, h2⟩ := min_node C102Demo.rndEven_nearest
  obtain ⟨v, e, hv, -⟩ := C103_nodes_below_threshold (p := params) le_rfl (G := fun _ v => v = FVal.ofReal 0) (P := NMDemo.wideParams) (by simp [NMDemo.wideParams, FVal.ofReal, FVal.inf]; exact fun h => EReal.coe_ne_top 1 h.symm) (.inl rfl)
    (min_of C102Demo.rndEven_nearest) (min_search C102Demo.rndEven_nearest) min_near h1 h2
  exact ⟨v, e, hv⟩

omit hr in
/-- the hypotheses of the theorems about refinements, met by a search that has returned with a node and a refinement; and by one that was restarted -/
example : ∃ A, FloatSearch A params DemoRes ∧ FloatGeometry params DemoRes ∧ params.stencil ≠ none ∧ params.recheckPosDist = true ∧ 0 ≤ params.recheckCountCutoff ∧ params.forceInitialMesh = false ∧
    1 ≤ params.numMinimizeParallel ∧ (∃ c, FL.Reach A params DemoRes 0 c ∧ c.phase = .returned ∧ c.state.result.nodes.values ≠ [] ∧ c.state.result.refined.values ≠ [] ∧ scheduledSimplices c.log ≠ []) ∧
    ∃ c, FL.Reach A params DemoRes 1 c ∧ c.state.result.nodes.values ≠ [] := by
  have hS := search C102Demo.rndEven_nearest
  obtain ⟨c, h1, h2, h3, h4, h5⟩ := returns C102Demo.rndEven_nearest
  refine ⟨_, hS, geometry, by simp [params], rfl, by simp [params], rfl, by simp [params], ⟨c, h1, h2, by simp [h3], by simp [h4], by simp [h5]⟩, ?_⟩
  have mono : ∀ {n c}, FL.Reach (arith C102Demo.rndEven) params DemoRes n c → FL.Reach (arith C102Demo.rndEven) params DemoRes (n + 1) c := by
    intro n c h
    induction h with
    | start h => exact .start h
    | step _ hs ih => exact .step ih hs
    | crash _ hs ih => exact .crash ih hs
  exact ⟨c, mono h1, by simp [h3]⟩

omit hr in
/-- an exact arithmetic -/
example : ∃ A : CtlArith 1, A.rnd = id ∧ (∀ x y, FL.Distance A.rnd params.coord x y (A.dist params.coord x y)) ∧ DistinctInput params :=
  ⟨arith id, rfl, fun x y => (distance_exists id params.coord x y).choose_spec, Demo.distinct⟩

omit hr in
/-- a stencil that is resolved: two simplices in the box -/
example : ∃ st, DistinctSimplices st ∧ st.length = 2 ∧ ResolvedStencil params.coord st := by
  refine ⟨[[pt 0, pt (1/8)], [pt (1/4), pt (1/2)]], ?_, rfl, ?_⟩
  · simp only [DistinctSimplices, List.pairwise_cons, List.mem_singleton, forall_eq, List.not_mem_nil, false_imp_iff, implies_true, List.Pairwise.nil, and_true]
    intro h
    have := h.mem_iff (a := pt 0)
    simp [pt, funext_iff] at this
  · have key : ∀ x ∈ [0, (1:ℝ)/8, 1/4, 1/2], ∀ y ∈ [0, (1:ℝ)/8, 1/4, 1/2], x ≠ y → (2 * (|(0:ℝ)| + 2 * (1 - 0)) + |x| + |y|) / 2 ^ 53 < |x - y| := by
      intro x hx y hy hne
      fin_cases hx <;> fin_cases hy <;> first | exact absurd rfl hne | norm_num [abs_of_nonneg, abs_of_neg]
    intro a ha b hb v hv w hw hne
    have hv' : ∃ x ∈ [0, (1:ℝ)/8, 1/4, 1/2], v = pt x := by simp only [List.mem_cons, List.not_mem_nil, or_false] at ha; rcases ha with rfl | rfl <;> (rcases List.mem_pair.1 hv with rfl | rfl <;> exact ⟨_, by simp, rfl⟩)
    have hw' : ∃ x ∈ [0, (1:ℝ)/8, 1/4, 1/2], w = pt x := by simp only [List.mem_cons, List.not_mem_nil, or_false] at hb; rcases hb with rfl | rfl <;> (rcases List.mem_pair.1 hw with rfl | rfl <;> exact ⟨_, by simp, rfl⟩)
    obtain ⟨x, hx, rfl⟩ := hv'
    obtain ⟨y, hy, rfl⟩ := hw'
    exact ⟨0, key x hx y hy fun e => hne (by rw [e])⟩

/-! ### An unresolved stencil -/

theorem rnd_one {x : ℝ} (h0 : 0 ≤ x) (h1 : x < 1 / 2 ^ 53) : rnd (1 + x) = 1 := by
  have h2 : |rnd (1 + x) - (1 + x)| ≤ |1 - (1 + x)| := (hr (1 + x)).2 1 C102Demo.float_one
  have h3 : 1 ≤ rnd (1 + x) := le_rnd hr C102Demo.float_one (by linarith)
  obtain ⟨z, hz⟩ := C74Demo.float_multiple (hr (1 + x)).1 0 (by simpa using h3)
  have h4 : rnd (1 + x) < 1 + 1 / 2 ^ 52 := by
    have e : |1 - (1 + x)| = x := by rw [show 1 - (1 + x) = -x by ring, abs_neg, abs_of_nonneg h0]
    rw [e] at h2
    have := (abs_le.1 h2).2
    have e2 : (1 : ℝ) / 2 ^ 52 = 1 / 2 ^ 53 + 1 / 2 ^ 53 := by norm_num
    linarith
  have e : (2 : ℝ) ^ ((0 : ℤ) - 52) = 1 / 2 ^ 52 := by norm_num [zpow_neg]
  rw [e] at hz
  rw [hz] at h3 h4 ⊢
  have h5 : (2 ^ 52 : ℝ) ≤ z := by
    have := mul_le_mul_of_nonneg_right h3 (show (0 : ℝ) ≤ 2 ^ 52 by norm_num)
    rw [mul_assoc] at this
    norm_num at this ⊢
    exact this
  have h6 : (z : ℝ) < 2 ^ 52 + 1 := by
    have := mul_lt_mul_of_pos_right h4 (show (0 : ℝ) < 2 ^ 52 by norm_num)
    rw [mul_assoc] at this
    norm_num at this ⊢
    exact this
  have h7 : z = 2 ^ 52 := by
    have a1 : (2 ^ 52 : ℤ) ≤ z := by exact_mod_cast h5
    have a2 : z < 2 ^ 52 + 1 := by exact_mod_cast h6
    omega
  rw [h7]; norm_num

/-- **C103** (witness): the vertices of the stencil must be resolved: around the point 1, two different simplices of the size of `2 ^ -60` are the same after rounding (then one simplex is queued twice, see `C16_duplicate_in_one_batch`). -/
theorem _root_.NF.C103_unresolved_stencil {rnd : ℝ → ℝ} (hr : IsNearest rnd) :
    ∃ st : List (Simplex 1), DistinctSimplices st ∧ ¬ DistinctSimplices (FL.translateStencil (arith rnd) (fun _ => 1) st) := by
  refine ⟨[[pt 0, pt (1 / 2 ^ 60)], [pt 0, pt (1 / 2 ^ 61)]], ?_, ?_⟩
  · simp only [DistinctSimplices, List.pairwise_cons, List.mem_singleton, forall_eq, List.not_mem_nil, false_imp_iff, implies_true, List.Pairwise.nil, and_true]
    intro h
    have := h.mem_iff (a := pt (1 / 2 ^ 60))
    simp [pt, funext_iff] at this
  · have h1 : rnd (1 + 1 / 2 ^ 60) = 1 := rnd_one hr (by norm_num) (by norm_num)
    have h2 : rnd (1 + 1 / 2 ^ 61) = 1 := rnd_one hr (by norm_num) (by norm_num)
    have e : FL.translateStencil (arith rnd) (fun _ => (1 : ℝ)) [[pt 0, pt (1 / 2 ^ 60)], [pt 0, pt (1 / 2 ^ 61)]] = [[pt (rnd (1 + 0)), pt (rnd (1 + 1 / 2 ^ 60))], [pt (rnd (1 + 0)), pt (rnd (1 + 1 / 2 ^ 61))]] := rfl
    rw [e, h1, h2]
    simp [DistinctSimplices]

end C103Demo

end NF
