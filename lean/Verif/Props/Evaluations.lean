import Verif.Spec.Evaluations
import Verif.Props.Setup
import Verif.Props.Centres
import Verif.Props.FloatController

/-! # C110: the number of evaluations of the gap function -/

noncomputable section
open Classical
namespace NF
open Spec CoordSys Container
variable {d : ℕ}

/-! ## One minimization -/

/-- **C110** (one minimization): every result of a minimization reports between `d + 1` and `2 (maxfev + d + 1)` evaluations. -/
theorem C110_minimization (hd : 1 ≤ d) {P : NMParams} {G : Vec d → FVal → Prop} {s : Simplex d} {r : SRes d} (h : MinimizationOf P G s r) :
    d + 1 ≤ r.numFev ∧ r.numFev ≤ evaluationLimit d P := by
  obtain ⟨f, fake, sim0, -, -, h⟩ := h
  unfold evaluationLimit
  cases fake with
  | some fake =>
    obtain ⟨first, second, ev1, ev2, S, h1, -, -, h2, -, -, -, -, e, -⟩ := C44_two_step hd h
    obtain ⟨-, -, a1, a2, -⟩ := C40_limits hd h1
    obtain ⟨-, -, b1, b2, -⟩ := C40_limits hd h2
    simp only at a2
    rw [e]
    omega
  | none =>
    obtain ⟨r0, ev, rfl, h1⟩ := C44_no_fake h
    obtain ⟨-, -, a1, a2, -⟩ := C40_limits hd h1
    change d + 1 ≤ r0.numFev ∧ r0.numFev ≤ _
    omega

/-- **C110** (one minimization, with rounding). -/
theorem C110_minimization_float {rnd : ℝ → ℝ} (hd : 1 ≤ d) {P : NMParams} {G : Vec d → FVal → Prop} {s : Simplex d} {r : SRes d} (h : FloatMinimizationOf rnd P G s r) :
    d + 1 ≤ r.numFev ∧ r.numFev ≤ evaluationLimit d P := by
  obtain ⟨A, f, fake, sim0, -, -, -, -, h⟩ := h
  unfold evaluationLimit
  cases fake with
  | some fake =>
    obtain ⟨first, second, ev1, ev2, S, h1, -, -, h2, -, -, -, -, e, -⟩ := C102_two_step hd h
    obtain ⟨-, -, a1, a2, -⟩ := C102_limits hd h1
    obtain ⟨-, -, b1, b2, -⟩ := C102_limits hd h2
    simp only at a2
    rw [e]
    omega
  | none =>
    obtain ⟨r0, ev, rfl, h1⟩ := C102_no_fake h
    obtain ⟨-, -, a1, a2, -⟩ := C102_limits hd h1
    change d + 1 ≤ r0.numFev ∧ r0.numFev ≤ _
    omega

/-! ## A search -/

theorem elem_base {p : CtlParams d} (b : List (SRes d)) : Elem p (fun _ => True) (fun c => c.base = b) where
  fill c c' _ h hs := by rw [(fillStep_disk hs).2.2.2]; exact h
  raise c e c' _ h hs := by
    obtain ⟨-, -, pos, rest, hpq, rfl⟩ := fillStep_raise hs
    exact h
  done c s r _ h hs hr := by rw [(taskDone_disk p c s r).2.2]; exact h
  fail c s id _ h hs := h
  save c enum _ h he := by rcases doSave_eq p c enum with ⟨-, -, e⟩ | ⟨-, e⟩ <;> rw [e] <;> exact h
  phase c ph _ h := h

theorem completedResults_le (l : List (LogEntry d)) : (completedResults l).length ≤ (handled l).length := by
  induction l with
  | nil => simp [completedResults, handled]
  | cons x l ih => cases x <;> simp [completedResults, handled] <;> omega

/-- **C110** (results): at any time, over all sessions together, there are at most as many results and outstanding simplices as the mesh has simplices, plus the size of the stencil for each refinement, however often the search has crashed and been restarted (without
forcing the initial mesh). -/
theorem C110_results {p : CtlParams d} (hd : DistinctInput p) (hforce : p.forceInitialMesh = false) {c : Ctl d} (h : Reach p c) :
    c.state.result.minimizationResults.length + (c.tasks ++ c.failed.map Prod.fst ++ c.state.simplexQueue.base.queued).length ≤
      p.mesh.length + (p.stencil.getD []).length * c.state.result.refined.values.length := by
  let K : Ctl d → Prop := fun c => ∃ B P R b, (WorkInv p B P R c ∧ c.base = b) ∧ B + b.length ≤ p.mesh.length + stencilSize p * R
  have hkey : ∀ c, Good p c → K c → c.state.result.minimizationResults.length + (outstanding c).length ≤ p.mesh.length + stencilSize p * c.state.result.refined.flat.length := by
    rintro c hG ⟨B, P, R, b, ⟨h1, rfl⟩, h2⟩
    have h3 := h1.simplices
    have h4 := h1.refined
    have h5 := hG.1.results.length_eq
    have h6 := completedResults_le c.log
    rw [h4, mul_add]
    simp only [List.length_append, List.length_map] at h3 h5
    omega
  have key : K c ∧ ∀ sv, c.disk = some sv → sv.results.length + sv.simplices.length ≤ p.mesh.length + stencilSize p * sv.refined.length := by
    refine reach_of_elem hd (P := fun c => K c ∧ ∀ sv, c.disk = some sv → sv.results.length + sv.simplices.length ≤ p.mesh.length + stencilSize p * sv.refined.length) ?_ ?_ ?_ h
    · refine Elem.and ⟨?_, ?_, ?_, ?_, ?_, ?_⟩ (elem_disk ?_)
      · rintro c c' hG ⟨B, P, R, b, ⟨h1, h3⟩, h2⟩ hs; exact ⟨B, P, R, b, ⟨elem_work.fill c c' hG.1 h1 hs, (elem_base b).fill c c' trivial h3 hs⟩, h2⟩
      · rintro c e c' hG ⟨B, P, R, b, ⟨h1, h3⟩, h2⟩ hs; exact ⟨B, P, R, b, ⟨elem_work.raise c e c' hG.1 h1 hs, (elem_base b).raise c e c' trivial h3 hs⟩, h2⟩
      · rintro c s r hG ⟨B, P, R, b, ⟨h1, h3⟩, h2⟩ hs hr; exact ⟨B, P, R, b, ⟨elem_work.done c s r hG.1 h1 hs hr, (elem_base b).done c s r trivial h3 hs hr⟩, h2⟩
      · rintro c s id hG ⟨B, P, R, b, ⟨h1, h3⟩, h2⟩ hs; exact ⟨B, P, R, b, ⟨elem_work.fail c s id hG.1 h1 hs, (elem_base (p := p) b).fail c s id trivial h3 hs⟩, h2⟩
      · rintro c en hG ⟨B, P, R, b, ⟨h1, h3⟩, h2⟩ hs; exact ⟨B, P, R, b, ⟨elem_work.save c en hG.1 h1 hs, (elem_base b).save c en trivial h3 hs⟩, h2⟩
      · rintro c ph hG ⟨B, P, R, b, ⟨h1, h3⟩, h2⟩; exact ⟨B, P, R, b, ⟨elem_work.phase c ph hG.1 h1, (elem_base (p := p) b).phase c ph trivial h3⟩, h2⟩
      · rintro c enum ⟨⟨hG, -⟩, hK⟩ he
        have e1 : enum.length = (c.tasks ++ c.failed.map Prod.fst).length := by
          apply List.Perm.length_eq
          have nd := (List.nodup_append.1 (List.nodup_append.1 hG.1.nodup).2.1).1
          rw [List.perm_ext_iff_of_nodup he.1 nd]
          intro s; rw [he.2, hG.1.run]
        have h3 := hkey c hG hK
        change (c.state.result.minimizationResults.map SRes.reload).length + (enum ++ c.state.simplexQueue.base.queued).length ≤ _ + _ * (c.state.result.refined.flat).length
        simp only [outstanding, List.length_append, List.length_map] at h3 e1 ⊢
        omega
    · refine ⟨⟨_, _, _, _, ⟨work_start p none none, rfl⟩, ?_⟩, by simp [startFresh, startFrom]⟩
      have : (startFrom p none none).base = [] := by
        simp only [startFrom, createStateFrom, Container.minimizationResults]
        have := create_contents p.coord [] p.gapThreshold p.distCutoff []
        simp only [CellList.values, List.filter_nil, List.map_nil] at this ⊢
        rw [this.1, this.2.1]; rfl
      have this : (startFresh p).base = [] := this
      rw [this]
      exact Nat.le_add_right _ _
    · intro c _ _ hP
      refine ⟨?_, hP.2⟩
      unfold restart
      cases hdk : c.disk with
      | none =>
        refine ⟨_, _, _, _, ⟨work_start p none none, rfl⟩, ?_⟩
        have : (startFrom p none none).base = [] := by
          simp only [startFrom, createStateFrom, Container.minimizationResults]
          have := create_contents p.coord [] p.gapThreshold p.distCutoff []
          simp only [CellList.values, List.filter_nil, List.map_nil] at this ⊢
          rw [this.1, this.2.1]; rfl
        rw [this]
        exact Nat.le_add_right _ _
      | some sv =>
        refine ⟨_, _, _, _, ⟨work_start p (some sv) (some sv), rfl⟩, ?_⟩
        have hc := create_contents p.coord sv.results p.gapThreshold p.distCutoff sv.refined
        have e : (startFrom p (some sv) (some sv)).state.result.refined.flat = sv.refined := hc.2.2
        have eb : (startFrom p (some sv) (some sv)).base.length = sv.results.length := by
          show ((Container.create p.coord sv.results p.gapThreshold p.distCutoff sv.refined).nodes.flat ++ (Container.create p.coord sv.results p.gapThreshold p.distCutoff sv.refined).rejected).length = _
          rw [hc.1, hc.2.1, List.length_append, List.length_map, List.length_map]
          have := List.length_eq_length_filter_add (l := sv.results) fun r => decide (IsNode p.gapThreshold r)
          simp only [decide_not] at this ⊢
          omega
        rw [e, eb]
        have := hP.2 sv hdk
        simp only [startSimplices, hforce] at this ⊢
        simpa [add_comm] using this
  have e : stencilSize p = (p.stencil.getD []).length := by
    unfold stencilSize
    cases p.stencil <;> rfl
  rw [← e]
  exact hkey c (good_reach hd h) key.1

theorem evaluations_le {rs : List (SRes d)} {E : ℕ} (h : ∀ r ∈ rs, r.numFev ≤ E) : evaluations rs ≤ rs.length * E := by
  unfold evaluations
  refine (List.sum_le_card_nsmul _ E ?_).trans (by simp)
  intro x hx
  obtain ⟨r, hr, rfl⟩ := List.mem_map.1 hx
  exact h r hr

theorem numFev_movedTo (r : SRes d) (x : Vec d) : (movedTo r x).numFev = r.numFev := by cases r <;> rfl
theorem numFev_reload (r : SRes d) : r.reload.numFev = r.numFev := by cases r <;> rfl

/-- **C110** (a search): at any time the results of a search, of all its sessions together, report at most `2 (maxfev + d + 1)` evaluations for each simplex of the mesh, and for each simplex of the stencil of each refinement, whatever the gap function is, the schedule, and however often
the search has crashed and been restarted. -/
theorem C110_evaluations (hd1 : 1 ≤ d) {p : CtlParams d} (hd : DistinctInput p) (hforce : p.forceInitialMesh = false) {P : NMParams} {G : Vec d → FVal → Prop} {c : Ctl d}
    (h : ReachWith p (MinimizationOf P G) c) :
    evaluations c.state.result.minimizationResults ≤ (p.mesh.length + (p.stencil.getD []).length * c.state.result.refined.values.length) * evaluationLimit d P := by
  have hq := histQ_reach (Q := fun r => r.numFev ≤ evaluationLimit d P) (fun s r h => (C110_minimization hd1 h).2)
    (fun r h => by rw [numFev_reload, numFev_movedTo]; exact h) h
  refine (evaluations_le fun r hr => ?_).trans (Nat.mul_le_mul_right _ ?_)
  · obtain ⟨r0, h0, rfl⟩ := histQ_results hq hr
    rw [numFev_movedTo]; exact h0
  · have := C110_results hd hforce (reachWith_reach h)
    omega

theorem le_evaluations {rs : List (SRes d)} {E : ℕ} (h : ∀ r ∈ rs, E ≤ r.numFev) : rs.length * E ≤ evaluations rs := by
  unfold evaluations
  refine le_trans (by simp) (List.card_nsmul_le_sum (rs.map SRes.numFev) E ?_)
  intro x hx
  obtain ⟨r, hr, rfl⟩ := List.mem_map.1 hx
  exact h r hr

/-- **C110** (not fewer): ... and at least `d + 1` for each result. -/
theorem C110_at_least (hd1 : 1 ≤ d) {p : CtlParams d} {P : NMParams} {G : Vec d → FVal → Prop} {c : Ctl d} (h : ReachWith p (MinimizationOf P G) c) :
    c.state.result.minimizationResults.length * (d + 1) ≤ evaluations c.state.result.minimizationResults := by
  have hq := histQ_reach (Q := fun r => d + 1 ≤ r.numFev) (fun s r h => (C110_minimization hd1 h).1)
    (fun r h => by rw [numFev_reload, numFev_movedTo]; exact h) h
  refine le_evaluations fun r hr => ?_
  obtain ⟨r0, h0, rfl⟩ := histQ_results hq hr
  rw [numFev_movedTo]; exact h0

/-- **C110** (a periodic search): ... so that the number of evaluations is bounded in terms of the settings alone. -/
theorem C110_periodic (hd1 : 1 ≤ d) {p : CtlParams d} (hd : DistinctInput p) (hg : GoodGeometry p) (hp : p.coord.periodic = true) (hr : p.recheckPosDist = true)
    (hforce : p.forceInitialMesh = false) {P : NMParams} {G : Vec d → FVal → Prop} {c : Ctl d} (h : ReachWith p (MinimizationOf P G) c) :
    evaluations c.state.result.minimizationResults ≤
      (p.mesh.length + (p.stencil.getD []).length * packingBound p.coord (p.featureSize / 3) p.recheckCountCutoff.toNat) * evaluationLimit d P :=
  (C110_evaluations hd1 hd hforce h).trans (Nat.mul_le_mul_right _ (Nat.add_le_add_left (Nat.mul_le_mul_left _ (C28_refinements_bounded hd hg hp hr (reachWith_reach h))) _))

/-- **C110** (unbounded space): the same for a search in unbounded space whose gap function is above the threshold outside of the box from `lo` to `hi`. -/
theorem C110_open (hd1 : 1 ≤ d) {p : CtlParams d} (hd : DistinctInput p) (hg : GoodGeometry p) (hper : p.coord.periodic = false) (hr : p.recheckPosDist = true)
    (hforce : p.forceInitialMesh = false) {P : NMParams} (hft : P.ftol ≠ FVal.inf) (hc : P.fprimeCutoff = none) {G : Vec d → FVal → Prop} {lo hi : Vec d}
    (hG : HighOutside G p.gapThreshold lo hi) {c : Ctl d} (h : ReachWith p (MinimizationOf P G) c) :
    evaluations c.state.result.minimizationResults ≤
      (p.mesh.length + (p.stencil.getD []).length * packingBound ⟨lo, hi, false⟩ (p.featureSize / 3) p.recheckCountCutoff.toNat) * evaluationLimit d P :=
  (C110_evaluations hd1 hd hforce h).trans (Nat.mul_le_mul_right _ (Nat.add_le_add_left (Nat.mul_le_mul_left _ (C93_refinements_bounded hd1 hd hg hper hft hc hG hr h).2) _))

/-! ## With rounding -/

section
variable {A : FL.CtlArith d} {p : CtlParams d} {Res : Simplex d → SRes d → Prop}

theorem completedResults_append' (l1 l2 : List (LogEntry d)) : completedResults (l1 ++ l2) = completedResults l1 ++ completedResults l2 := by
  induction l1 with
  | nil => rfl
  | cons x l ih => cases x <;> simp [completedResults, ih]

theorem fillStep_completed {c c' : Ctl d} (h : FL.fillStep A p c = .next c') : completedResults c'.log = completedResults c.log := by
  obtain ⟨-, ⟨x, rest, hq, -, rfl⟩ | ⟨x, rest, hq, -, rfl⟩ | ⟨pos, rest, st, res, hq, hpq, -, hst, -, rfl⟩ |
    ⟨pos, rest, hq, hpq, -, -, rfl⟩⟩ := FL.fillStep_next h <;> simp [completedResults_append', completedResults]

/-- what a search has counted: the results with which the session began and those it has got -/
structure Counted (E b : ℕ) (c : Ctl d) : Prop where
  len : c.base.length = b
  base : ∀ r ∈ c.base, r.numFev ≤ E
  log : ∀ r ∈ completedResults c.log, r.numFev ≤ E

theorem elem_counted (hS : FloatSearch A p Res) {E b : ℕ} (hE : ∀ s r, Res s r → r.numFev ≤ E) : FL.Elem A p Res (FL.Good A p Res) (Counted E b) where
  fill c c' _ h hs := ⟨by rw [(FL.fillStep_disk hs).2.2.2]; exact h.len, by rw [(FL.fillStep_disk hs).2.2.2]; exact h.base, by rw [fillStep_completed hs]; exact h.log⟩
  raise c e c' hg h hs := by
    obtain ⟨-, -, pos, rest, hpq, rfl⟩ := FL.raise_type hS hg.1 hs
    exact ⟨h.len, h.base, h.log⟩
  done c s r hg h hs hf hr := by
    obtain ⟨st, e, -⟩ := FL.taskDone_ok hS hg.1 hs r
    rw [e]
    refine ⟨h.len, h.base, ?_⟩
    simp only [completedResults_append', List.mem_append]
    rintro x (hx | hx)
    · exact h.log x hx
    · simp only [completedResults, List.mem_singleton] at hx
      subst hx
      exact hE s _ hr
  fail c s id _ h hs := ⟨h.len, h.base, by simpa [NF.taskFail, completedResults_append', completedResults] using h.log⟩
  save c enum _ h he := by rcases doSave_eq p c enum with ⟨-, -, e⟩ | ⟨-, e⟩ <;> rw [e] <;> exact ⟨h.len, h.base, h.log⟩
  phase c ph _ h := ⟨h.len, h.base, h.log⟩

theorem numFev_stored (r : SRes d) : (FL.stored A p r).numFev = r.numFev := by cases r <;> rfl

theorem counted_results {E b : ℕ} {c : Ctl d} (hg : FL.Good A p Res c) (h : Counted E b c) {r : SRes d} (hr : r ∈ c.state.result.minimizationResults) :
    r.numFev ≤ E := by
  have := hg.1.results.mem_iff.1 hr
  rcases List.mem_append.1 this with h1 | h1
  · exact h.base r h1
  · obtain ⟨r0, h0, rfl⟩ := List.mem_map.1 h1
    exact (numFev_stored (A := A) (p := p) r0).trans_le (h.log r0 h0)

theorem counted_start (hS : FloatSearch A p Res) {E : ℕ} {disk initial : Option (Saved d)} (hi : ∀ sv, initial = some sv → FL.DiskOk A p Res sv) {c : Ctl d} (h : FL.startFrom A p disk initial = .ok c)
    (hE : ∀ r ∈ startResults initial, r.numFev ≤ E) : Counted E (startResults initial).length c := by
  obtain ⟨ha, -, -, hl, -⟩ := FL.start_fields hS hi h
  obtain ⟨h2, h3⟩ := FL.start_results hS hi h
  have hp := ha.results
  rw [hl] at hp
  simp only [completedResults, List.map_nil, List.append_nil] at hp
  have e : c.state.result.minimizationResults = c.state.result.nodes.flat ++ c.state.result.rejected := rfl
  rw [e, h2, h3] at hp
  refine ⟨?_, ?_, by rw [hl]; simp [completedResults]⟩
  · rw [← hp.length_eq, List.length_append, List.length_map, List.length_map]
    have := List.length_eq_length_filter_add (l := startResults initial) fun r => decide (IsNode p.gapThreshold r)
    simp only [decide_not] at this ⊢
    omega
  · intro r hr
    rcases List.mem_append.1 (hp.mem_iff.2 hr) with h1 | h1 <;>
    · obtain ⟨r0, h0, rfl⟩ := List.mem_map.1 h1
      rw [numFev_stored]
      exact hE r0 (List.mem_filter.1 h0).1

set_option maxHeartbeats 2000000 in
/-- **C110** (with rounding): the same with rounding in the search and in the minimizations. -/
theorem C110_evaluations_float (hd1 : 1 ≤ d) {P : NMParams} {G : Vec d → FVal → Prop} (hR : ∀ s r, Res s r → FloatMinimizationOf A.rnd P G s r) (hS : FloatSearch A p Res)
    (hforce : p.forceInitialMesh = false) {n : ℕ} {c : Ctl d} (h : FL.Reach A p Res n c) :
    c.state.result.minimizationResults.length + (c.tasks ++ c.failed.map Prod.fst ++ c.state.simplexQueue.base.queued).length ≤
      p.mesh.length + (p.stencil.getD []).length * c.state.result.refined.values.length ∧
    evaluations c.state.result.minimizationResults ≤ (p.mesh.length + (p.stencil.getD []).length * c.state.result.refined.values.length) * evaluationLimit d P := by
  have hE : ∀ s r, Res s r → r.numFev ≤ evaluationLimit d P := fun s r hr => (C110_minimization_float hd1 (hR s r hr)).2
  let K : Ctl d → Prop := fun c => ∃ B P' R b, (WorkInv p B P' R c ∧ Counted (evaluationLimit d P) b c) ∧ B + b ≤ p.mesh.length + stencilSize p * R
  have hkey : ∀ c, FL.Good A p Res c → K c → c.state.result.minimizationResults.length + (outstanding c).length ≤ p.mesh.length + stencilSize p * c.state.result.refined.flat.length ∧
      ∀ r ∈ c.state.result.minimizationResults, r.numFev ≤ evaluationLimit d P := by
    rintro c hG ⟨B, P', R, b, ⟨h1, h7⟩, h2⟩
    refine ⟨?_, fun r hr => counted_results hG h7 hr⟩
    have h3 := h1.simplices
    have h4 := h1.refined
    have h5 := hG.1.results.length_eq
    have h6 := completedResults_le c.log
    have h8 := h7.len
    rw [h4, mul_add]
    simp only [List.length_append, List.length_map] at h3 h5
    omega
  have key : FL.Good A p Res c ∧ K c ∧ ∀ sv, c.disk = some sv → sv.results.length + sv.simplices.length ≤ p.mesh.length + stencilSize p * sv.refined.length ∧ ∀ r ∈ sv.results, r.numFev ≤ evaluationLimit d P := by
    refine FL.reach_of_elem hS (P := fun _ c => K c ∧ ∀ sv, c.disk = some sv → sv.results.length + sv.simplices.length ≤ p.mesh.length + stencilSize p * sv.refined.length ∧ ∀ r ∈ sv.results, r.numFev ≤ evaluationLimit d P)
      (fun _ => ?_) ?_ ?_ h
    · refine FL.Elem.and ⟨?_, ?_, ?_, ?_, ?_, ?_⟩ (FL.elem_disk hS (fun c h => h.1.1) ?_)
      · rintro c c' hG ⟨B, P, R, b, ⟨h1, h3⟩, h2⟩ hs; exact ⟨B, P, R, b, ⟨(FL.elem_work hS).fill c c' hG h1 hs, (elem_counted hS hE).fill c c' hG h3 hs⟩, h2⟩
      · rintro c e c' hG ⟨B, P, R, b, ⟨h1, h3⟩, h2⟩ hs; exact ⟨B, P, R, b, ⟨(FL.elem_work hS).raise c e c' hG h1 hs, (elem_counted hS hE).raise c e c' hG h3 hs⟩, h2⟩
      · rintro c s r hG ⟨B, P, R, b, ⟨h1, h3⟩, h2⟩ hs hf hr; exact ⟨B, P, R, b, ⟨(FL.elem_work hS).done c s r hG h1 hs hf hr, (elem_counted hS hE).done c s r hG h3 hs hf hr⟩, h2⟩
      · rintro c s id hG ⟨B, P, R, b, ⟨h1, h3⟩, h2⟩ hs; exact ⟨B, P, R, b, ⟨(FL.elem_work hS).fail c s id hG h1 hs, (elem_counted hS hE).fail c s id hG h3 hs⟩, h2⟩
      · rintro c en hG ⟨B, P, R, b, ⟨h1, h3⟩, h2⟩ hs; exact ⟨B, P, R, b, ⟨(FL.elem_work hS).save c en hG h1 hs, (elem_counted hS hE).save c en hG h3 hs⟩, h2⟩
      · rintro c ph hG ⟨B, P, R, b, ⟨h1, h3⟩, h2⟩; exact ⟨B, P, R, b, ⟨(FL.elem_work hS).phase c ph hG h1, (elem_counted hS hE).phase c ph hG h3⟩, h2⟩
      · rintro c enum ⟨hG, hK⟩ he
        have e1 : enum.length = (c.tasks ++ c.failed.map Prod.fst).length := by
          apply List.Perm.length_eq
          have nd := (List.nodup_append.1 (List.nodup_append.1 hG.1.nodup).2.1).1
          rw [List.perm_ext_iff_of_nodup he.1 nd]
          intro s; rw [he.2, hG.1.run]
        obtain ⟨h3, h4⟩ := hkey c hG hK
        constructor
        · change (c.state.result.minimizationResults.map SRes.reload).length + (enum ++ c.state.simplexQueue.base.queued).length ≤ _ + _ * (c.state.result.refined.flat).length
          simp only [outstanding, List.length_append, List.length_map] at h3 e1 ⊢
          omega
        · intro r hr
          obtain ⟨r0, h0, rfl⟩ := List.mem_map.1 hr
          rw [numFev_reload]
          exact h4 r0 h0
    · intro n c h
      obtain ⟨-, h1, -⟩ := FL.start_fields hS (by simp) h
      exact ⟨⟨_, _, _, _, ⟨FL.work_start hS (by simp) h, counted_start hS (by simp) h (by simp [startResults])⟩, Nat.le_add_right _ _⟩, by rw [h1]; simp⟩
    · intro n c c' hG hP h
      obtain ⟨-, h1, -⟩ := FL.start_fields hS hG.2 h
      refine ⟨⟨_, _, _, _, ⟨FL.work_start hS hG.2 h, counted_start hS hG.2 h ?_⟩, ?_⟩, by rw [h1]; exact hP.2⟩
      · cases hdk : c.disk with
        | none => simp [startResults]
        | some sv => exact (hP.2 sv hdk).2
      · cases hdk : c.disk with
        | none => exact Nat.le_add_right _ _
        | some sv =>
          have := (hP.2 sv hdk).1
          simp only [startSimplices, FL.startRefined, startResults, hforce] at this ⊢
          simpa [add_comm] using this
  obtain ⟨h1, h2⟩ := hkey c key.1 key.2.1
  rw [FL.stencilSize_eq'] at h1
  have h1 : c.state.result.minimizationResults.length + (c.tasks ++ c.failed.map Prod.fst ++ c.state.simplexQueue.base.queued).length ≤
      p.mesh.length + (p.stencil.getD []).length * c.state.result.refined.values.length := h1
  exact ⟨h1, (evaluations_le h2).trans (Nat.mul_le_mul_right _ (by omega))⟩

/-- **C110** (with rounding, in terms of the settings). -/
theorem C110_float (hd1 : 1 ≤ d) {P : NMParams} {G : Vec d → FVal → Prop} (hR : ∀ s r, Res s r → FloatMinimizationOf A.rnd P G s r) (hS : FloatSearch A p Res) (hg : FloatGeometry p Res)
    (hr : p.recheckPosDist = true) (hforce : p.forceInitialMesh = false) {n : ℕ} {c : Ctl d} (h : FL.Reach A p Res n c) :
    evaluations c.state.result.minimizationResults ≤ (p.mesh.length + (p.stencil.getD []).length *
      packingBound (reachBox p.coord) (p.featureSize / 3 * (1 - 1 / 2 ^ 39) - distanceError p.coord) p.recheckCountCutoff.toNat) * evaluationLimit d P :=
  (C110_evaluations_float hd1 hR hS hforce h).2.trans (Nat.mul_le_mul_right _ (Nat.add_le_add_left (Nat.mul_le_mul_left _ (C103_refinements_bounded hS hg hr h)) _))

end

/-! ## The default search -/

/-- **C110** (defaults): the default search, of all its sessions together, reports at most `1208 · (1000 + 30 · 6001³)` evaluations, whatever the gap function is. -/
theorem C110_default : ∃ p P, setup (SearchArgs.defaults) = .ok (p, P) ∧ ∀ (G : Vec 3 → FVal → Prop) (c : Ctl 3), ReachWith p (MinimizationOf P G) c →
    evaluations c.state.result.minimizationResults ≤ (1000 + 30 * 6001 ^ 3) * 1208 := by
  obtain ⟨p, P, hset, hg, hdi, hml, ⟨st, hst, hsl⟩, -⟩ := C71_default_search
  refine ⟨p, P, hset, fun G c h => ?_⟩
  have he : evaluationLimit 3 P = 1208 ∧ p.forceInitialMesh = false ∧ p.recheckPosDist = true ∧ p.recheckCountCutoff = 0 := by
    rw [setup_eq] at hset
    split_ifs at hset
    cases hset
    exact ⟨rfl, rfl, rfl, rfl⟩
  obtain ⟨-, -, -, -, -, -, hfs, -, hlim, hper, -⟩ := C71_settings hset
  have hfs : p.featureSize = 2e-3 := hfs
  have hlow : ∀ i, p.coord.lower i = 0 ∧ p.coord.upper i = 1 := fun i => by
    rw [(hlim i).1, (hlim i).2]
    simp [SearchArgs.defaults]
  have hb : packingBound p.coord (p.featureSize / 3) p.recheckCountCutoff.toNat = 6001 ^ 3 := by
    simp only [he.2.2.2, hfs, packingBound, (hlow _).1, (hlow _).2]
    have : ⌊((1 - 0 : ℝ) * ((3 : ℕ) + 1) / (2e-3 / 3))⌋₊ = 6000 := by
      rw [show ((1 - 0 : ℝ) * ((3 : ℕ) + 1) / (2e-3 / 3)) = ((6000 : ℕ) : ℝ) by norm_num]
      exact Nat.floor_natCast _
    simp only [this, Finset.prod_const, Finset.card_univ, Fintype.card_fin]
    rw [Int.toNat_zero, zero_add, one_mul]
  have := C110_periodic (by omega) hdi hg hper he.2.2.1 he.2.1 h
  rwa [hml, hst, hb, he.1, Option.getD_some, hsl] at this

/-! ## Non-vacuity -/

/-- the default search (which is periodic, and meets the hypotheses of C110_periodic: see the proof of C110_default) gets results -/
example : ∃ p P c, setup SearchArgs.defaults = .ok (p, P) ∧ ReachWith p (MinimizationOf P fun _ v => v = FVal.ofReal 0) c ∧ 0 < evaluations c.state.result.minimizationResults := by
  obtain ⟨p, P, c, h1, h2, h3⟩ := C71Demo.default_reach
  refine ⟨p, P, c, h1, h2, lt_of_lt_of_le ?_ (C110_at_least (by omega) h2)⟩
  have : c.state.result.minimizationResults ≠ [] := fun h => h3 (List.append_eq_nil_iff.1 h).1
  have := List.length_pos_iff.2 this
  omega

/-- with rounding -/
example : ∃ c, FL.Reach (C103Demo.arith C102Demo.rndEven) Demo.params C103Demo.MinRes0 0 c ∧ FloatSearch (C103Demo.arith C102Demo.rndEven) Demo.params C103Demo.MinRes0 ∧
    (∀ s r, C103Demo.MinRes0 s r → FloatMinimizationOf C102Demo.rndEven NMDemo.wideParams (fun _ v => v = FVal.ofReal 0) s r) ∧ FloatGeometry Demo.params C103Demo.MinRes0 ∧ Demo.params.recheckPosDist = true ∧
    Demo.params.forceInitialMesh = false ∧ 0 < evaluations c.state.result.minimizationResults := by
  obtain ⟨c, h1, h2⟩ := C103Demo.min_node C102Demo.rndEven_nearest
  refine ⟨c, h1, C103Demo.min_search C102Demo.rndEven_nearest, C103Demo.min_of C102Demo.rndEven_nearest,
    ⟨C103Demo.geometry.positive, C103Demo.geometry.long, C103Demo.min_near, C103Demo.geometry.small, C103Demo.geometry.dim⟩, rfl, rfl, ?_⟩
  have h3 : 2 ≤ C45Demo.res.numFev := (C40_limits le_rfl C45Demo.res_ok).2.2.1
  have : SRes.plain C45Demo.res ∈ c.state.result.minimizationResults := List.mem_append_left _ h2
  have := List.single_le_sum (l := c.state.result.minimizationResults.map SRes.numFev) (by simp) _ (List.mem_map_of_mem this)
  change C45Demo.res.numFev ≤ _ at this
  unfold evaluations
  omega

end NF
