import Verif.Model.Setup
import Verif.Props.EndToEnd
import Verif.Props.Mesh
import Verif.Props.Refinement

/-! # C71: the settings of a search, and what they guarantee about its nodes -/

noncomputable section
open Classical
namespace NF
open Spec CoordSys Container

variable {d : ℕ}

/-- the mesh sizes that `check_dimensions` makes of the argument -/
def meshSizes (a : SearchArgs d) : List ℤ :=
  match a.initialMeshSize with
  | .inl n => List.replicate d n
  | .inr l => l

theorem setup_eq (a : SearchArgs d) : setup a =
    if (meshSizes a).length = d ∧ ∀ m ∈ meshSizes a, 0 ≤ m then
      .ok ({ coord := CoordSys.ofLimits a.limits a.periodic, gapThreshold := a.gapThreshold, featureSize := a.featureSize,
             stencil := stencilOf (a.featureSize / 3) a.refinementStencil, numMinimizeParallel := a.numMinimizeParallel,
             recheckPosDist := a.recheckPosDist, recheckCountCutoff := a.recheckCountCutoff, simplexCheckCutoff := a.simplexCheckCutoff,
             saveFile := a.saveFile,
             mesh := initialSimplices (CoordSys.ofLimits a.limits a.periodic) fun i => ((meshSizes a).getD i 0).toNat,
             forceInitialMesh := a.forceInitialMesh }, nmParamsOf a.nelderMead a.gapThreshold (a.featureSize / 3))
    else .error .value := by
  unfold setup checkDimensions meshSizes
  cases a.initialMeshSize with
  | inl n =>
    simp only [List.length_ofFn, List.length_replicate, if_true, true_and]
    split_ifs with h1 h2 h2
    · obtain ⟨m, hm, hlt⟩ := h1
      exact absurd (h2 m hm) (by omega)
    · rfl
    · rfl
    · push Not at h1
      exact absurd h1 h2
  | inr l =>
    simp only [List.length_ofFn]
    by_cases hl : d = l.length
    · rw [if_pos hl]
      simp only
      split_ifs with h1 h2 h2
      · obtain ⟨m, hm, hlt⟩ := h1
        exact absurd (h2.2 m hm) (by omega)
      · rfl
      · rfl
      · push Not at h1
        exact absurd ⟨hl.symm, h1⟩ h2
    · rw [if_neg hl, if_neg (fun h => hl h.1.symm)]

/-- **C71**, errors: a search is refused, with a `ValueError`, if the number of mesh sizes is not the dimension or one of them is negative, and in no other case. -/
theorem C71_setup_errors (a : SearchArgs d) :
    ((∃ e, setup a = .error e) ↔ (∃ n < 0, 1 ≤ d ∧ a.initialMeshSize = .inl n) ∨
      ∃ l, a.initialMeshSize = .inr l ∧ (l.length ≠ d ∨ ∃ m ∈ l, m < 0)) ∧
    ∀ e, setup a = .error e → e = .value := by
  rw [setup_eq]
  constructor
  · cases h : a.initialMeshSize with
    | inl n =>
      have e : meshSizes a = List.replicate d n := by unfold meshSizes; rw [h]
      rw [e]
      simp only [List.length_replicate, true_and, List.mem_replicate]
      split_ifs with h1
      · simp only [reduceCtorEq, exists_false, false_iff]
        rintro (⟨m, hm, hd, e⟩ | ⟨l, e, -⟩)
        · cases e
          exact absurd (h1 n ⟨by omega, rfl⟩) (by omega)
        · cases e
      · push Not at h1
        obtain ⟨m, ⟨h2, rfl⟩, h3⟩ := h1
        exact ⟨fun _ => .inl ⟨m, h3, by omega, rfl⟩, fun _ => ⟨_, rfl⟩⟩
    | inr l =>
      have e : meshSizes a = l := by unfold meshSizes; rw [h]
      rw [e]
      split_ifs with h1
      · simp only [reduceCtorEq, exists_false, false_iff]
        rintro (⟨m, hm, hd, e⟩ | ⟨l', e, h2⟩)
        · cases e
        · cases e
          rcases h2 with h2 | ⟨m, hm, hlt⟩
          · exact h2 h1.1
          · exact absurd (h1.2 m hm) (by omega)
      · refine ⟨fun _ => .inr ⟨l, rfl, ?_⟩, fun _ => ⟨_, rfl⟩⟩
        by_contra hc
        push Not at hc
        exact h1 hc
  · intro e
    split_ifs <;> simp (config := { contextual := true })

/-- non-vacuity: two mesh sizes for three dimensions -/
example : setup { SearchArgs.defaults with initialMeshSize := .inr [10, 10] } = .error .value := by
  rw [setup_eq, if_neg]
  simp [meshSizes]

/-- **C71**, settings: what the search and the minimizer work with.  The tolerances are those given by the user, else `feature_size / 100` for positions and
`gap_threshold / 20` for values; all distances that decide about refinements and skipped simplices are `feature_size / 3`; a stencil is given in units of that. -/
theorem C71_settings {a : SearchArgs d} {p : CtlParams d} {P : NMParams} (h : setup a = .ok (p, P)) :
    P.xtol = a.nelderMead.xtol.getD (a.featureSize / 100) ∧
    P.ftol = a.nelderMead.ftol.getD (FVal.ofReal (a.gapThreshold / 20)) ∧
    (a.nelderMead.maxiter = none → P.iterLimit d = 200 * d) ∧ (a.nelderMead.maxfev = none → P.fevLimit d = 200 * d) ∧
    (a.nelderMead.fprimeCutoff = none → P.fprimeCutoff = none) ∧
    p.distCutoff = a.featureSize / 3 ∧ p.featureSize = a.featureSize ∧ p.gapThreshold = a.gapThreshold ∧
    (∀ i, p.coord.lower i = min (a.limits i).1 (a.limits i).2 ∧ p.coord.upper i = max (a.limits i).1 (a.limits i).2) ∧
    p.coord.periodic = a.periodic ∧
    (∀ st, a.refinementStencil = .given st → p.stencil = some (st.map fun s => s.map fun v => (a.featureSize / 3) • v)) ∧
    (a.refinementStencil = .auto → p.stencil = some ((autoStencil d).map fun s => s.map fun v => (a.featureSize / 3) • v)) ∧
    (p.stencil = none ↔ a.refinementStencil = .none) ∧
    (∀ n, a.initialMeshSize = .inl n → p.mesh = initialSimplices p.coord fun _ => n.toNat) := by
  rw [setup_eq] at h
  split_ifs at h with hm
  cases h
  have hscale : ∀ st : List (Simplex d), scaleStencil st (a.featureSize / 3) = st.map fun s => s.map fun v => (a.featureSize / 3) • v := by
    intro st
    unfold scaleStencil
    refine List.map_congr_left fun s _ => List.map_congr_left fun v _ => ?_
    funext k
    simp [mul_comm]
  refine ⟨?_, ?_, ?_, ?_, ?_, rfl, rfl, rfl, ?_, rfl, ?_, ?_, ?_, ?_⟩
  · simp only [nmParamsOf]
    congr 1
    ring
  · simp only [nmParamsOf]
    congr 2
    ring
  · intro h
    simp [nmParamsOf, h, NMParams.iterLimit, mul_comm]
  · intro h
    simp [nmParamsOf, h, NMParams.fevLimit, mul_comm]
  · intro h
    simp [nmParamsOf, h]
  · intro i
    simp only [CoordSys.ofLimits]
    split_ifs with hle
    · simp [hle]
    · have := le_of_not_ge hle
      simp [this]
  · intro st h
    simp only [h, stencilOf, hscale]
  · intro h
    simp only [h, stencilOf, hscale]
  · cases a.refinementStencil <;> simp [stencilOf]
  · intro n h
    have e : meshSizes a = List.replicate d n := by unfold meshSizes; rw [h]
    simp only [e]
    congr 1
    funext i
    simp [List.getD_eq_getElem?_getD]

/-- **C71**, options: every option the user gives for the minimizer or the search takes effect as given; an option which is not given, or given as `None`, has its default. -/
theorem C71_options {a : SearchArgs d} {p : CtlParams d} {P : NMParams} (h : setup a = .ok (p, P)) :
    (∀ n, a.nelderMead.maxiter = some (some n) → P.iterLimit d = n) ∧ (a.nelderMead.maxiter = none ∨ a.nelderMead.maxiter = some none → P.iterLimit d = 200 * d) ∧
    (∀ n, a.nelderMead.maxfev = some (some n) → P.fevLimit d = n) ∧ (a.nelderMead.maxfev = none ∨ a.nelderMead.maxfev = some none → P.fevLimit d = 200 * d) ∧
    (∀ x, P.fprimeCutoff = some x ↔ a.nelderMead.fprimeCutoff = some (some x)) ∧ (P.keepHistory = false ↔ a.nelderMead.keepHistory = some false) ∧
    p.numMinimizeParallel = a.numMinimizeParallel ∧ p.recheckPosDist = a.recheckPosDist ∧ p.recheckCountCutoff = a.recheckCountCutoff ∧
    p.simplexCheckCutoff = a.simplexCheckCutoff ∧ p.saveFile = a.saveFile ∧ p.forceInitialMesh = a.forceInitialMesh ∧
    (∀ l, a.initialMeshSize = .inr l → p.mesh = initialSimplices p.coord fun i => (l.getD i 0).toNat) := by
  rw [setup_eq] at h
  split_ifs at h with hm
  cases h
  refine ⟨?_, ?_, ?_, ?_, ?_, ?_, rfl, rfl, rfl, rfl, rfl, rfl, ?_⟩
  · intro n h; simp [nmParamsOf, h, NMParams.iterLimit]
  · rintro (h | h) <;> simp [nmParamsOf, h, NMParams.iterLimit, mul_comm]
  · intro n h; simp [nmParamsOf, h, NMParams.fevLimit]
  · rintro (h | h) <;> simp [nmParamsOf, h, NMParams.fevLimit, mul_comm]
  · intro x
    simp only [nmParamsOf]
    cases a.nelderMead.fprimeCutoff <;> simp
  · simp only [nmParamsOf]
    cases a.nelderMead.keepHistory <;> simp
  · intro l h
    have e : meshSizes a = l := by unfold meshSizes; rw [h]
    simp only [e]

/-- Options which are not the default ones are accepted. -/
example : ∃ p P, setup { SearchArgs.defaults with nelderMead := { NMKwargs.empty with maxiter := some (some 7), fprimeCutoff := some (some 3) }, initialMeshSize := .inr [1, 2, 3] } = .ok (p, P) ∧
    P.iterLimit 3 = 7 ∧ P.fprimeCutoff = some 3 := by
  obtain ⟨p, P, h⟩ : ∃ p P, setup { SearchArgs.defaults with nelderMead := { NMKwargs.empty with maxiter := some (some 7), fprimeCutoff := some (some 3) }, initialMeshSize := .inr [1, 2, 3] } = .ok (p, P) := by
    rw [setup_eq, if_pos]
    · exact ⟨_, _, rfl⟩
    · simp [meshSizes]
  refine ⟨p, P, h, ?_, ?_⟩
  · exact (C71_options h).1 7 rfl
  · exact ((C71_options h).2.2.2.2.1 3).2 rfl

/-! ## Precision -/

/-- what is remembered about a successful minimization: its last simplex -/
def ConvergedAt (cs : CoordSys d) (G : Vec d → FVal → Prop) (xtol : ℝ) (ftol : FVal) (r : SRes d) : Prop :=
  (∀ ch an pa, r = .joined ch an pa → pa = none) ∧
  (r.success = true → ∃ (S : Sim d) (F : Fin (d + 1) → FVal), r.simplexHistory.getLast? = some S ∧ SamePoint cs (S 0) r.pos ∧
    F 0 = r.value ∧ (∀ i, G (S i) (F i)) ∧ (∀ i k, |S i k - S 0 k| ≤ xtol) ∧ ∀ i, i ≠ 0 → Within ftol r.value (F i))

theorem convergedAt_reload {cs : CoordSys d} (hb : ProperBox cs) {G : Vec d → FVal → Prop} {xtol : ℝ} {ftol : FVal} {r : SRes d}
    (h : ConvergedAt cs G xtol ftol r) : ConvergedAt cs G xtol ftol (SRes.reload (movedTo r (cs.normalizePosition r.pos))) := by
  cases r with
  | plain m =>
    refine ⟨(by intro _ _ _ h; cases h), fun hs => ?_⟩
    obtain ⟨S, F, h1, h2, h3⟩ := h.2 hs
    exact ⟨S, F, h1, samePoint_trans h2 (samePoint_normalize hb _), h3⟩
  | joined ch an pa =>
    have := h.1 ch an pa rfl
    subst this
    exact ⟨by rintro _ _ _ h; cases h; rfl, h.2⟩

theorem eval_value (hd : 1 ≤ d) {P : NMParams} {f : ℕ → Vec d → FVal} {sim0 : Sim d} {r : MinRes d} {evals : List (Vec d × FVal)}
    (h : IsMinimization P f sim0 r evals) {x : Vec d} {v : FVal} (hm : (x, v) ∈ evals) : ∃ k, v = f k x := by
  obtain ⟨k, hk⟩ := List.mem_iff_getElem?.1 hm
  exact ⟨k, (C37_calls_recorded hd h).2 k x v hk⟩

theorem convergedAt_min (hd : 1 ≤ d) {cs : CoordSys d} {P : NMParams} (hc : P.fprimeCutoff = none) {G : Vec d → FVal → Prop} {s : Simplex d}
    {r : SRes d} (h : MinimizationOf P G s r) : ConvergedAt cs G P.xtol P.ftol r := by
  have hfresh := (foundAt_min (cs := cs) hd h).1
  obtain ⟨f, fake, sim0, hG, -, h⟩ := h
  refine ⟨hfresh, fun hs => ?_⟩
  cases fake with
  | none =>
    obtain ⟨r0, ev, rfl, h2⟩ := C44_no_fake h
    obtain ⟨S, F, h3, -, h5, h6, h7, h8, h9, -⟩ := C39_success_converged hd h2 hs (.inl hc)
    refine ⟨S, F, h3, by rw [h6]; exact samePoint_refl _ _, h7, fun i => ?_, fun i k => by rw [h6]; exact h8 i k, h9⟩
    obtain ⟨k, hk⟩ := eval_value hd h2 (h5 i)
    rw [hk]
    exact hG k _
  | some fake =>
    obtain ⟨first, second, ev1, ev2, S0, -, -, -, h2, e1, e2, e3, -, -, -, e7, -⟩ := C44_two_step hd h
    obtain ⟨S, F, h3, -, h5, h6, h7, h8, h9, -⟩ := C39_success_converged hd h2 (e3 ▸ hs) (.inl hc)
    refine ⟨S, F, ?_, by rw [h6, e1]; exact samePoint_refl _ _, h7.trans e2.symm, fun i => ?_, fun i k => by rw [h6]; exact h8 i k, by rw [e2]; exact h9⟩
    · rw [e7, List.getLast?_append, h3]; rfl
    · obtain ⟨k, hk⟩ := eval_value hd h2 (h5 i)
      rw [hk]
      exact hG _ _

theorem within_ofReal {t a b : ℝ} (h : Within (FVal.ofReal t) (FVal.ofReal a) (FVal.ofReal b)) : |a - b| ≤ t := by
  unfold Within FVal.le FVal.absDiff FVal.ofReal at h
  simp only at h
  rw [if_neg (by simp), if_neg (by
    rintro (h | h | h | h)
    exacts [EReal.coe_ne_top _ h, EReal.coe_ne_bot _ h, EReal.coe_ne_top _ h, EReal.coe_ne_bot _ h])] at h
  simpa [FVal.ofReal, WithTop.coe_le_coe] using h.2.2

theorem properBox_setup {a : SearchArgs d} {p : CtlParams d} {P : NMParams} (h : setup a = .ok (p, P)) (hl : ∀ i, (a.limits i).1 ≠ (a.limits i).2) :
    ProperBox p.coord := by
  obtain ⟨-, -, -, -, -, -, -, -, hlim, -⟩ := C71_settings h
  intro i
  rw [(hlim i).1, (hlim i).2]
  exact min_lt_max.2 (hl i)

/-- **C71**, precision: unless the user sets a derivative cutoff or an infinite `ftol`, every node of a search, at any time, comes with the simplex on which its minimization ended
(the last one of its `simplex_history`): its first vertex is the position of the node (before it was moved into the box), no vertex is farther from it than
`xtol` in any coordinate, and the gap function has returned finite values at all vertices, which differ from the value of the node by at most `ftol`. -/
theorem C71_precision (hd : 1 ≤ d) {a : SearchArgs d} {p : CtlParams d} {P : NMParams} (hset : setup a = .ok (p, P))
    (hl : ∀ i, (a.limits i).1 ≠ (a.limits i).2) {ftol : ℝ} (hft : a.nelderMead.ftol.getD (FVal.ofReal (a.gapThreshold / 20)) = FVal.ofReal ftol)
    (hc : a.nelderMead.fprimeCutoff = none) {G : Vec d → FVal → Prop} {c : Ctl d}
    (h : ReachWith p (MinimizationOf P G) c) {r : SRes d} (hr : r ∈ c.state.result.nodes.values) :
    ∃ (S : Sim d) (F : Fin (d + 1) → ℝ), r.simplexHistory.getLast? = some S ∧ SamePoint p.coord (S 0) r.pos ∧ r.value = FVal.ofReal (F 0) ∧
      F 0 ≤ a.gapThreshold ∧ (∀ i, G (S i) (FVal.ofReal (F i))) ∧
      (∀ i k, |S i k - S 0 k| ≤ a.nelderMead.xtol.getD (a.featureSize / 100)) ∧ ∀ i, |F i - F 0| ≤ ftol := by
  obtain ⟨e1, e2, -, -, e5, -, -, e8, -⟩ := C71_settings hset
  have hb := properBox_setup hset hl
  have hq := histQ_reach (Q := ConvergedAt p.coord G P.xtol P.ftol) (fun s r h => convergedAt_min hd (e5 hc) h)
    (fun r h => convergedAt_reload hb h) h
  obtain ⟨r0, h0, e⟩ := histQ_results hq (List.mem_append_left _ hr)
  obtain ⟨hs, -⟩ := C45_nodes_sound hd hb h hr
  have hft' : P.ftol ≠ FVal.inf := by
    rw [e2, hft]
    simp [FVal.ofReal, FVal.inf]
  obtain ⟨v, hv, hv2, -⟩ := C45_nodes_below_threshold hd hb hft' (e5 hc) h hr
  have hs0 : r0.success = true := by rw [e] at hs; simpa [movedTo] using hs
  obtain ⟨S, F, h1, h2, h3, h4, h5, h6⟩ := h0.2 hs0
  have hval : r.value = r0.value := by rw [e]; simp [movedTo]
  have hfin : ∀ i, Finite (F i) := by
    intro i
    by_cases hi : i = 0
    · rw [hi, h3, ← hval]; exact ⟨v, hv⟩
    · exact (finite_of_within hft' (h6 i hi)).2
  choose F' hF' using hfin
  have h00 : r.value = FVal.ofReal (F' 0) := by rw [hval, ← h3, hF' 0]
  refine ⟨S, F', ?_, ?_, h00, ?_, ?_, ?_, ?_⟩
  · rw [e]
    cases r0 <;> exact h1
  · rw [e]
    simp only [movedTo, SRes.pos_setPos]
    exact samePoint_trans h2 (samePoint_normalize hb _)
  · rw [h00] at hv
    have : F' 0 = v := by
      simpa [FVal.ofReal] using hv
    rw [this, ← e8]
    exact hv2
  · intro i
    rw [← hF' i]
    exact h4 i
  · intro i k
    rw [← e1]
    exact h5 i k
  · have key : ∀ i, i ≠ 0 → |F' i - F' 0| ≤ ftol := by
      intro i hi
      have := h6 i hi
      rw [e2, hft, ← hval, h00, hF' i] at this
      rw [abs_sub_comm]
      exact within_ofReal this
    intro i
    by_cases hi : i = 0
    · obtain ⟨n, rfl⟩ : ∃ n, d = n + 1 := ⟨d - 1, by omega⟩
      rw [hi]
      simpa using (abs_nonneg _).trans (key 1 (by simp))
    · exact key i hi

/-- **C71**, where the minimizations of a search start that uses the stencil `'auto'`: each simplex that it has scheduled or skipped is one of the initial mesh, or all of its vertices are
farther than `feature_size / 3` from a refined position. -/
theorem C71_start_simplices {a : SearchArgs d} {p : CtlParams d} {P : NMParams} (hset : setup a = .ok (p, P))
    (hauto : a.refinementStencil = .auto) (hf : 0 < a.featureSize) (hl : ∀ i, (a.limits i).1 ≠ (a.limits i).2)
    (hsz : a.periodic = true → ∀ i, 13 / 9 * a.featureSize < |(a.limits i).2 - (a.limits i).1|) {n : ℤ} (hm : a.initialMeshSize = .inl n)
    {c : Ctl d} (h : ReachFrom p (startFresh p) c) {s : Simplex d} (hs : s ∈ scheduledSimplices c.log ∨ s ∈ handled c.log) :
    (∃ s0 ∈ p.mesh, s.Perm s0) ∨ ∃ x ∈ refinedPositions c.log, ∀ v ∈ s, a.featureSize / 3 < p.coord.distance x v := by
  obtain ⟨-, -, -, -, -, -, e7, -, hlim, hper, -, hst, -, hmesh⟩ := C71_settings hset
  have hb := properBox_setup hset hl
  have hst' : p.stencil = some (scaleStencil (autoStencil d) (p.featureSize / 3)) := by
    rw [hst hauto, e7]
    unfold scaleStencil
    congr 1
    refine List.map_congr_left fun s _ => List.map_congr_left fun v _ => ?_
    funext k
    simp [mul_comm]
  have hdist : DistinctInput p := C47_distinct_input hb (by rw [e7]; exact hf) (hmesh n hm) (.inr hst')
  obtain ⟨-, -, h3, h4⟩ := C23_accounting hdist none none (by simp) h
  have hmem : s ∈ handled c.log ++ outstanding c := by
    rcases hs with hs | hs
    · have := h4.mem_iff.1 hs
      rw [List.mem_append, List.mem_append] at this
      rw [List.mem_append]
      rcases this with (h1 | h1) | h1
      · left
        clear h3 h4 hs h
        generalize c.log = l at h1
        induction l with
        | nil => simp [completedSimplices] at h1
        | cons x l ih => cases x <;> simp_all [completedSimplices, handled] <;> tauto
      · right; simp [outstanding, h1]
      · right; simp only [outstanding, List.mem_append]; exact .inl (.inr h1)
    · exact List.mem_append_left _ hs
  obtain ⟨s0, hs0, e⟩ := (h3 s).1 hmem
  have hperm : s.Perm s0 := by rw [e]; exact List.mergeSort_perm _ _
  rcases List.mem_append.1 hs0 with h1 | h1
  · exact .inl ⟨s0, h1, hperm⟩
  · right
    unfold stencilSimplices at h1
    rw [hst'] at h1
    obtain ⟨x, hx, h2⟩ := List.mem_flatMap.1 h1
    refine ⟨x, hx, fun v hv => ?_⟩
    rw [← e7]
    refine C49_auto_outside_cutoff hb (by rw [e7]; exact hf) ?_ x (s := s0) ?_ (hperm.mem_iff.1 hv)
    · intro hp i
      rw [hper] at hp
      rw [(hlim i).1, (hlim i).2, e7, max_sub_min_eq_abs']
      have := hsz hp i
      rwa [abs_sub_comm] at this
    · obtain ⟨t, ht, rfl⟩ := List.mem_map.1 h2
      exact List.mem_map.2 ⟨t, ht, rfl⟩

/-! ## The default search -/

/-- **C71**: a call of `search.run` with nothing but a gap function.  It searches the periodic unit cube, from 1000 simplices, with 30 around each refined position.  Every node, at any time, lies in the
cube, has a finite value of at most 1e-6 that the gap function has returned there, and comes with a simplex none of whose vertices is more than 2e-5 away in any coordinate, with values that differ by at most
5e-8.  Refined positions are at least 2e-3 / 3 apart, and when the search returns each node is nearer than that to one of them. -/
theorem C71_default_search : ∃ p P, setup SearchArgs.defaults = .ok (p, P) ∧ GoodGeometry p ∧ DistinctInput p ∧ p.mesh.length = 1000 ∧
    (∃ st, p.stencil = some st ∧ st.length = 30) ∧
    (∀ (G : Vec 3 → FVal → Prop) (c : Ctl 3), ReachWith p (MinimizationOf P G) c → ∀ r ∈ c.state.result.nodes.values,
      (∀ i, 0 ≤ r.pos i ∧ r.pos i < 1) ∧ ∃ (S : Sim 3) (F : Fin 4 → ℝ) (k : Fin 3 → ℤ), r.simplexHistory.getLast? = some S ∧
        (∀ i, S 0 i = r.pos i + k i) ∧ r.value = FVal.ofReal (F 0) ∧ F 0 ≤ 1e-6 ∧
        ∀ i, G (S i) (FVal.ofReal (F i)) ∧ (∀ j, |S i j - S 0 j| ≤ 2e-5) ∧ |F i - F 0| ≤ 5e-8) ∧
    (∀ c, Reach p c → c.state.result.refined.values.Pairwise fun a b => 2e-3 / 3 ≤ p.coord.distance a b) ∧
    (∀ c, ReachFrom p (startFresh p) c → (scheduledSimplices c.log).length ≤ 1000 + 30 * 6001 ^ 3) ∧
    (∀ c, Reach p c → c.phase = .returned → ∀ r ∈ c.state.result.nodes.values, ∃ q ∈ c.state.result.refined.values, p.coord.distance r.pos q < 2e-3 / 3) := by
  obtain ⟨⟨p, P⟩, hset⟩ : ∃ q, setup SearchArgs.defaults = .ok q := by
    cases h : setup SearchArgs.defaults with
    | ok q => exact ⟨q, rfl⟩
    | error e =>
      rcases (C71_setup_errors SearchArgs.defaults).1.1 ⟨e, h⟩ with ⟨n, hn, -, e⟩ | ⟨l, e, -⟩
      · cases e; omega
      · cases e
  obtain ⟨-, -, -, -, -, -, e7, e8, hlim, hper, -, hst, -, hmesh⟩ := C71_settings hset
  have hl : ∀ i, (SearchArgs.defaults.limits i).1 ≠ (SearchArgs.defaults.limits i).2 := fun i => by simp [SearchArgs.defaults]
  have hb := properBox_setup hset hl
  have hper' : p.coord.periodic = true := hper
  have hfs : p.featureSize = 2e-3 := e7
  have hlow : ∀ i, p.coord.lower i = 0 ∧ p.coord.upper i = 1 := fun i => by
    rw [(hlim i).1, (hlim i).2]
    simp [SearchArgs.defaults]
  have hst' : p.stencil = some (scaleStencil (autoStencil 3) (p.featureSize / 3)) := by
    rw [hst rfl, e7]
    unfold scaleStencil
    congr 1
    refine List.map_congr_left fun s _ => List.map_congr_left fun v _ => ?_
    funext k
    simp [mul_comm]
  have hg : GoodGeometry p := ⟨hb, by rw [hfs]; norm_num, .inl hper'⟩
  have hdist : DistinctInput p := C47_distinct_input hb hg.2.1 (hmesh 10 rfl) (.inr hst')
  have hml : p.mesh.length = 1000 := by
    rw [hmesh 10 rfl, (C46_mesh_size_and_position hb _).1, Finset.prod_const, Finset.card_univ, Fintype.card_fin]
    rfl
  have hsl : ((scaleStencil (autoStencil 3) (p.featureSize / 3))).length = 30 := by
    simp [scaleStencil, autoStencil, sphereStencil, fibonacciPoints]
  have hrp : p.recheckPosDist = true ∧ p.recheckCountCutoff = 0 := by
    rw [setup_eq] at hset
    split_ifs at hset
    cases hset
    exact ⟨rfl, rfl⟩
  refine ⟨p, P, hset, hg, hdist, hml, ⟨_, hst', hsl⟩, ?_, ?_, ?_, ?_⟩
  · intro G c hc r hr
    have hbox := (C45_nodes_sound (by omega) hb hc hr).2.2.1 hper'
    obtain ⟨S, F, h1, h2, h3, h4, h5, h6, h7⟩ := C71_precision (by omega) hset hl rfl rfl hc hr
    refine ⟨fun i => ?_, ?_⟩
    · have := hbox i
      rw [(hlow i).1, (hlow i).2] at this
      exact this
    · unfold SamePoint at h2
      rw [if_pos hper'] at h2
      obtain ⟨k, hk⟩ := h2
      refine ⟨S, F, fun i => -k i, h1, fun i => ?_, h3, ?_, fun i => ⟨h5 i, fun j => (h6 i j).trans ?_, (h7 i).trans ?_⟩⟩
      · have := congrFun hk i
        simp only [shift, (hlow i).1, (hlow i).2] at this
        rw [this]
        push_cast
        ring
      · exact h4
      · simp only [SearchArgs.defaults, NMKwargs.empty, Option.getD_none]; norm_num
      · simp only [SearchArgs.defaults]; norm_num
  · intro c hc
    have := C26_centres_keep_distance hdist hg hrp.1 hrp.2 hc
    rwa [hfs] at this
  · intro c hc
    have := C28_work_bounded hdist hg hper' hrp.1 hc
    rw [hml, hst'] at this
    simp only [Option.getD_some, hrp.2, hfs, packingBound, (hlow _).1, (hlow _).2] at this
    refine this.trans (le_of_eq ?_)
    have : ⌊((1 - 0 : ℝ) * ((3 : ℕ) + 1) / (2e-3 / 3))⌋₊ = 6000 := by
      rw [show ((1 - 0 : ℝ) * ((3 : ℕ) + 1) / (2e-3 / 3)) = ((6000 : ℕ) : ℝ) by norm_num]
      exact Nat.floor_natCast _
    rw [hfs] at hsl
    rw [hsl]
    simp only [this, Finset.prod_const, Finset.card_univ, Fintype.card_fin]
    rw [Int.toNat_zero, zero_add, one_mul]
  · intro c hc hret
    have := C27_nodes_covered hdist hg (by rw [hst']; simp) (.inr (by rw [hrp.2])) hc hret
    rwa [hfs] at this

/-! ### Non-vacuity: the default search finds a node of the constant function 0 -/

namespace C71Demo

/-- the constant function 0 -/
def zero : ℕ → Vec d → FVal := fun _ _ => FVal.ofReal 0

theorem absDiff_zero : FVal.absDiff (FVal.ofReal 0) (FVal.ofReal 0) = FVal.ofReal 0 := by
  simp only [FVal.ofReal, FVal.absDiff]
  rw [if_neg (by simp), if_neg (by
    rintro (h | h | h | h)
    exacts [EReal.coe_ne_top _ h, EReal.coe_ne_bot _ h, EReal.coe_ne_top _ h, EReal.coe_ne_bot _ h])]
  simp

/-- a constant function makes every iteration shrink the simplex -/
theorem move_zero {s : NMState d} (hf : s.fsim = fun _ => FVal.ofReal 0) : nmMove zero s = nmShrink zero s ((s.tr.call zero (nmPoint s.sim 1)).call zero (nmPoint s.sim (-0.5))) := by
  have hlt : ¬ FVal.lt (FVal.ofReal 0) (FVal.ofReal 0) := fun h => lt_irrefl _ h.2.2
  unfold nmMove
  simp only [zero, hf]
  rw [if_neg hlt, if_neg hlt, if_neg hlt, if_neg hlt]

/-- With the constant function 0, a simplex of size at most 1, and tolerances and limits that allow 17 iterations, a minimization succeeds. -/
theorem zero_success {P : NMParams} (hx : 2e-5 ≤ P.xtol) (hft : FVal.le (FVal.ofReal 0) P.ftol) (hc : P.fprimeCutoff = none) (hi : 18 ≤ P.iterLimit d)
    (hfev : d + 1 + 17 * (d + 2) < P.fevLimit d) {sim0 : Sim d} (hs : ∀ i j k, |sim0 i k - sim0 j k| ≤ 1) {argsort : Argsort d} :
    (rootNelderMead P argsort zero sim0).success = true ∧ (rootNelderMead P argsort zero sim0).value = FVal.ofReal 0 := by
  have key : (nmRun P argsort zero sim0).fsim = (fun _ => FVal.ofReal 0) ∧ (nmRun P argsort zero sim0).iterations ≤ 17 ∧
      (nmRun P argsort zero sim0).tr.ncalls ≤ d + 1 + 17 * (d + 2) := by
    have := nmLoop_induct (P := P) (argsort := argsort) (f := zero) (fun s => s.fsim = (fun _ => FVal.ofReal 0) ∧ 1 ≤ s.iterations ∧ s.iterations ≤ 17 ∧
      s.tr.ncalls ≤ d + 1 + (s.iterations - 1) * (d + 2) ∧ ∀ i j k, |s.sim i k - s.sim j k| ≤ 1 / 2 ^ (s.iterations - 1)) ?_ (nmInit P argsort zero sim0) ?_
    · obtain ⟨h1, h2, h3, h4, -⟩ := this
      refine ⟨h1, h3, h4.trans ?_⟩
      have : (nmLoop P argsort zero (nmInit P argsort zero sim0)).iterations - 1 ≤ 17 := by omega
      have := Nat.mul_le_mul_right (d + 2) this
      omega
    · rintro s ⟨h1, h2, h3, h4, h5⟩ hcont
      have hmove := move_zero h1
      have hsim : ∀ i, (nmMove zero s).sim i = fun k => s.sim 0 k + 0.5 * (s.sim i k - s.sim 0 k) := by
        intro i
        rw [hmove]
        refine Fin.cases ?_ (fun j => ?_) i
        · funext k; simp [nmShrink]
        · funext k; simp [nmShrink]
      have hfs : (nmMove zero s).fsim = fun _ => FVal.ofReal 0 := by
        rw [hmove]
        funext i
        refine Fin.cases ?_ (fun j => ?_) i
        · simp [nmShrink, h1]
        · simp [nmShrink, zero]
      have hnc : (nmMove zero s).tr.ncalls = s.tr.ncalls + (d + 2) := by
        rw [hmove]
        simp only [nmShrink, ncalls_calls, List.length_ofFn, Trace.call]
        omega
      have hit : (nmIter P argsort zero s).iterations = s.iterations + 1 := by simp [nmIter, nmSort, nmMove_iterations]
      have hlt : s.iterations ≤ 16 := by
        by_contra hcon
        have e17 : s.iterations = 17 := by omega
        apply hcont.2.2.2
        refine ⟨fun i k => (h5 _ _ _).trans ?_, fun i => ?_⟩
        · rw [e17]
          refine le_trans ?_ hx
          norm_num
        · rw [h1]
          rw [absDiff_zero]
          exact hft
      refine ⟨?_, by omega, by omega, ?_, ?_⟩
      · funext i
        simp [nmIter, nmSort, hfs]
      · rw [hit]
        change (nmMove zero s).tr.ncalls ≤ _
        rw [hnc, show s.iterations + 1 - 1 = (s.iterations - 1) + 1 by omega, Nat.succ_mul]
        omega
      · intro i j k
        rw [hit, show s.iterations + 1 - 1 = (s.iterations - 1) + 1 by omega, pow_succ]
        simp only [nmIter, nmSort, Function.comp, hsim]
        have := h5 (argsort (nmMove zero s).fsim i) (argsort (nmMove zero s).fsim j) k
        rw [show ∀ a b c : ℝ, a + 0.5 * (b - a) - (a + 0.5 * (c - a)) = (b - c) * (1 / 2) by intro a b c; ring, abs_mul]
        rw [abs_of_pos (by norm_num : (0 : ℝ) < 1 / 2), ← one_div_mul_one_div]
        exact mul_le_mul_of_nonneg_right this (by norm_num)
    · refine ⟨rfl, le_rfl, by simp [nmInit, nmSort], ?_, fun i j k => ?_⟩
      · simp [nmInit, nmSort, ncalls_calls]
      · simpa [nmInit, nmSort] using hs _ _ k
  obtain ⟨h1, h2, h3⟩ := key
  have hst : nmStatus P (nmRun P argsort zero sim0) = 0 := by
    unfold nmStatus
    rw [if_neg (by omega), if_neg (by omega), if_neg (by simp [fprimeExceeded, hc])]
  refine ⟨by simp [rootNelderMead, nmResult, hst], ?_⟩
  change npMin (nmRun P argsort zero sim0).fsim = _
  rw [npMin_eq (by rw [h1]; exact monotone_const), h1]
  simp [NMDemo.ofReal_ne_nan]

/-- the first scheduling round of a search starts a minimization -/
theorem first_round {p : CtlParams d} (hdi : DistinctInput p) (hg : GoodGeometry p) (hst : p.stencil ≠ none) (hN : 1 ≤ p.numMinimizeParallel) (hm : p.mesh ≠ []) :
    ∃ c1, Step p (startFresh p) c1 ∧ c1.phase = .running ∧ (∀ s r, LogEntry.completed s r ∉ c1.log) ∧
      ∃ s ∈ c1.tasks, ∃ s0 ∈ p.mesh, s = normalizeSimplex s0 := by
  have hq0 : (startFresh p).state.simplexQueue.base.queued ≠ [] := by
    change normalizeSimplices p.mesh ≠ []
    simpa [normalizeSimplices] using hm
  have hn0 : (startFresh p).state.result.nodes.values = [] := (create_contents p.coord [] p.gapThreshold p.distCutoff []).1
  have hstep : ∀ c c' : Ctl d, (Acct p c ∧ (c.state.positionQueue.queued = [] ∧ ∀ x, LogEntry.refined x ∉ c.log) ∧ c.phase = .running ∧ (∀ s r, LogEntry.completed s r ∉ c.log) ∧ c.state.result.nodes.values = [] ∧
      c.failed = [] ∧ (c.tasks ≠ [] ∨ c.state.simplexQueue.base.queued ≠ [])) → fillStep p c = .next c' →
      (Acct p c' ∧ (c'.state.positionQueue.queued = [] ∧ ∀ x, LogEntry.refined x ∉ c'.log) ∧ c'.phase = .running ∧ (∀ s r, LogEntry.completed s r ∉ c'.log) ∧ c'.state.result.nodes.values = [] ∧
      c'.failed = [] ∧ (c'.tasks ≠ [] ∨ c'.state.simplexQueue.base.queued ≠ [])) := by
    rintro c c' ⟨ha, h0, h1, h2, h3, h4, h5⟩ hs
    refine ⟨ha.fillStep hdi hs, ?_⟩
    obtain ⟨-, ⟨x, rest, hq, -, rfl⟩ | ⟨x, rest, hq, hchk, rfl⟩ | ⟨pos, rest, st, hq, hpq, -, hst, rfl⟩ |
      ⟨pos, rest, hq, hpq, -, -, rfl⟩⟩ := fillStep_next hs
    · exact ⟨by simpa using h0, h1, by simpa using h2, h3, h4, .inl (by simp)⟩
    · exfalso
      unfold checkSimplex at hchk
      have e : ∀ v, ((c.state.result.neighbourDistances v).any fun x => decide (x < p.distCutoff)) = false := fun v => by
        rw [Bool.eq_false_iff]
        intro h
        obtain ⟨r, hr, -⟩ := (any_near_iff ha.cont hg.1 (goodGeometry_dc hg) (goodGeometry_sz hg) v).1 h
        rw [show c.state.result.nodes.flat = [] from h3] at hr
        cases hr
      have : ∀ (n : ℤ) (l : List (Vec d)), checkSimplexLoop p c.state.result n l = true := by
        intro n l
        induction l with
        | nil => rfl
        | cons v l ih => rw [checkSimplexLoop, if_neg (by rw [e]; simp)]; exact ih
      rw [this] at hchk
      cases hchk
    · rw [h0.1] at hpq; cases hpq
    · rw [h0.1] at hpq; cases hpq
  rcases hfill : fill p (startFresh p) with ⟨e, c1⟩
  obtain ⟨c2, hc2, ⟨he, rfl, hstop⟩ | ⟨err, he, hraise⟩⟩ := fill_induction hstep (startFresh p)
    ⟨(good_reach hdi .start).1, ⟨rfl, by simp [startFresh, startFrom]⟩, rfl, by simp [startFresh, startFrom], hn0, rfl, .inr hq0⟩ _ _ hfill
  · subst he
    have hs : Step p (startFresh p) c1 := .tickFill _ _ rfl rfl (Or.inl fun h => hq0 (by simpa [ObjQueue.hasQueued] using h.2)) hfill
    refine ⟨c1, hs, hc2.2.2.1, hc2.2.2.2.1, ?_⟩
    have htasks : c1.tasks ≠ [] := by
      rcases fillStep_stop hstop with h3 | ⟨h3, h4⟩
      · have hn := numRunning_eq hc2.1
        rw [hc2.2.2.2.2.2.1] at hn
        intro h
        rw [h] at hn
        simp at hn
        omega
      · exact hc2.2.2.2.2.2.2.resolve_right (fun h => h h3)
    obtain ⟨s, hs'⟩ := List.exists_mem_of_ne_nil _ htasks
    refine ⟨s, hs', ?_⟩
    obtain ⟨s0, hs0, e⟩ := ((C23_accounting hdi none none (by simp) (.tail .refl hs)).2.2.1 s).1
      (List.mem_append_right _ (by simp [outstanding, hs']))
    rcases List.mem_append.1 hs0 with h1 | h1
    · exact ⟨s0, h1, e⟩
    · have hnone : refinedPositions c1.log = [] := by
        have := hc2.2.1.2
        generalize c1.log = l at this
        induction l with
        | nil => rfl
        | cons x l ih =>
          have h1 := ih fun y hy => this y (List.mem_cons_of_mem _ hy)
          cases x with
          | refined y => exact absurd List.mem_cons_self (this y)
          | _ => exact h1
      rw [hnone] at h1
      unfold stencilSimplices at h1
      split at h1 <;> simp at h1
  · exact absurd (fillStep_raise hraise).2.1 hst

/-- the default search of the constant function 0 reaches a state with a node -/
theorem default_reach : ∃ p P c, setup SearchArgs.defaults = .ok (p, P) ∧ ReachWith p (MinimizationOf P fun _ v => v = FVal.ofReal 0) c ∧
    c.state.result.nodes.values ≠ [] := by
  obtain ⟨p, P, hset, hg, hdi, hml, ⟨st, hst, -⟩, -⟩ := C71_default_search
  obtain ⟨e1, e2, e3, e4, e5, -, -, e8, hlim, -, -, -, -, hmesh⟩ := C71_settings hset
  have hN : p.numMinimizeParallel = 50 := by
    rw [setup_eq] at hset
    split_ifs at hset
    cases hset
    rfl
  obtain ⟨c1, hs1, hph, hlog, s, hs, s0, hs0, e⟩ := first_round hdi hg (by rw [hst]; simp) (by omega) (by intro h; rw [h] at hml; simp at hml)
  have hperm : s.Perm s0 := by rw [e]; exact List.mergeSort_perm _ _
  obtain ⟨hlen, ⟨v, rest, -, -, hnear⟩, -⟩ := (C46_mesh_size_and_position hg.1 _).2 s0 (by rw [hmesh 10 rfl] at hs0; exact hs0)
  have hlen' : s.length = 4 := hperm.length_eq.trans hlen
  set sim : Sim 3 := fun i => s.get (Fin.cast hlen'.symm i) with hsim
  have hseq : s = List.ofFn sim := by
    refine List.ext_getElem (by simp [hlen']) fun i h1 h2 => ?_
    rw [List.getElem_ofFn]
    rfl
  have hsmall : ∀ i j k, |sim i k - sim j k| ≤ 1 := by
    intro i j k
    have h1 := hnear (sim i) (hperm.mem_iff.1 (List.get_mem _ _)) k
    have h2 := hnear (sim j) (hperm.mem_iff.1 (List.get_mem _ _)) k
    rw [(hlim k).1, (hlim k).2] at h1 h2
    simp only [SearchArgs.defaults] at h1 h2
    rw [max_eq_right (by norm_num : (0 : ℝ) ≤ 1), min_eq_left (by norm_num : (0 : ℝ) ≤ 1)] at h1 h2
    have h10 : (((10 : ℤ).toNat : ℕ) : ℝ) = 10 := by
      rw [show (10 : ℤ).toNat = 10 from rfl]
      norm_num
    rw [h10] at h1 h2
    have h20 : (1 - 0 : ℝ) / (2 * 10) ≤ 1 := by norm_num
    rw [abs_le]
    constructor <;> linarith [h1.1, h1.2, h2.1, h2.2]
  set res := rootNelderMead P (fun v => Tuple.sort v) zero sim with hres
  have hok := zero_success (P := P) (argsort := fun v => Tuple.sort v) (sim0 := sim) (by rw [e1]; simp only [SearchArgs.defaults, NMKwargs.empty, Option.getD_none]; norm_num)
    (by
      rw [e2]
      refine ⟨NMDemo.ofReal_ne_nan _, NMDemo.ofReal_ne_nan _, (NMDemo.ofReal_lt.2 ?_).le⟩
      simp only [SearchArgs.defaults]; norm_num) (e5 rfl) (by rw [e3 rfl]; norm_num) (by rw [e4 rfl]; norm_num) hsmall
  rw [← hres] at hok
  have hrun : s ∈ c1.state.simplexQueue.running := ((good_reach hdi (.tail .start (.step hs1))).1.run s).1 (List.mem_append_left _ hs)
  refine ⟨p, P, taskDone p c1 s (.plain res), hset, ?_, ?_⟩
  · refine .tail (.tail .start (.step hs1) fun s r h => absurd h (hlog s r)) (.step (.done c1 s _ (by rw [hph]; simp) hs (by intro _ _ _ h; cases h))) ?_
    intro s' r' h
    have : s' = s ∧ r' = .plain res := by
      rw [taskDone_of_mem _ hrun] at h
      simpa [hlog] using h
    obtain ⟨rfl, rfl⟩ := this
    exact ⟨zero, none, sim, fun _ _ => rfl, hseq, fun v => Tuple.sort v, fun v => Tuple.monotone_sort v, rfl⟩
  · have hres' : (taskDone p c1 s (.plain res)).state.result = (c1.state.result.addResult (.plain res)).1 := by
      unfold taskDone
      simp only
      split <;> exact (processResult_cases p c1.state _).1
    have hgap : c1.state.result.gapThreshold = 1e-6 := by
      rw [(good_reach hdi (.tail .start (.step hs1))).1.cont.gap, e8]
      rfl
    have hn : IsNode c1.state.result.gapThreshold (SRes.plain res) := by
      refine ⟨hok.1, ?_⟩
      change ¬ FVal.gt res.value _
      rw [hok.2, hgap]
      intro h
      have := NMDemo.flt.1 h
      norm_num at this
    rw [hres', Container.addResult_def, if_pos hn]
    simp [CellList.values, CellList.addPoint]

end C71Demo

end NF
