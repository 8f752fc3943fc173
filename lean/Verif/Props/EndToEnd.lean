import Verif.Props.NelderMead
import Verif.Props.Coord
import Verif.Lemmas.Demo

/-! # C45: the nodes that a search returns -/

noncomputable section
open Classical
namespace NF
open Spec CoordSys Container

variable {d : ℕ}

/-- the container has a history of calls whose results all have the property `Q` and so have those in the save file -/
def HistQ (p : CtlParams d) (Q : SRes d → Prop) (c : Ctl d) : Prop :=
  (∃ ops, SameC c.state.result (history p.coord p.gapThreshold p.distCutoff ops) ∧ ∀ r ∈ resultsOf ops, Q r) ∧
  (∀ sv, c.disk = some sv → ∀ r ∈ sv.results, Q r)

/-- the results of the current session are results of the given kind -/
def LogOk (R : Simplex d → SRes d → Prop) (c : Ctl d) : Prop := ∀ s r, LogEntry.completed s r ∈ c.log → R s r

theorem histQ_results {p : CtlParams d} {Q : SRes d → Prop} {c : Ctl d} (h : HistQ p Q c) {r : SRes d}
    (hr : r ∈ c.state.result.minimizationResults) : ∃ r0, Q r0 ∧ r = movedTo r0 (p.coord.normalizePosition r0.pos) := by
  obtain ⟨⟨ops, h1, h2⟩, -⟩ := h
  obtain ⟨-, -, -, f4, f5, -⟩ := h1.fields
  have hr' : r ∈ (history p.coord p.gapThreshold p.distCutoff ops).minimizationResults := by
    simpa only [Container.minimizationResults, f4, f5] using hr
  have := (C12_minimization_results_complete p.coord p.gapThreshold p.distCutoff ops).mem_iff.1 hr'
  obtain ⟨r0, h0, rfl⟩ := List.mem_map.1 this
  exact ⟨r0, h2 r0 h0, rfl⟩

theorem histQ_elem {p : CtlParams d} {Q : SRes d → Prop} {R : Simplex d → SRes d → Prop} (hRQ : ∀ s r, R s r → Q r)
    (hre : ∀ r, Q r → Q (SRes.reload (movedTo r (p.coord.normalizePosition r.pos)))) :
    Elem p (fun _ => True) (fun c => LogOk R c → HistQ p Q c) where
  fill c c' _ h hs := by
    obtain ⟨-, ⟨x, rest, hq, -, rfl⟩ | ⟨x, rest, hq, -, rfl⟩ | ⟨pos, rest, st, hq, hpq, -, hst, rfl⟩ |
      ⟨pos, rest, hq, hpq, -, -, rfl⟩⟩ := fillStep_next hs
    all_goals
      intro hl
      have h' := h (fun s r hm => hl s r (List.mem_append_left _ hm))
    · exact h'
    · exact h'
    · obtain ⟨⟨ops, h1, h2⟩, h3⟩ := h'
      refine ⟨⟨ops ++ [.setRefined pos], ?_, ?_⟩, h3⟩
      · rw [history_snoc]; exact h1.setRefined pos
      · simpa [resultsOf_append, resultsOf] using h2
    · exact h'
  raise c e c' _ h hs := by
    obtain ⟨-, -, pos, rest, -, rfl⟩ := fillStep_raise hs
    exact h
  done c s r _ h hs hr := by
    intro hl
    have hlog : ∀ e ∈ c.log, e ∈ (taskDone p c s r).log := by
      unfold taskDone; simp only; split <;> simp_all
    have hmem : LogEntry.completed s r ∈ (taskDone p c s r).log := by
      unfold taskDone; simp only; split <;> simp
    obtain ⟨⟨ops, h1, h2⟩, h3⟩ := h (fun s r hm => hl s r (hlog _ hm))
    have hres : (taskDone p c s r).state.result = (c.state.result.addResult r).1 := by
      unfold taskDone
      simp only
      split <;> exact (processResult_cases p c.state r).1
    refine ⟨⟨ops ++ [.addResult r], ?_, ?_⟩, by rw [(taskDone_disk p c s r).1]; exact h3⟩
    · rw [history_snoc, hres]; exact h1.addResult r
    · intro x hx
      rw [resultsOf_append] at hx
      rcases List.mem_append.1 hx with hx | hx
      · exact h2 x hx
      · simp [resultsOf] at hx
        subst hx
        exact hRQ s x (hl s x hmem)
  fail c s id _ h hs := by
    intro hl
    exact h (fun s r hm => hl s r (by simp [taskFail, hm]))
  save c enum _ h he := by
    rcases doSave_eq p c enum with ⟨-, -, e⟩ | ⟨-, e⟩
    · rw [e]
      intro hl
      have h' := h hl
      refine ⟨⟨h'.1.choose, SameC.of_fields h'.1.choose_spec.1.fields, h'.1.choose_spec.2⟩, ?_⟩
      intro sv hsv r hr
      obtain rfl := Option.some.inj hsv
      obtain ⟨r1, hr1, rfl⟩ := List.mem_map.1 hr
      obtain ⟨r0, hq, rfl⟩ := histQ_results h' hr1
      exact hre r0 hq
    · rw [e]; exact h
  phase c ph _ h := h

theorem histQ_start (p : CtlParams d) {Q : SRes d → Prop} (disk initial : Option (Saved d))
    (h1 : ∀ sv, disk = some sv → ∀ r ∈ sv.results, Q r) (h2 : ∀ sv, initial = some sv → ∀ r ∈ sv.results, Q r) :
    HistQ p Q (startFrom p disk initial) := by
  refine ⟨?_, h1⟩
  have key : ∀ (rs : List (SRes d)) (ps : List (Vec d)), (∀ r ∈ rs, Q r) →
      ∃ ops, SameC (Container.create p.coord rs p.gapThreshold p.distCutoff ps)
        (history p.coord p.gapThreshold p.distCutoff ops) ∧ ∀ r ∈ resultsOf ops, Q r := fun rs ps h => by
    refine ⟨rs.map ContainerOp.addResult ++ ps.map ContainerOp.setRefined, ?_, ?_⟩
    · rw [create_eq_history]; rfl
    · simpa [resultsOf_append] using h
  cases initial with
  | none => exact key [] [] (by simp)
  | some sv => exact key sv.results sv.refined (h2 sv rfl)

theorem histQ_reach {p : CtlParams d} {Q : SRes d → Prop} {R : Simplex d → SRes d → Prop} (hRQ : ∀ s r, R s r → Q r)
    (hre : ∀ r, Q r → Q (SRes.reload (movedTo r (p.coord.normalizePosition r.pos)))) {c : Ctl d} (h : ReachWith p R c) :
    HistQ p Q c := by
  induction h with
  | start => exact histQ_start p none none (by simp) (by simp)
  | tail _ hs hr ih =>
    cases hs with
    | step hs => exact (histQ_elem hRQ hre).step (fun _ => ih) hs hr
    | crash => exact histQ_start p _ _ ih.2 ih.2

theorem samePoint_normalize {cs : CoordSys d} (hb : ProperBox cs) (x : Vec d) : SamePoint cs x (cs.normalizePosition x) := by
  unfold SamePoint
  split
  · exact (C02_normalize_periodic cs hb ‹_› x).2.1
  · rename_i hp
    exact (C02_normalize_nonperiodic cs (by simpa using hp) x).symm

/-- what is remembered about a result: where its value was found -/
def FoundAt (cs : CoordSys d) (G : Vec d → FVal → Prop) (strict : Prop) (r : SRes d) : Prop :=
  (∀ ch an pa, r = .joined ch an pa → pa = none) ∧ (r.value ≠ FVal.nan → ∃ x, SamePoint cs x r.pos ∧ G x r.value) ∧
    (strict → r.success = true → Finite r.value)

theorem samePoint_trans {cs : CoordSys d} {x y z : Vec d} (h1 : SamePoint cs x y) (h2 : SamePoint cs y z) : SamePoint cs x z := by
  unfold SamePoint at *
  split_ifs at *
  · obtain ⟨k, rfl⟩ := h1
    obtain ⟨l, rfl⟩ := h2
    refine ⟨fun i => k i + l i, ?_⟩
    funext i
    simp only [shift]
    push_cast
    ring
  · exact h1.trans h2

theorem samePoint_refl (cs : CoordSys d) (x : Vec d) : SamePoint cs x x := by
  unfold SamePoint
  split
  · exact ⟨fun _ => 0, by funext i; simp [shift]⟩
  · rfl

theorem foundAt_reload {cs : CoordSys d} (hb : ProperBox cs) {G : Vec d → FVal → Prop} {strict : Prop} {r : SRes d}
    (h : FoundAt cs G strict r) : FoundAt cs G strict (SRes.reload (movedTo r (cs.normalizePosition r.pos))) := by
  cases r with
  | plain m =>
    refine ⟨(by intro _ _ _ h; cases h), fun hv => ?_, fun hs hsu => h.2.2 hs hsu⟩
    obtain ⟨x, hx, hg⟩ := h.2.1 hv
    exact ⟨x, samePoint_trans hx (samePoint_normalize hb _), hg⟩
  | joined ch an pa =>
    have := h.1 ch an pa rfl
    subst this
    exact ⟨by rintro _ _ _ h; cases h; rfl, h.2.1, h.2.2⟩

theorem foundAt_min (hd : 1 ≤ d) {cs : CoordSys d} {P : NMParams} {G : Vec d → FVal → Prop} {s : Simplex d} {r : SRes d}
    (h : MinimizationOf P G s r) : FoundAt cs G (P.ftol ≠ FVal.inf ∧ (P.fprimeCutoff = none ∨ ∀ x, ¬ G x FVal.nan)) r := by
  obtain ⟨f, fake, sim0, hG, -, h⟩ := h
  refine ⟨?_, fun hn => ?_, fun hs hsu => C43_two_step_finite hd h hsu hs.1
    (hs.2.imp id fun hn n x e => hn x (e ▸ hG n x))⟩
  · obtain ⟨argsort, -, rfl⟩ := h
    intro ch an pa e
    cases fake with
    | none => simp [runMinimization] at e
    | some fake =>
      simp only [runMinimization, SRes.joined.injEq] at e
      exact e.2.2.symm
  · obtain ⟨k, -, hv⟩ := C44_true_function hd h hn
    exact ⟨r.pos, samePoint_refl _ _, by rw [hv]; exact hG _ _⟩

/-- **C45**: in everything that a search can reach (with any schedule, crashes and restarts), every node comes from a successful minimization, its value is not above
the threshold, its position is in the box if the space is periodic, and (unless the value is NaN) it is a value which the gap function
returned at that point. -/
theorem C45_nodes_sound (hd : 1 ≤ d) {p : CtlParams d} (hb : ProperBox p.coord) {P : NMParams} {G : Vec d → FVal → Prop} {c : Ctl d}
    (h : ReachWith p (MinimizationOf P G) c) {r : SRes d} (hr : r ∈ c.state.result.nodes.values) :
    r.success = true ∧ ¬ FVal.gt r.value (FVal.ofReal p.gapThreshold) ∧
    (p.coord.periodic = true → InBox p.coord r.pos) ∧
    (r.value ≠ FVal.nan → ∃ x, SamePoint p.coord x r.pos ∧ G x r.value) := by
  have hq := histQ_reach (Q := FoundAt p.coord G (P.ftol ≠ FVal.inf ∧ (P.fprimeCutoff = none ∨ ∀ x, ¬ G x FVal.nan))) (fun s r h => foundAt_min hd h)
    (fun r h => foundAt_reload hb h) h
  obtain ⟨r0, h0, e⟩ := histQ_results hq (List.mem_append_left _ hr)
  obtain ⟨⟨ops, h1, -⟩, -⟩ := hq
  obtain ⟨-, -, -, f4, -, -⟩ := h1.fields
  have hn : IsNode p.gapThreshold r := by
    rw [f4, (C12_nodes_and_rejected p.coord p.gapThreshold p.distCutoff ops).1] at hr
    obtain ⟨r1, hr1, rfl⟩ := List.mem_map.1 hr
    exact (isNode_setPos _ _ _).2 (of_decide_eq_true (List.mem_filter.1 hr1).2)
  refine ⟨hn.1, hn.2, ?_, ?_⟩
  · intro hp
    rw [e]
    simp only [movedTo, SRes.pos_setPos]
    exact (C02_normalize_periodic _ hb hp _).1
  · subst e
    intro hv
    obtain ⟨x, hx, hg⟩ := h0.2.1 (by simpa [movedTo] using hv)
    refine ⟨x, samePoint_trans hx ?_, by simpa [movedTo] using hg⟩
    simp only [movedTo, SRes.pos_setPos]
    exact samePoint_normalize hb _

/-- **C43** for a whole search: with a finite `ftol`, and no derivative cutoff or a gap function that never returns NaN, no node has a NaN or infinite value. -/
theorem C43_nodes_finite (hd : 1 ≤ d) {p : CtlParams d} (hb : ProperBox p.coord) {P : NMParams} (hft : P.ftol ≠ FVal.inf)
    {G : Vec d → FVal → Prop} (hc : P.fprimeCutoff = none ∨ ∀ x, ¬ G x FVal.nan) {c : Ctl d} (h : ReachWith p (MinimizationOf P G) c) {r : SRes d}
    (hr : r ∈ c.state.result.nodes.values) :
    ∃ v : ℝ, r.value = FVal.ofReal v ∧ v ≤ p.gapThreshold ∧ ∃ x, SamePoint p.coord x r.pos ∧ G x (FVal.ofReal v) := by
  obtain ⟨h1, h2, -, h4⟩ := C45_nodes_sound hd hb h hr
  have hq := histQ_reach (Q := FoundAt p.coord G (P.ftol ≠ FVal.inf ∧ (P.fprimeCutoff = none ∨ ∀ x, ¬ G x FVal.nan))) (fun s r h => foundAt_min hd h)
    (fun r h => foundAt_reload hb h) h
  obtain ⟨r0, h0, e⟩ := histQ_results hq (List.mem_append_left _ hr)
  obtain ⟨v, hv⟩ : Finite r.value := by
    subst e
    simpa [movedTo] using h0.2.2 ⟨hft, hc⟩ (by simpa [movedTo] using h1)
  refine ⟨v, hv, ?_, ?_⟩
  · by_contra hlt
    rw [hv] at h2
    exact h2 (NMDemo.flt.2 (not_le.1 hlt))
  · have := h4 (by rw [hv]; exact NMDemo.ofReal_ne_nan v)
    rwa [hv] at this

/-- **C45** with the default options (finite `ftol`, no derivative cutoff): every node has a finite value at most the threshold, which the gap function
returned at that point.  Together with C24 this holds for the result of `search.run`. -/
theorem C45_nodes_below_threshold (hd : 1 ≤ d) {p : CtlParams d} (hb : ProperBox p.coord) {P : NMParams} (hft : P.ftol ≠ FVal.inf)
    (hc : P.fprimeCutoff = none) {G : Vec d → FVal → Prop} {c : Ctl d} (h : ReachWith p (MinimizationOf P G) c) {r : SRes d}
    (hr : r ∈ c.state.result.nodes.values) :
    ∃ v : ℝ, r.value = FVal.ofReal v ∧ v ≤ p.gapThreshold ∧ ∃ x, SamePoint p.coord x r.pos ∧ G x (FVal.ofReal v) :=
  C43_nodes_finite hd hb hft (.inl hc) h hr


/-! ### Non-vacuity: a search in which a minimization of the constant function 0 gives a node -/

namespace C45Demo
open Demo

/-- the constant function 0 -/
def zero : ℕ → Vec 1 → FVal := fun _ _ => FVal.ofReal 0

theorem const_loop {sim : Sim 1} (hs : ∀ i j k, |sim i k - sim j k| ≤ 1) (argsort : Argsort 1) :
    nmRun NMDemo.wideParams argsort zero sim = nmInit NMDemo.wideParams argsort zero sim := by
  have hf : (nmInit NMDemo.wideParams argsort zero sim).fsim = fun _ => FVal.ofReal 0 := rfl
  have hstop : ¬ nmContinue NMDemo.wideParams (nmInit NMDemo.wideParams argsort zero sim) := by
    intro hc
    apply hc.2.2.2
    refine ⟨fun i k => hs _ _ k, fun i => ?_⟩
    rw [hf]
    have e : FVal.absDiff (FVal.ofReal 0) (FVal.ofReal 0) = FVal.ofReal 0 := by
      simp only [FVal.ofReal, FVal.absDiff]
      rw [if_neg (by simp), if_neg (by
        rintro (h | h | h | h)
        exacts [EReal.coe_ne_top _ h, EReal.coe_ne_bot _ h, EReal.coe_ne_top _ h, EReal.coe_ne_bot _ h])]
      simp
    change FVal.le (FVal.absDiff (FVal.ofReal 0) (FVal.ofReal 0)) _
    rw [e]
    exact ⟨NMDemo.ofReal_ne_nan _, NMDemo.ofReal_ne_nan _, (NMDemo.ofReal_lt.2 one_pos).le⟩
  unfold nmRun
  rw [nmLoop, if_neg hstop]

theorem const_run {sim : Sim 1} (hs : ∀ i j k, |sim i k - sim j k| ≤ 1) {r : MinRes 1} {evals : List (Vec 1 × FVal)}
    (h : IsMinimization NMDemo.wideParams zero sim r evals) : r.success = true ∧ r.value = FVal.ofReal 0 := by
  obtain ⟨argsort, ha, rfl, rfl⟩ := h
  have hf : (nmInit NMDemo.wideParams argsort zero sim).fsim = fun _ => FVal.ofReal 0 := rfl
  have hrun := const_loop hs argsort
  have hst : nmStatus NMDemo.wideParams (nmInit NMDemo.wideParams argsort zero sim) = 0 := by
    unfold nmStatus
    have h1 : (nmInit NMDemo.wideParams argsort zero sim).tr.ncalls = 2 := by simp [nmInit, nmSort, ncalls_calls]
    have h2 : (nmInit NMDemo.wideParams argsort zero sim).iterations = 1 := rfl
    rw [h1, h2]
    simp [NMDemo.wideParams, NMParams.fevLimit, NMParams.iterLimit, fprimeExceeded]
  unfold rootNelderMead
  rw [hrun]
  refine ⟨by simp [nmResult, hst], ?_⟩
  change npMin (nmInit NMDemo.wideParams argsort zero sim).fsim = _
  rw [npMin_eq (by rw [hf]; exact monotone_const), hf]
  simp [NMDemo.ofReal_ne_nan]

theorem s_len : s.length = 2 := by simp [s, normalizeSimplex]

/-- the vertices of `s` -/
def sim : Sim 1 := fun i => s.get (Fin.cast s_len.symm i)

theorem s_eq : s = List.ofFn sim := by
  refine List.ext_getElem (by simp [s_len]) fun i h1 h2 => ?_
  rw [List.getElem_ofFn]
  rfl

theorem sim_mem (i : Fin 2) : sim i = pt 0 ∨ sim i = pt (1/4) := by
  have h : sim i ∈ s := List.get_mem _ _
  have : sim i ∈ [pt 0, pt (1/4)] := (List.mergeSort_perm _ _).mem_iff.1 h
  simpa using this

/-- the result of the minimization -/
def res : MinRes 1 := rootNelderMead NMDemo.wideParams (fun v => Tuple.sort v) zero sim

theorem res_ok : IsMinimization NMDemo.wideParams zero sim res
    (nmRun NMDemo.wideParams (fun v => Tuple.sort v) zero sim).tr.evals :=
  ⟨_, fun v => Tuple.monotone_sort v, rfl, rfl⟩

theorem res_success : res.success = true ∧ res.value = FVal.ofReal 0 := by
  refine const_run (fun i j k => ?_) res_ok
  rcases sim_mem i with h | h <;> rcases sim_mem j with h' | h' <;> rw [h, h'] <;> simp [pt] <;> norm_num [abs_le]

theorem reach : ReachWith params (MinimizationOf NMDemo.wideParams fun _ v => v = FVal.ofReal 0) (taskDone params c1 s (.plain res)) := by
  have h1 : ReachWith params (MinimizationOf NMDemo.wideParams fun _ v => v = FVal.ofReal 0) c1 :=
    .tail .start (.step (.tickFill c0 c1 rfl rfl (Or.inl (fun h => by have := h.2; rw [q0] at this; cases this)) fill0))
      (by intro s r h; simp [c1] at h)
  refine .tail h1 (.step (.done c1 s _ (by simp [c1, c0, startFresh, startFrom]) (by simp [c1]) (by intro _ _ _ h; cases h))) ?_
  intro s' r' h
  have : s' = s ∧ r' = .plain res := by
    rw [taskDone_of_mem _ run1] at h
    simpa [c1] using h
  obtain ⟨rfl, rfl⟩ := this
  exact ⟨zero, none, sim, fun _ _ => rfl, s_eq, fun v => Tuple.sort v, fun v => Tuple.monotone_sort v, rfl⟩

example : ∃ c, ReachWith params (MinimizationOf NMDemo.wideParams fun _ v => v = FVal.ofReal 0) c ∧ c.state.result.nodes.values ≠ [] ∧
    ∀ _x : Vec 1, ¬ FVal.nan = FVal.ofReal 0 := by
  refine ⟨_, reach, ?_, fun _ h => NMDemo.ofReal_ne_nan 0 h.symm⟩
  have hn : IsNode 1 (SRes.plain res) := by
    refine ⟨res_success.1, ?_⟩
    change ¬ FVal.gt res.value _
    rw [res_success.2]
    intro h
    have := NMDemo.flt.1 h
    norm_num at this
  have hres : (taskDone params c1 s (.plain res)).state.result = (c1.state.result.addResult (.plain res)).1 := by
    unfold taskDone
    simp only
    split <;> exact (processResult_cases params c1.state _).1
  rw [hres, Container.addResult_def, if_pos (by exact hn)]
  simp [CellList.values, CellList.addPoint]

end C45Demo

end NF
