import Verif.Lemmas.FloatController

/-! # Invariants of searches in floating-point arithmetic -/

noncomputable section
open Classical
namespace NF.FL
open Spec CoordSys
variable {d : ℕ} {A : CtlArith d} {p : CtlParams d} {Res : Simplex d → SRes d → Prop}

/-! ## generic preservation -/

/-- `P` is preserved by every elementary operation, in states where `G` holds -/
structure Elem (A : CtlArith d) (p : CtlParams d) (Res : Simplex d → SRes d → Prop) (G P : Ctl d → Prop) : Prop where
  fill : ∀ c c', G c → P c → fillStep A p c = .next c' → P c'
  raise : ∀ c e c', G c → P c → fillStep A p c = .raise e c' → P c'
  done : ∀ c s r, G c → P c → s ∈ c.tasks → FreshRes r → Res s r → P (taskDone A p c s r)
  fail : ∀ c s id, G c → P c → s ∈ c.tasks → P (taskFail c s (.gap id))
  save : ∀ c enum, G c → P c → IsEnum enum c.state.simplexQueue.running → P (doSave p c enum)
  phase : ∀ c ph, G c → P c → P { c with phase := ph }

theorem Elem.and {G P Q : Ctl d → Prop} (h1 : Elem A p Res G P) (h2 : Elem A p Res (fun c => G c ∧ P c) Q) :
    Elem A p Res G (fun c => P c ∧ Q c) where
  fill c c' hg h hs := ⟨h1.fill c c' hg h.1 hs, h2.fill c c' ⟨hg, h.1⟩ h.2 hs⟩
  raise c e c' hg h hs := ⟨h1.raise c e c' hg h.1 hs, h2.raise c e c' ⟨hg, h.1⟩ h.2 hs⟩
  done c s r hg h hs hf hr := ⟨h1.done c s r hg h.1 hs hf hr, h2.done c s r ⟨hg, h.1⟩ h.2 hs hf hr⟩
  fail c s id hg h hs := ⟨h1.fail c s id hg h.1 hs, h2.fail c s id ⟨hg, h.1⟩ h.2 hs⟩
  save c en hg h hs := ⟨h1.save c en hg h.1 hs, h2.save c en ⟨hg, h.1⟩ h.2 hs⟩
  phase c ph hg h := ⟨h1.phase c ph hg h.1, h2.phase c ph ⟨hg, h.1⟩ h.2⟩

theorem Elem.mono {G G' P : Ctl d → Prop} (h : Elem A p Res G P) (hg : ∀ c, G' c → G c) : Elem A p Res G' P where
  fill c c' g := h.fill c c' (hg c g)
  raise c e c' g := h.raise c e c' (hg c g)
  done c s r g := h.done c s r (hg c g)
  fail c s id g := h.fail c s id (hg c g)
  save c en g := h.save c en (hg c g)
  phase c ph g := h.phase c ph (hg c g)

theorem Elem.step {P : Ctl d → Prop} (he : Elem A p Res (fun _ => True) P) {c c' : Ctl d} (h : P c) (hs : Step A p Res c c') : P c' := by
  have hfill : ∀ c c', P c → fillStep A p c = .next c' → P c' := fun c c' => he.fill c c' trivial
  cases hs with
  | tickRaise s e enum hph hf henum => exact he.phase _ _ trivial (he.save _ _ trivial h henum)
  | tickReturn enum hph hf hcond henum => exact he.phase _ _ trivial (he.save _ _ trivial h henum)
  | tickFill _ hph hf hcond hfill' =>
    obtain ⟨c1, hc1, h1 | ⟨err, h1, -⟩⟩ := fill_induction hfill c h _ _ hfill'
    · rw [h1.2.1]; exact hc1
    · cases h1
  | tickFillRaise c' e enum hph hf hcond hfill' henum =>
    obtain ⟨c1, hc1, h1 | ⟨err, -, h2⟩⟩ := fill_induction hfill c h _ _ hfill'
    · cases h1.1
    · exact he.phase _ _ trivial (he.save _ _ trivial (he.raise _ _ _ trivial hc1 h2) henum)
  | exitSaveFail hph hx hsv => exact he.phase _ _ trivial h
  | fillRaiseSaveFail c' e hph hf hcond hfill' hsv =>
    obtain ⟨c1, hc1, h1 | ⟨err, -, h2⟩⟩ := fill_induction hfill c h _ _ hfill'
    · cases h1.1
    · exact he.phase _ _ trivial (he.raise _ _ _ trivial hc1 h2)
  | done s r hph hs hr hres => exact he.done _ _ _ trivial h hs hr hres
  | fail s id hph hs => exact he.fail _ _ _ trivial h hs
  | save enum hph henum => exact he.save _ _ trivial h henum
  | saveFail hph hsv => exact h

/-! ## the accounting invariant -/

/-- The bookkeeping invariant of a search. -/
structure Acct (A : CtlArith d) (p : CtlParams d) (Res : Simplex d → SRes d → Prop) (c : Ctl d) : Prop where
  nodup : (handled c.log ++ outstanding c).Nodup
  mem : ∀ s, s ∈ handled c.log ++ outstanding c ↔ s ∈ c.state.simplexQueue.base.all
  run : ∀ s, s ∈ c.tasks ++ c.failed.map Prod.fst ↔ s ∈ c.state.simplexQueue.running
  norm : ∀ s ∈ c.state.simplexQueue.base.all, ∃ s0, s = normalizeSimplex s0
  gapErr : ∀ x ∈ c.failed, ∃ id, x.2 = .gap id
  logFailed : ∀ s, LogEntry.failed s ∈ c.log → s ∈ c.failed.map Prod.fst
  cont : ContInv A p c.state.result
  results : c.state.result.minimizationResults.Perm (c.base ++ (completedResults c.log).map (stored A p))
  positions : ∀ x ∈ c.state.result.refined.flat ++ c.state.positionQueue.queued, NormPos A p Res x
  posq : ∀ x ∈ c.state.positionQueue.queued, x ∈ c.state.positionQueue.all
  sched : (scheduledSimplices c.log).Perm (completedSimplices c.log ++ (c.tasks ++ c.failed.map Prod.fst))

theorem processResult_ok (hs : FloatSearch A p Res) {s : CtlState d} (h : ContInv A p s.result) (r : SRes d) :
    ∃ st, processResult A p s r = .ok st ∧ ContInv A p st.result ∧ st.simplexQueue = s.simplexQueue ∧ st.result.refined = s.result.refined ∧
      st.result.nodes.flat = (if IsNode p.gapThreshold r then s.result.nodes.flat ++ [stored A p r] else s.result.nodes.flat) ∧
      st.result.rejected = (if IsNode p.gapThreshold r then s.result.rejected else s.result.rejected ++ [stored A p r]) ∧
      ((IsNode p.gapThreshold r ∧ p.stencil.isSome = true ∧ checkPosRefinement A p st.result (FL.normalizePosition A.rnd p.coord r.pos) 0 = true ∧
          st.positionQueue = s.positionQueue.addObjects [FL.normalizePosition A.rnd p.coord r.pos]) ∨
       (st.positionQueue = s.positionQueue ∧ (IsNode p.gapThreshold r → p.stencil.isSome = true →
          checkPosRefinement A p st.result (FL.normalizePosition A.rnd p.coord r.pos) 0 = false))) := by
  obtain ⟨c', b, e, h1, h2, h3, -, h4, h5⟩ := addResult_ok hs h r
  unfold processResult
  simp only [e]
  by_cases hb : b = true ∧ p.stencil.isSome = true
  · rw [if_pos hb]
    by_cases hc : checkPosRefinement A p c' (FL.normalizePosition A.rnd p.coord r.pos) 0 = true
    · rw [if_pos hc]
      exact ⟨_, rfl, h1, rfl, h3, h4, h5, .inl ⟨h2.1 hb.1, hb.2, hc, rfl⟩⟩
    · rw [if_neg hc]
      exact ⟨_, rfl, h1, rfl, h3, h4, h5, .inr ⟨rfl, fun _ _ => by simpa using hc⟩⟩
  · rw [if_neg hb]
    exact ⟨_, rfl, h1, rfl, h3, h4, h5, .inr ⟨rfl, fun g1 g2 => absurd ⟨h2.2 g1, g2⟩ hb⟩⟩

theorem taskDone_of_mem {c : Ctl d} {s : Simplex d} {r : SRes d} {st : CtlState d} (h : s ∈ c.state.simplexQueue.running)
    (hp : processResult A p c.state r = .ok st) (hq : st.simplexQueue = c.state.simplexQueue) :
    taskDone A p c s r = { c with
      state := { st with simplexQueue := c.state.simplexQueue.finishOf s }
      tasks := c.tasks.erase s
      log := c.log ++ [.completed s r] } := by
  unfold taskDone
  simp only [hp, hq, RunQueue.setFinished_of_mem h]

theorem taskDone_ok (hs : FloatSearch A p Res) {c : Ctl d} {s : Simplex d} (h : Acct A p Res c) (hr : s ∈ c.tasks) (r : SRes d) :
    ∃ st : CtlState d, taskDone A p c s r = { c with
      state := { st with simplexQueue := c.state.simplexQueue.finishOf s }
      tasks := c.tasks.erase s
      log := c.log ++ [.completed s r] } ∧ ContInv A p st.result ∧ st.result.refined = c.state.result.refined ∧
      st.result.nodes.flat = (if IsNode p.gapThreshold r then c.state.result.nodes.flat ++ [stored A p r] else c.state.result.nodes.flat) ∧
      st.result.rejected = (if IsNode p.gapThreshold r then c.state.result.rejected else c.state.result.rejected ++ [stored A p r]) ∧
      ((IsNode p.gapThreshold r ∧ p.stencil.isSome = true ∧ checkPosRefinement A p st.result (FL.normalizePosition A.rnd p.coord r.pos) 0 = true ∧
          st.positionQueue = c.state.positionQueue.addObjects [FL.normalizePosition A.rnd p.coord r.pos]) ∨
       (st.positionQueue = c.state.positionQueue ∧ (IsNode p.gapThreshold r → p.stencil.isSome = true →
          checkPosRefinement A p st.result (FL.normalizePosition A.rnd p.coord r.pos) 0 = false))) := by
  obtain ⟨st, e, h1, h2, h3, h4, h5, h6⟩ := processResult_ok hs h.cont r
  exact ⟨st, taskDone_of_mem ((h.run s).1 (List.mem_append_left _ hr)) e h2, h1, h3, h4, h5, h6⟩

theorem Acct.transport {c c' : Ctl d} (h : Acct A p Res c) (hperm : (handled c'.log ++ outstanding c').Perm
      (handled c.log ++ outstanding c)) (hall : c'.state.simplexQueue.base.all = c.state.simplexQueue.base.all)
    : (handled c'.log ++ outstanding c').Nodup ∧
      (∀ s, s ∈ handled c'.log ++ outstanding c' ↔ s ∈ c'.state.simplexQueue.base.all) :=
  ⟨hperm.nodup_iff.2 h.nodup, fun s => by rw [hperm.mem_iff, h.mem, hall]⟩

theorem Acct.fillStep (hS : FloatSearch A p Res) {c c' : Ctl d} (h : Acct A p Res c)
    (hs : FL.fillStep A p c = .next c') : Acct A p Res c' := by
  obtain ⟨-, ⟨x, rest, hq, -, rfl⟩ | ⟨x, rest, hq, -, rfl⟩ | ⟨pos, rest, st, res, hq, hpq, -, hst, hsr, rfl⟩ |
    ⟨pos, rest, hq, hpq, -, -, rfl⟩⟩ := fillStep_next hs
  · -- scheduled
    have hx : x ∉ c.tasks ++ c.failed.map Prod.fst := by
      intro hx
      have := h.nodup
      simp only [outstanding, hq] at this
      have := (List.nodup_append.1 (List.nodup_append.1 this).2.1).2.2
      exact this x hx x (by simp) rfl
    have hperm : (handled (c.log ++ [LogEntry.scheduled x]) ++ ((c.tasks ++ [x]) ++ c.failed.map Prod.fst ++ rest)).Perm
        (handled c.log ++ outstanding c) := by
      simp only [outstanding, hq, handled_append, handled, List.append_nil]
      refine List.Perm.append_left _ ?_
      rw [List.append_assoc, List.append_assoc, List.append_assoc]
      refine List.Perm.append_left _ ?_
      simpa using List.perm_middle.symm
    obtain ⟨h1, h2⟩ := Acct.transport (c' := { c with
          state := { c.state with simplexQueue := c.state.simplexQueue.popTo x rest }
          tasks := c.tasks ++ [x], log := c.log ++ [.scheduled x] }) h hperm rfl
    refine ⟨h1, h2, ?_, h.norm, h.gapErr, ?_, h.cont, ?_, h.positions, h.posq, ?_⟩
    · intro s
      have := h.run s
      simp only [List.mem_append, RunQueue.mem_popTo, List.mem_singleton] at this ⊢
      rw [← this]; tauto
    · intro s hs
      apply h.logFailed s
      simpa using hs
    · simpa [completedResults] using h.results
    · simp only [scheduledSimplices_append, completedSimplices_append, scheduledSimplices, completedSimplices, List.append_nil]
      refine (h.sched.append_right [x]).trans ?_
      simp only [List.append_assoc]
      refine List.Perm.append_left _ (List.Perm.append_left _ List.perm_append_comm)
  · -- skipped
    have hxr : x ∉ c.tasks ++ c.failed.map Prod.fst := by
      intro hx
      have := h.nodup
      simp only [outstanding, hq] at this
      have := (List.nodup_append.1 (List.nodup_append.1 this).2.1).2.2
      exact this x hx x (by simp) rfl
    have hperm : (handled (c.log ++ [LogEntry.skipped x]) ++ (c.tasks ++ c.failed.map Prod.fst ++ rest)).Perm
        (handled c.log ++ outstanding c) := by
      simp only [outstanding, hq, handled_append, handled]
      rw [List.append_assoc]
      refine List.Perm.append_left _ ?_
      simpa using (List.perm_middle (a := x) (l₁ := c.tasks ++ c.failed.map Prod.fst) (l₂ := rest)).symm
    obtain ⟨h1, h2⟩ := Acct.transport (c' := { c with
          state := { c.state with simplexQueue := (c.state.simplexQueue.popTo x rest).finishOf x }
          log := c.log ++ [.skipped x] }) h hperm rfl
    refine ⟨h1, h2, ?_, h.norm, h.gapErr, ?_, h.cont, ?_, h.positions, h.posq, ?_⟩
    · intro s
      simp only [RunQueue.mem_finishOf, RunQueue.mem_popTo]
      rw [← h.run s]
      constructor
      · intro hs; exact ⟨fun e => hxr (e ▸ hs), Or.inr hs⟩
      · rintro ⟨h1, h2 | h2⟩
        · exact absurd h2 h1
        · exact h2
    · intro s hs
      apply h.logFailed s
      simpa using hs
    · simpa [completedResults] using h.results
    · simpa [scheduledSimplices, completedSimplices] using h.sched
  · -- refined
    obtain ⟨s1, r1, hr1, hpos⟩ := h.positions pos (by rw [hpq]; simp)
    obtain ⟨res', e', g1, g2, g3, g4, -⟩ := setRefined_ok hS h.cont (x := pos) ⟨s1, r1, hr1, hpos⟩
    rw [e'] at hsr
    injection hsr with hsr
    subst hsr
    set new := normalizeSimplices (translateStencil A pos st) with hnew
    have hnd : new.Nodup := nodup_normalizeSimplices (hpos ▸ hS.stencil st hst s1 r1 hr1)
    obtain ⟨a1, a2, a3⟩ := addObjects_queued c.state.simplexQueue new
    have hl : handled (c.log ++ [LogEntry.refined pos]) ++ outstanding { c with
          state := ⟨res', c.state.simplexQueue.addObjects new,
            c.state.positionQueue.popTo rest⟩
          log := c.log ++ [.refined pos] }
        = (handled c.log ++ outstanding c) ++ new.filter (fun o => decide (o ∉ c.state.simplexQueue.base.all)) := by
      simp [outstanding, handled, a1]
    refine ⟨?_, ?_, ?_, ?_, h.gapErr, ?_, g1, ?_, ?_, ?_, ?_⟩
    · refine hl ▸ List.nodup_append.2 ⟨h.nodup, hnd.filter _, ?_⟩
      rintro a ha b hb rfl
      have := (List.mem_filter.1 hb).2
      simp only [decide_eq_true_eq] at this
      exact this ((h.mem a).1 ha)
    · intro s
      refine hl ▸ ?_
      rw [List.mem_append, h.mem]
      simp only [a2, List.mem_filter, decide_eq_true_eq, Set.mem_union, Set.mem_ofPred_eq]
      by_cases hs : s ∈ c.state.simplexQueue.base.all <;> simp [hs]
    · intro s; simp only [a3]; exact h.run s
    · intro s hs
      simp only [a2, Set.mem_union, Set.mem_ofPred_eq] at hs
      rcases hs with hs | hs
      · exact h.norm s hs
      · rw [hnew, normalizeSimplices] at hs
        obtain ⟨s0, -, rfl⟩ := List.mem_map.1 hs
        exact ⟨s0, rfl⟩
    · intro s hs
      apply h.logFailed s
      simpa using hs
    · have : res'.minimizationResults = c.state.result.minimizationResults := by simp [Container.minimizationResults, g3, g4]
      simp only [this]
      simpa [completedResults] using h.results
    · intro x hx
      simp only [g2] at hx
      apply h.positions x
      rw [hpq]
      simpa using hx
    · intro x hx
      apply h.posq x
      rw [hpq]; exact List.mem_cons_of_mem _ hx
    · simpa [scheduledSimplices, completedSimplices] using h.sched
  · -- discarded
    have hperm : (handled (c.log ++ [LogEntry.discarded pos]) ++ outstanding c).Perm
        (handled c.log ++ outstanding c) := by
      simp [handled]
    obtain ⟨h1, h2⟩ := Acct.transport (c' := { c with
          state := { c.state with positionQueue := c.state.positionQueue.popTo rest }
          log := c.log ++ [.discarded pos] }) h hperm rfl
    refine ⟨h1, h2, h.run, h.norm, h.gapErr, ?_, h.cont, ?_, ?_, ?_, ?_⟩
    · intro s hs
      apply h.logFailed s
      simpa using hs
    · simpa [completedResults] using h.results
    · intro x hx
      apply h.positions x
      rw [hpq]
      rcases List.mem_append.1 hx with hx | hx
      · exact List.mem_append_left _ hx
      · exact List.mem_append_right _ (List.mem_cons_of_mem _ hx)
    · intro x hx
      apply h.posq x
      rw [hpq]; exact List.mem_cons_of_mem _ hx
    · simpa [scheduledSimplices, completedSimplices] using h.sched

theorem raise_type (hS : FloatSearch A p Res) {c c' : Ctl d} {e : Err} (h : Acct A p Res c) (hs : FL.fillStep A p c = .raise e c') :
    e = .type ∧ p.stencil = none ∧ ∃ pos rest, c.state.positionQueue.queued = pos :: rest ∧ c' = { c with state := { c.state with positionQueue := c.state.positionQueue.popTo rest } } := by
  obtain ⟨pos, rest, hpq, ⟨h1, h2, h3⟩ | h1⟩ := fillStep_raise hs
  · exact ⟨h1, h2, pos, rest, hpq, h3⟩
  · obtain ⟨res', e', -⟩ := setRefined_ok hS h.cont (x := pos) (h.positions pos (by rw [hpq]; simp))
    rw [e'] at h1
    cases h1

theorem Acct.raise (hS : FloatSearch A p Res) {c c' : Ctl d} {e : Err} (h : Acct A p Res c)
    (hs : FL.fillStep A p c = .raise e c') : Acct A p Res c' := by
  obtain ⟨-, -, pos, rest, hpq, rfl⟩ := raise_type hS h hs
  refine ⟨h.nodup, h.mem, h.run, h.norm, h.gapErr, h.logFailed, h.cont, h.results, ?_, ?_, h.sched⟩
  · intro x hx
    apply h.positions x
    rw [hpq]
    rcases List.mem_append.1 hx with hx | hx
    · exact List.mem_append_left _ hx
    · exact List.mem_append_right _ (List.mem_cons_of_mem _ hx)
  · intro x hx
    apply h.posq x
    rw [hpq]; exact List.mem_cons_of_mem _ hx

theorem Acct.taskDone (hS : FloatSearch A p Res) {c : Ctl d} {s : Simplex d} {r : SRes d} (h : Acct A p Res c)
    (hs : s ∈ c.tasks) (hres : Res s r) : Acct A p Res (FL.taskDone A p c s r) := by
  obtain ⟨st, e, pr1, pr2, pr4, pr5, pr3⟩ := taskDone_ok hS h hs r
  rw [e]
  have herase : c.tasks.Perm (s :: c.tasks.erase s) := List.perm_cons_erase hs
  have hperm : (handled (c.log ++ [LogEntry.completed s r]) ++
      (c.tasks.erase s ++ c.failed.map Prod.fst ++ c.state.simplexQueue.base.queued)).Perm
      (handled c.log ++ outstanding c) := by
    simp only [outstanding, handled_append, handled]
    rw [List.append_assoc]
    refine List.Perm.append_left _ ?_
    simp only [List.append_assoc]
    exact (herase.symm.append_right _)
  obtain ⟨h1, h2⟩ := Acct.transport (c' := { c with
      state := { st with simplexQueue := c.state.simplexQueue.finishOf s }
      tasks := c.tasks.erase s
      log := c.log ++ [.completed s r] }) h hperm rfl
  have hs_not : s ∉ c.tasks.erase s ++ c.failed.map Prod.fst := by
    have := h1
    have h3 := List.nodup_append.1 this
    intro hin
    refine h3.2.2 s ?_ s ?_ rfl
    · simp [handled]
    · exact List.mem_append_left _ hin
  refine ⟨h1, h2, ?_, h.norm, h.gapErr, ?_, ?_, ?_, ?_, ?_, ?_⟩
  · intro x
    simp only [RunQueue.mem_finishOf]
    rw [← h.run x, List.mem_append, List.mem_append, herase.mem_iff, List.mem_cons]
    constructor
    · intro hx
      refine ⟨fun e => hs_not (by subst e; exact List.mem_append.2 hx), ?_⟩
      tauto
    · rintro ⟨hne, h' ⟩
      tauto
  · intro x hx
    apply h.logFailed x
    simpa using hx
  · exact pr1
  · simp only [completedResults_append, completedResults, List.map_append, List.map_cons, List.map_nil]
    rw [← List.append_assoc]
    refine List.Perm.trans ?_ (h.results.append_right _)
    simp only [Container.minimizationResults, CellList.values, pr4, pr5]
    by_cases hn : IsNode p.gapThreshold r
    · simp only [hn, if_true, List.append_assoc]
      exact List.Perm.append_left _ List.perm_append_comm
    · simp [hn]
  · intro x hx
    simp only [pr2] at hx
    rcases List.mem_append.1 hx with hx | hx
    · exact h.positions x (List.mem_append_left _ hx)
    · rcases pr3 with ⟨-, -, -, e⟩ | ⟨e, -⟩
      · rw [e] at hx
        rcases objAddObjects c.state.positionQueue (FL.normalizePosition A.rnd p.coord r.pos) with ⟨h1, h2⟩ | ⟨h1, h2⟩
        · rw [h2] at hx; exact h.positions x (List.mem_append_right _ hx)
        · rw [h2] at hx
          rcases List.mem_append.1 hx with hx | hx
          · exact h.positions x (List.mem_append_right _ hx)
          · rw [List.mem_singleton.1 hx]; exact ⟨s, r, hres, rfl⟩
      · rw [e] at hx; exact h.positions x (List.mem_append_right _ hx)
  · intro x hx
    simp only at hx ⊢
    rcases pr3 with ⟨-, -, -, e⟩ | ⟨e, -⟩
    · rw [e] at hx ⊢
      rcases objAddObjects c.state.positionQueue (FL.normalizePosition A.rnd p.coord r.pos) with ⟨h1, h2⟩ | ⟨h1, h2⟩
      · rw [h2] at hx ⊢; exact h.posq x hx
      · rw [h2] at hx ⊢
        rcases List.mem_append.1 hx with hx | hx
        · exact Or.inl (h.posq x hx)
        · exact Or.inr hx
    · rw [e] at hx ⊢; exact h.posq x hx
  · simp only [scheduledSimplices_append, completedSimplices_append, scheduledSimplices, completedSimplices, List.append_nil]
    refine h.sched.trans ?_
    rw [List.append_assoc]
    refine List.Perm.append_left _ ?_
    simpa using herase.append_right _

theorem Acct.taskFail {c : Ctl d} {s : Simplex d} {id : ℕ} (h : Acct A p Res c)
    (hs : s ∈ c.tasks) : Acct A p Res (NF.taskFail c s (.gap id)) := by
  have herase : c.tasks.Perm (s :: c.tasks.erase s) := List.perm_cons_erase hs
  have hp2 : (c.tasks.erase s ++ (c.failed ++ [(s, Err.gap id)]).map Prod.fst).Perm
      (c.tasks ++ c.failed.map Prod.fst) := by
    simp only [List.map_append, List.map_cons, List.map_nil]
    refine List.Perm.trans ?_ (herase.symm.append_right _)
    rw [← List.append_assoc]
    exact List.perm_append_comm
  have hperm : (handled (c.log ++ [LogEntry.failed s]) ++
      (c.tasks.erase s ++ (c.failed ++ [(s, Err.gap id)]).map Prod.fst ++ c.state.simplexQueue.base.queued)).Perm
      (handled c.log ++ outstanding c) := by
    simp only [outstanding, handled_append, handled, List.append_nil]
    exact List.Perm.append_left _ (hp2.append_right _)
  obtain ⟨h1, h2⟩ := Acct.transport (c' := NF.taskFail c s (.gap id)) h hperm rfl
  refine ⟨h1, h2, ?_, h.norm, ?_, ?_, h.cont, ?_, h.positions, h.posq, ?_⟩
  · intro x
    exact hp2.mem_iff.trans (h.run x)
  · intro x hx
    rcases List.mem_append.1 hx with hx | hx
    · exact h.gapErr x hx
    · exact ⟨id, by rw [List.mem_singleton.1 hx]⟩
  · intro x hx
    simp only [NF.taskFail, List.mem_append, List.mem_singleton, LogEntry.failed.injEq, List.map_append,
      List.map_cons, List.map_nil] at hx ⊢
    rcases hx with hx | hx
    · exact Or.inl (h.logFailed x hx)
    · exact Or.inr hx
  · simpa [NF.taskFail, completedResults] using h.results
  · simp only [NF.taskFail, scheduledSimplices_append, completedSimplices_append, scheduledSimplices,
      completedSimplices, List.append_nil]
    exact h.sched.trans (List.Perm.append_left _ hp2.symm)

theorem Acct.doSave {c : Ctl d} (enum : List (Simplex d)) (h : Acct A p Res c) :
    Acct A p Res (NF.doSave p c enum) := by
  rcases doSave_eq p c enum with ⟨-, -, e⟩ | ⟨-, e⟩
  · rw [e]
    exact ⟨h.nodup, h.mem, h.run, h.norm, h.gapErr, h.logFailed,
      ⟨h.cont.coord, h.cont.gap, h.cont.nper, h.cont.nnum, h.cont.ninv, h.cont.rper,
        h.cont.rnum, h.cont.rinv⟩, h.results, h.positions, h.posq, h.sched⟩
  · rw [e]; exact h

theorem Acct.phase {c : Ctl d} (ph : Phase) (h : Acct A p Res c) : Acct A p Res { c with phase := ph } :=
  ⟨h.nodup, h.mem, h.run, h.norm, h.gapErr, h.logFailed, h.cont, h.results, h.positions, h.posq, h.sched⟩

/-! ## starting and restarting -/

/-- what is known about a save file -/
def DiskOk (A : CtlArith d) (p : CtlParams d) (Res : Simplex d → SRes d → Prop) (sv : Saved d) : Prop :=
  WellFormedSaved sv ∧ ∀ x ∈ sv.refined ++ sv.positions, NormPos A p Res x

theorem snapshot_ok {c : Ctl d} (h : Acct A p Res c) {enum : List (Simplex d)} (he : IsEnum enum c.state.simplexQueue.running) :
    DiskOk A p Res (c.state.snapshot enum) := by
  have hnd := (List.nodup_append.1 h.nodup).2.1
  have hout := List.nodup_append.1 hnd
  refine ⟨⟨?_, ?_⟩, h.positions⟩
  · change (enum ++ _).Nodup
    refine List.nodup_append.2 ⟨he.1, hout.2.1, ?_⟩
    intro a ha b hb
    exact hout.2.2 a ((h.run a).2 ((he.2 a).1 ha)) b hb
  · intro s hs
    apply h.norm s
    rw [← h.mem]
    rcases List.mem_append.1 hs with hs | hs
    · exact List.mem_append_right _ (List.mem_append_left _ ((h.run s).2 ((he.2 s).1 hs)))
    · exact List.mem_append_right _ (List.mem_append_right _ hs)

/-- the refined positions with which a search starts -/
def startRefined : Option (Saved d) → List (Vec d)
  | none => []
  | some sv => sv.refined

/-- what a start gives -/
theorem start_ok (hS : FloatSearch A p Res) (disk initial : Option (Saved d)) (hi : ∀ sv, initial = some sv → DiskOk A p Res sv) :
    ∃ c, startFrom A p disk initial = .ok c ∧ Acct A p Res c ∧ c.disk = disk ∧ c.phase = .running ∧ c.log = [] ∧ c.failed = [] ∧ c.tasks = [] ∧
      c.state.simplexQueue.base.queued.length ≤ (startSimplices p initial).length ∧
      c.state.positionQueue = ObjQueue.create (startPositions initial) ∧ c.state.result.refined.flat = startRefined initial ∧
      c.state.result.nodes.flat = ((startResults initial).filter fun r => decide (IsNode p.gapThreshold r)).map (stored A p) := by
  have hnormmesh : ∀ s ∈ normalizeSimplices p.mesh, ∃ s0, s = normalizeSimplex s0 := by
    intro s hs
    obtain ⟨s0, -, rfl⟩ := List.mem_map.1 hs
    exact ⟨s0, rfl⟩
  have key : ∀ (sq : RunQueue (Simplex d)) (res : Container d) (xs : List (Vec d)),
      sq.base.queued.Nodup → (∀ s, s ∈ sq.base.queued ↔ s ∈ sq.base.all) → sq.running = ∅ →
      (∀ s ∈ sq.base.queued, ∃ s0, s = normalizeSimplex s0) → ContInv A p res → (∀ x ∈ res.refined.flat ++ xs, NormPos A p Res x) →
      Acct A p Res ⟨⟨res, sq, ObjQueue.create xs⟩, [], [], disk, .running, [], res.minimizationResults⟩ := by
    intro sq res xs h1 h2 h3 h4 h5 h6
    refine ⟨by simpa [handled, outstanding] using h1, by simpa [handled, outstanding] using h2, by simp [h3],
      fun s hs => h4 s ((h2 s).2 hs), by simp, by simp, h5, by simp [completedResults], h6, fun x hx => hx, ?_⟩
    simp [scheduledSimplices, completedSimplices]
  cases initial with
  | none =>
    refine ⟨_, rfl, key _ _ _ (nodup_normalizeSimplices hS.mesh) (fun s => Iff.rfl) rfl hnormmesh empty_inv ?_, rfl, rfl, rfl, rfl, rfl, ?_, rfl, rfl, by simp [startResults, emptyContainer, CellList.mk']⟩
    · simp [emptyContainer, CellList.mk']
    · simp [RunQueue.create, ObjQueue.create, startSimplices, length_normalizeSimplices]
  | some sv =>
    obtain ⟨hwf, hpos⟩ := hi sv rfl
    have e := normalizeSimplices_of_norm hwf.norm
    obtain ⟨res, e1, g1, g2, g3, g4⟩ := createContainer_ok hS sv.results sv.refined fun x hx => hpos x (List.mem_append_left _ hx)
    have hps : ∀ x ∈ res.refined.flat ++ sv.positions, NormPos A p Res x := by rw [g2]; exact hpos
    cases hf : p.forceInitialMesh with
    | false =>
      have e2 : startFrom A p disk (some sv) = .ok ⟨⟨res, RunQueue.create (normalizeSimplices sv.simplices), ObjQueue.create sv.positions⟩, [], [], disk, .running, [], res.minimizationResults⟩ := by
        simp [startFrom, createStateFrom, hf, e1]
      rw [e2, e]
      exact ⟨_, rfl, key _ _ _ hwf.nodup (fun s => Iff.rfl) rfl hwf.norm g1 hps, rfl, rfl, rfl, rfl, rfl, by simp [RunQueue.create, ObjQueue.create, startSimplices], rfl, g2, g3⟩
    | true =>
      have e2 : startFrom A p disk (some sv) = .ok ⟨⟨res, (RunQueue.create (normalizeSimplices sv.simplices)).addObjects (normalizeSimplices p.mesh), ObjQueue.create sv.positions⟩,
          [], [], disk, .running, [], res.minimizationResults⟩ := by
        simp [startFrom, createStateFrom, hf, e1]
      rw [e2, e]
      obtain ⟨a1, a2, a3⟩ := addObjects_queued (RunQueue.create sv.simplices) (normalizeSimplices p.mesh)
      refine ⟨_, rfl, key _ _ _ ?_ ?_ a3 ?_ g1 hps, rfl, rfl, rfl, rfl, rfl, ?_, rfl, g2, g3⟩
      · rw [a1]
        refine List.nodup_append.2 ⟨hwf.nodup, (nodup_normalizeSimplices hS.mesh).filter _, ?_⟩
        rintro a ha b hb rfl
        have := (List.mem_filter.1 hb).2
        simp only [decide_eq_true_eq] at this
        exact this ha
      · intro s
        rw [a1, a2]
        simp only [List.mem_append, List.mem_filter, decide_eq_true_eq, Set.mem_union, Set.mem_ofPred_eq]
        have : s ∈ (RunQueue.create sv.simplices).base.queued ↔ s ∈ (RunQueue.create sv.simplices).base.all := Iff.rfl
        rw [this]
        by_cases hs : s ∈ (RunQueue.create sv.simplices).base.all <;> simp [hs]
      · intro s hs
        rw [a1] at hs
        rcases List.mem_append.1 hs with hs | hs
        · exact hwf.norm s hs
        · exact hnormmesh s (List.mem_filter.1 hs).1
      · refine (addObjects_length _ _).trans ?_
        simp only [length_normalizeSimplices, RunQueue.create, ObjQueue.create, List.length_append, startSimplices, hf]
        simp

/-- Accounting, and a well-formed save file. -/
def Good (A : CtlArith d) (p : CtlParams d) (Res : Simplex d → SRes d → Prop) (c : Ctl d) : Prop :=
  Acct A p Res c ∧ ∀ sv, c.disk = some sv → DiskOk A p Res sv

theorem fillStep_disk {c c' : Ctl d} (h : fillStep A p c = .next c') :
    c'.disk = c.disk ∧ c'.phase = c.phase ∧ c'.failed = c.failed ∧ c'.base = c.base := by
  obtain ⟨-, ⟨x, rest, hq, -, rfl⟩ | ⟨x, rest, hq, -, rfl⟩ | ⟨pos, rest, st, res, hq, hpq, -, hst, -, rfl⟩ |
    ⟨pos, rest, hq, hpq, -, -, rfl⟩⟩ := fillStep_next h <;> exact ⟨rfl, rfl, rfl, rfl⟩

theorem taskDone_disk (A : CtlArith d) (p : CtlParams d) (c : Ctl d) (s : Simplex d) (r : SRes d) :
    (taskDone A p c s r).disk = c.disk ∧ (taskDone A p c s r).phase = c.phase ∧ (taskDone A p c s r).base = c.base := by
  unfold taskDone
  split
  · exact ⟨rfl, rfl, rfl⟩
  · split <;> exact ⟨rfl, rfl, rfl⟩

/-- the save file is only changed by saving, and then it becomes the snapshot -/
theorem elem_disk (hS : FloatSearch A p Res) {G : Ctl d → Prop} {S : Saved d → Prop} (hG : ∀ c, G c → Acct A p Res c)
    (h : ∀ c enum, G c → IsEnum enum c.state.simplexQueue.running → S (c.state.snapshot enum)) :
    Elem A p Res G (fun c => ∀ sv, c.disk = some sv → S sv) where
  fill c c' _ h hs := by rw [(fillStep_disk hs).1]; exact h
  raise c e c' hg h hs := by
    obtain ⟨-, -, pos, rest, hpq, rfl⟩ := raise_type hS (hG c hg) hs
    exact h
  done c s r _ h hs hf hr := by rw [(taskDone_disk A p c s r).1]; exact h
  fail c s id _ h hs := h
  save c enum hg h' he := by
    rcases doSave_eq p c enum with ⟨-, -, e⟩ | ⟨-, e⟩
    · rw [e]
      intro sv hsv
      obtain rfl := Option.some.inj hsv
      exact h c enum hg he
    · rw [e]; exact h'
  phase c ph _ h := h

theorem elem_acct (hS : FloatSearch A p Res) : Elem A p Res (fun _ => True) (Acct A p Res) where
  fill c c' _ h hs := Acct.fillStep hS h hs
  raise c e c' _ h hs := Acct.raise hS h hs
  done c s r _ h hs hf hr := Acct.taskDone hS h hs hr
  fail c s id _ h hs := Acct.taskFail h hs
  save c enum _ h he := Acct.doSave enum h
  phase c ph _ h := Acct.phase ph h

theorem elem_good (hS : FloatSearch A p Res) : Elem A p Res (fun _ => True) (Good A p Res) :=
  (elem_acct hS).and (elem_disk hS (fun c h => h.2) fun c enum hg he => snapshot_ok hg.2 he)

theorem good_start (hS : FloatSearch A p Res) {disk initial : Option (Saved d)} (hi : ∀ sv, initial = some sv → DiskOk A p Res sv) (hdk : ∀ sv, disk = some sv → DiskOk A p Res sv) {c : Ctl d}
    (h : startFrom A p disk initial = .ok c) : Good A p Res c := by
  obtain ⟨c', e, h1, h2, -⟩ := start_ok hS disk initial hi
  rw [e] at h
  injection h with h
  subst h
  exact ⟨h1, by rw [h2]; exact hdk⟩

/-- an invariant of all searches, with the number of restarts -/
theorem reach_of_elem (hS : FloatSearch A p Res) {P : ℕ → Ctl d → Prop} (he : ∀ n, Elem A p Res (Good A p Res) (P n))
    (h0 : ∀ n c, startFrom A p none none = .ok c → P n c) (hcrash : ∀ n c c', Good A p Res c → P n c → startFrom A p c.disk c.disk = .ok c' → P (n + 1) c') {n : ℕ} {c : Ctl d}
    (h : Reach A p Res n c) : Good A p Res c ∧ P n c := by
  induction h with
  | start h => exact ⟨good_start hS (by simp) (by simp) h, h0 _ _ h⟩
  | @step n c c' _ hs ih =>
    have e1 : Elem A p Res (fun _ => True) (fun c => Good A p Res c ∧ P n c) := (elem_good hS).and ((he n).mono fun c h => h.2)
    exact e1.step ih hs
  | crash _ hs ih => exact ⟨good_start hS ih.1.2 ih.1.2 hs, hcrash _ _ _ ih.1 ih.2 hs⟩

theorem good_reach (hS : FloatSearch A p Res) {n : ℕ} {c : Ctl d} (h : Reach A p Res n c) : Good A p Res c :=
  (reach_of_elem hS (P := fun _ _ => True) (fun _ => ⟨fun _ _ _ _ _ => trivial, fun _ _ _ _ _ _ => trivial, fun _ _ _ _ _ _ _ _ => trivial, fun _ _ _ _ _ _ => trivial,
    fun _ _ _ _ _ => trivial, fun _ _ _ _ => trivial⟩) (fun _ _ _ => trivial) (fun _ _ _ _ _ _ => trivial) h).1

/-! ## how a search ends -/

theorem fill_phase (hS : FloatSearch A p Res) {c c' : Ctl d} (hg : Acct A p Res c) {e : Option Err} (h : fill A p c = (e, c')) :
    c'.phase = c.phase ∧ c'.failed = c.failed ∧ ∀ err, e = some err → err = .type ∧ p.stencil = none := by
  obtain ⟨c1, hc1, h1 | ⟨err, he, h2⟩⟩ := fill_induction (P := fun x => Acct A p Res x ∧ x.phase = c.phase ∧ x.failed = c.failed)
    (fun a b ha hs => by
      have := fillStep_disk hs
      exact ⟨Acct.fillStep hS ha.1 hs, this.2.1.trans ha.2.1, this.2.2.1.trans ha.2.2⟩) c ⟨hg, rfl, rfl⟩ _ _ h
  · rw [h1.2.1]; exact ⟨hc1.2.1, hc1.2.2, by simp [h1.1]⟩
  · obtain ⟨h3, h4, pos, rest, -, rfl⟩ := raise_type hS hc1.1 h2
    refine ⟨hc1.2.1, hc1.2.2, fun err' h5 => ?_⟩
    rw [he] at h5
    injection h5 with h5
    exact ⟨h5 ▸ h3, h4⟩

/-- what is known about a search that has ended -/
def EndInv (p : CtlParams d) (c : Ctl d) : Prop :=
  match c.phase with
  | .running => True
  | .returned => ¬ loopCondition c ∧ c.failed = [] ∧ (p.saveFile = true → c.state.needsSaving = false)
  | .raised e => (∃ s, (s, e) ∈ c.failed) ∨ (e = .type ∧ p.stencil = none) ∨ (e = .io ∧ p.saveFile = true)

theorem endInv_of_running {c : Ctl d} (h : c.phase = .running) : EndInv p c := by
  unfold EndInv; rw [h]; trivial

theorem endInv_step (hS : FloatSearch A p Res) {c c' : Ctl d} (hg : Acct A p Res c) (he : EndInv p c) (hs : Step A p Res c c') : EndInv p c' := by
  cases hs with
  | tickRaise s e enum hph hf henum =>
    refine Or.inl ⟨s, ?_⟩
    show (s, e) ∈ (doSave p c enum).failed
    rw [(doSave_same p c enum).2.1]; exact hf
  | tickReturn enum hph hf hcond henum =>
    refine ⟨?_, by simpa [(doSave_same p c enum).2.1] using hf, fun h => doSave_saved p c enum h⟩
    intro h
    exact hcond ((loopCondition_doSave p c enum).1 h)
  | tickFill _ hph hf hcond hfill => exact endInv_of_running ((fill_phase hS hg hfill).1.trans hph)
  | tickFillRaise c1 e enum hph hf hcond hfill henum => exact Or.inr (Or.inl ((fill_phase hS hg hfill).2.2 e rfl))
  | exitSaveFail hph hx hsv => exact Or.inr (Or.inr ⟨rfl, hsv.1⟩)
  | fillRaiseSaveFail c1 e hph hf hcond hfill hsv => exact Or.inr (Or.inr ⟨rfl, hsv.1⟩)
  | done s r hph hs hr hres =>
    obtain ⟨st, e, -⟩ := taskDone_ok hS hg hs r
    rw [e]
    unfold EndInv at he ⊢
    simp only
    cases hp : c.phase with
    | running => trivial
    | returned => exact absurd hp hph
    | raised e => rw [hp] at he; exact he
  | fail s id hph hs =>
    unfold EndInv at he ⊢
    simp only [taskFail]
    cases hp : c.phase with
    | running => trivial
    | returned => exact absurd hp hph
    | raised e =>
      rw [hp] at he
      rcases he with ⟨x, h1⟩ | he
      · exact Or.inl ⟨x, List.mem_append_left _ h1⟩
      · exact Or.inr he
  | save enum hph henum => exact endInv_of_running ((doSave_same p c enum).2.2.2.1.trans hph)
  | saveFail hph hsv => exact he

theorem endInv_reach (hS : FloatSearch A p Res) {n : ℕ} {c : Ctl d} (h : Reach A p Res n c) : EndInv p c := by
  induction h with
  | start h =>
    obtain ⟨c', e, -, -, h1, -⟩ := start_ok (A := A) (p := p) (Res := Res) hS none none (by simp)
    rw [e] at h; injection h with h; subst h
    exact endInv_of_running h1
  | step h hs ih => exact endInv_step hS (good_reach hS h).1 ih hs
  | crash h hs ih =>
    obtain ⟨c', e, -, -, h1, -⟩ := start_ok hS _ _ (good_reach hS h).2
    rw [e] at hs; injection hs with hs; subst hs
    exact endInv_of_running h1

end NF.FL
