import Verif.Lemmas.FloatCover

/-! # How much a search in floating-point arithmetic can do, and that it ends -/

noncomputable section
open Classical
namespace NF.FL
open Spec CoordSys
variable {d : ℕ} {A : CtlArith d} {p : CtlParams d} {Res : Simplex d → SRes d → Prop}

theorem elem_work (hS : FloatSearch A p Res) {B P R : ℕ} : Elem A p Res (Good A p Res) (WorkInv p B P R) where
  fill := by
    rintro c c' hG ⟨h1, h2, h3⟩ hs
    obtain ⟨-, ⟨x, rest, hq, -, rfl⟩ | ⟨x, rest, hq, -, rfl⟩ | ⟨pos, rest, st, res, hq, hpq, hck, hst, hsr, rfl⟩ |
        ⟨pos, rest, hq, hpq, -, -, rfl⟩⟩ := fillStep_next hs
    · refine ⟨?_, ?_, ?_⟩
      · simp only [outstanding, hq, handled_append, handled, refinedPositions_append, refinedPositions, List.length_append,
          List.length_cons, List.length_nil, RunQueue.popTo_queued, List.length_map, add_zero] at h1 ⊢
        omega
      · simp only [handled_append, handled, List.length_append, List.length_cons, List.length_nil] at h2 ⊢
        omega
      · simpa [refinedPositions_append, refinedPositions] using h3
    · refine ⟨?_, ?_, ?_⟩
      · simp only [outstanding, hq, handled_append, handled, refinedPositions_append, refinedPositions, List.length_append,
          List.length_cons, List.length_nil, RunQueue.popTo_queued, RunQueue.finishOf_queued, List.length_map, add_zero] at h1 ⊢
        omega
      · simp only [handled_append, handled, List.length_append, List.length_cons, List.length_nil] at h2 ⊢
        omega
      · simpa [refinedPositions_append, refinedPositions] using h3
    · have hpos := hG.1.positions pos (by rw [hpq]; simp)
      obtain ⟨res', e', g1, g2, -⟩ := setRefined_ok hS hG.1.cont hpos
      rw [e'] at hsr; injection hsr with hsr; subst hsr
      refine ⟨?_, ?_, ?_⟩
      · have hl := addObjects_length c.state.simplexQueue (normalizeSimplices (translateStencil A pos st))
        rw [length_normalizeSimplices, translateStencil, List.length_map] at hl
        have hS : stencilSize p = st.length := by simp [stencilSize, hst]
        simp only [outstanding, handled_append, handled, refinedPositions_append, refinedPositions, List.length_append,
          List.length_cons, List.length_nil, List.length_map, hS, mul_add, mul_one, zero_add, add_zero, translateStencil] at h1 hl ⊢
        omega
      · simp only [handled_append, handled, List.length_append, List.length_cons, List.length_nil, hpq,
          ObjQueue.popTo_queued] at h2 ⊢
        omega
      · simp only [refinedPositions_append, refinedPositions, g2, List.length_append,
          List.length_cons, List.length_nil] at h3 ⊢
        omega
    · refine ⟨?_, ?_, ?_⟩
      · simpa [outstanding, handled_append, handled, refinedPositions_append, refinedPositions] using h1
      · simp only [handled_append, handled, List.length_append, List.length_cons, List.length_nil, hpq,
          ObjQueue.popTo_queued] at h2 ⊢
        omega
      · simpa [refinedPositions_append, refinedPositions] using h3
  raise := by
    rintro c e c' hG ⟨h1, h2, h3⟩ hs
    obtain ⟨-, -, pos, rest, hpq, rfl⟩ := raise_type hS hG.1 hs
    refine ⟨h1, ?_, h3⟩
    simp only [hpq, List.length_cons, ObjQueue.popTo_queued] at h2 ⊢
    omega
  done := by
    rintro c s r hG ⟨h1, h2, h3⟩ hs hf hr
    obtain ⟨st, e, g1, g2, -, -, g3⟩ := taskDone_ok hS hG.1 hs r
    rw [e]
    have hlen := List.length_erase_of_mem hs
    have hpos : 0 < c.tasks.length := List.length_pos_of_mem hs
    refine ⟨?_, ?_, ?_⟩
    · simp only [outstanding, handled_append, handled, refinedPositions_append, refinedPositions, List.length_append,
        List.length_cons, List.length_nil, List.length_map, RunQueue.finishOf_queued, hlen, add_zero] at h1 ⊢
      omega
    · simp only [handled_append, handled, List.length_append, List.length_cons, List.length_nil, hlen] at h2 ⊢
      rcases g3 with ⟨-, -, -, g4⟩ | ⟨g4, -⟩
      · rw [g4]
        rcases objAddObjects c.state.positionQueue (FL.normalizePosition A.rnd p.coord r.pos) with ⟨-, h5⟩ | ⟨-, h5⟩ <;> rw [h5]
        · omega
        · simp only [List.length_append, List.length_cons, List.length_nil]; omega
      · rw [g4]; omega
    · simp only [g2, refinedPositions_append, refinedPositions, List.append_nil]
      exact h3
  fail := by
    rintro c s id hG ⟨h1, h2, h3⟩ hs
    have hlen := List.length_erase_of_mem hs
    have hpos : 0 < c.tasks.length := List.length_pos_of_mem hs
    refine ⟨?_, ?_, ?_⟩
    · simp only [outstanding, taskFail, handled_append, handled, refinedPositions_append, refinedPositions, List.length_append,
        List.length_cons, List.length_nil, List.length_map, hlen, add_zero] at h1 ⊢
      omega
    · simp only [taskFail, handled_append, handled, List.length_append, List.length_cons, List.length_nil, hlen] at h2 ⊢
      omega
    · simpa [taskFail, refinedPositions_append, refinedPositions] using h3
  save := by
    intro c enum hG hP he
    rcases doSave_eq p c enum with ⟨-, -, e⟩ | ⟨-, e⟩ <;> rw [e] <;> exact ⟨hP.simplices, hP.log, hP.refined⟩
  phase := fun c ph hG hP => ⟨hP.simplices, hP.log, hP.refined⟩

theorem work_start (hS : FloatSearch A p Res) {disk initial : Option (Saved d)} (hi : ∀ sv, initial = some sv → DiskOk A p Res sv) {c : Ctl d} (h : startFrom A p disk initial = .ok c) :
    WorkInv p (startSimplices p initial).length (startPositions initial).length (startRefined initial).length c := by
  obtain ⟨-, h1, h2, h3, h4, h5, h6, h7, h8, -⟩ := start_fields hS hi h
  refine ⟨?_, ?_, ?_⟩
  · simpa [h3, h4, h5, handled, outstanding, refinedPositions] using h6
  · simp [h3, h4, h5, h7, handled, ObjQueue.create]
  · simp [h8, h3, refinedPositions]

theorem stencilSize_eq' (p : CtlParams d) : stencilSize p = (p.stencil.getD []).length := by
  unfold stencilSize
  cases p.stencil <;> rfl

/-- the record of a session, however it started -/
theorem reach_work (hS : FloatSearch A p Res) {n : ℕ} {c : Ctl d} (h : Reach A p Res n c) :
    ∃ B P R, WorkInv p B P R c ∧ (p.forceInitialMesh = false → B ≤ p.mesh.length + stencilSize p * R) := by
  refine (reach_of_elem hS (P := fun _ c => (∃ B P R, WorkInv p B P R c ∧ (p.forceInitialMesh = false → B ≤ p.mesh.length + stencilSize p * R)) ∧
      ∀ sv, c.disk = some sv → p.forceInitialMesh = false → sv.simplices.length ≤ p.mesh.length + stencilSize p * sv.refined.length) (fun _ => ?_) ?_ ?_ h).2.1
  · refine Elem.and ⟨?_, ?_, ?_, ?_, ?_, ?_⟩ (elem_disk hS (fun c h => h.1.1) ?_)
    · rintro c c' hG ⟨B, P, R, h1, h2⟩ hs; exact ⟨B, P, R, (elem_work hS).fill c c' hG h1 hs, h2⟩
    · rintro c e c' hG ⟨B, P, R, h1, h2⟩ hs; exact ⟨B, P, R, (elem_work hS).raise c e c' hG h1 hs, h2⟩
    · rintro c s r hG ⟨B, P, R, h1, h2⟩ hs hf hr; exact ⟨B, P, R, (elem_work hS).done c s r hG h1 hs hf hr, h2⟩
    · rintro c s id hG ⟨B, P, R, h1, h2⟩ hs; exact ⟨B, P, R, (elem_work hS).fail c s id hG h1 hs, h2⟩
    · rintro c en hG ⟨B, P, R, h1, h2⟩ hs; exact ⟨B, P, R, (elem_work hS).save c en hG h1 hs, h2⟩
    · rintro c ph hG ⟨B, P, R, h1, h2⟩; exact ⟨B, P, R, (elem_work hS).phase c ph hG h1, h2⟩
    · rintro c enum ⟨hG, B, P, R, h1, h2⟩ he hforce
      have e1 : enum.length = (c.tasks ++ c.failed.map Prod.fst).length := by
        apply List.Perm.length_eq
        have nd := (List.nodup_append.1 (List.nodup_append.1 hG.1.nodup).2.1).1
        rw [List.perm_ext_iff_of_nodup he.1 nd]
        intro s; rw [he.2, hG.1.run]
      have h2 := h2 hforce
      have h3 := h1.simplices
      have h4 := h1.refined
      change (enum ++ c.state.simplexQueue.base.queued).length ≤ _ + _ * (c.state.result.refined.flat).length
      rw [h4, mul_add]
      simp only [outstanding, List.length_append] at h3 e1 ⊢
      omega
  · intro n c h
    obtain ⟨-, h1, -⟩ := start_fields hS (by simp) h
    exact ⟨⟨_, _, _, work_start hS (by simp) h, fun _ => Nat.le_add_right _ _⟩, by rw [h1]; simp⟩
  · intro n c c' hG hP h
    obtain ⟨-, h1, -⟩ := start_fields hS hG.2 h
    refine ⟨⟨_, _, _, work_start hS hG.2 h, fun hforce => ?_⟩, by rw [h1]; exact hP.2⟩
    cases hdk : c.disk with
    | none => exact Nat.le_add_right _ _
    | some sv => simpa [startSimplices, startRefined, hforce] using hP.2 sv hdk hforce

theorem scheduled_le (h : Acct A p Res c) : (scheduledSimplices c.log).length ≤ (handled c.log ++ outstanding c).length := by
  have h1 : ∀ l : List (LogEntry d), (completedSimplices l).length ≤ (handled l).length := by
    intro l
    induction l with
    | nil => simp [completedSimplices, handled]
    | cons x l ih => cases x <;> simp [completedSimplices, handled] <;> omega
  have := h.sched.length_eq
  have h2 := h1 c.log
  simp only [outstanding, List.length_append, List.length_map] at this ⊢
  omega

/-- what a session does is bounded by the number of refinement centres -/
theorem scheduled_bound (hS : FloatSearch A p Res) (hforce : p.forceInitialMesh = false) {n : ℕ} {c : Ctl d} (h : Reach A p Res n c) {N : ℕ}
    (hb : c.state.result.refined.values.length ≤ N) :
    (scheduledSimplices c.log).length ≤ p.mesh.length + (p.stencil.getD []).length * N := by
  obtain ⟨B, P, R, hw, hB⟩ := reach_work hS h
  have hB := hB hforce
  have hs := scheduled_le (good_reach hS h).1
  have h1 := hw.simplices
  have h3 := hw.refined
  rw [stencilSize_eq'] at h1 hB
  have h5 := Nat.mul_le_mul_left ((p.stencil.getD []).length) hb
  have h6 : c.state.result.refined.values.length = R + (refinedPositions c.log).length := h3
  rw [h6, mul_add] at h5
  omega

/-! ## termination -/

theorem fillStep_log {c c' : Ctl d} (hs : fillStep A p c = .next c') : c.log <+: c'.log ∧ c'.log.length = c.log.length + 1 := by
  obtain ⟨-, ⟨x, rest, hq, -, rfl⟩ | ⟨x, rest, hq, -, rfl⟩ | ⟨pos, rest, st, res, hq, hpq, -, hst, -, rfl⟩ |
      ⟨pos, rest, hq, hpq, -, -, rfl⟩⟩ := fillStep_next hs <;> exact ⟨List.prefix_append _ _, by simp⟩

theorem taskDone_log (c : Ctl d) (s : Simplex d) (r : SRes d) : c.log.length < (taskDone A p c s r).log.length := by
  unfold taskDone
  split
  · simp [taskFail]
  · split <;> simp

theorem fill_same_log {c c' : Ctl d} (h : fill A p c = (none, c')) (hl : c'.log.length = c.log.length) : c' = c := by
  rw [fill] at h
  split at h
  · injection h with _ h; exact h.symm
  · injection h with h _; cases h
  · rename_i c1 hs
    exfalso
    have h1 := (fillStep_log hs).2
    obtain ⟨c2, hc2, h2 | ⟨err, h2, -⟩⟩ := fill_induction (A := A) (p := p) (P := fun x => c1.log.length ≤ x.log.length)
      (fun a b ha hs => by have := (fillStep_log hs).2; omega) c1 le_rfl _ _ h
    · rw [← h2.2.1] at hc2
      omega
    · cases h2

theorem fill_log_le {c c' : Ctl d} (h : fill A p c = (none, c')) : c.log.length ≤ c'.log.length := by
  obtain ⟨c2, hc2, h2 | ⟨err, h2, -⟩⟩ := fill_induction (A := A) (p := p) (P := fun x => c.log.length ≤ x.log.length)
      (fun a b ha hs => by have := (fillStep_log hs).2; omega) c le_rfl _ _ h
  · rw [h2.2.1]; exact hc2
  · cases h2

theorem fill_raise_log_le {c c' : Ctl d} {e : Err} (h : fill A p c = (some e, c')) : c.log.length ≤ c'.log.length := by
  obtain ⟨c2, hc2, h2 | ⟨err, -, h2⟩⟩ := fill_induction (A := A) (p := p) (P := fun x => c.log.length ≤ x.log.length)
      (fun a b ha hs => by have := (fillStep_log hs).2; omega) c le_rfl _ _ h
  · cases h2.1
  · have : c'.log = c2.log := by
      unfold fillStep at h2
      split at h2
      · cases h2
      split at h2
      · split at h2
        · cases h2
        · split at h2
          · cases h2
          · injection h2 with _ h2; subst h2; rfl
      · split at h2
        · split at h2
          · split at h2
            · split at h2
              · cases h2
              · injection h2 with _ h2; subst h2; rfl
            · injection h2 with _ h2; subst h2; rfl
          · cases h2
        · cases h2
    rw [this]; exact hc2

theorem step_log_le {c c' : Ctl d} (h : Step A p Res c c') : c.log.length ≤ c'.log.length := by
  cases h with
  | tickRaise s e enum hph hf henum => exact le_of_eq (by simp [(doSave_same p c enum).2.2.1])
  | tickReturn enum hph hf hcond henum => exact le_of_eq (by simp [(doSave_same p c enum).2.2.1])
  | tickFill _ hph hf hcond hfill => exact fill_log_le hfill
  | tickFillRaise c1 e enum hph hf hcond hfill henum =>
    show _ ≤ (doSave p c1 enum).log.length
    rw [(doSave_same p c1 enum).2.2.1]; exact fill_raise_log_le hfill
  | exitSaveFail hph hx hsv => exact le_rfl
  | fillRaiseSaveFail c1 e hph hf hcond hfill hsv => exact fill_raise_log_le (c' := c1) hfill
  | done s r hph hs hr => exact (taskDone_log c s r).le
  | fail s id hph hs => simp [taskFail]
  | save enum hph henum => exact le_of_eq (by simp [(doSave_same p c enum).2.2.1])
  | saveFail hph hsv => exact le_rfl

theorem step_same_log {c c' : Ctl d} (h : Step A p Res c c') (hl : c'.log.length = c.log.length) :
    c.phase = .running ∧ (c'.phase = .running → c'.tasks = c.tasks) := by
  cases h with
  | tickRaise s e enum hph hf henum => exact ⟨hph, fun h => by cases h⟩
  | tickReturn enum hph hf hcond henum => exact ⟨hph, fun h => by cases h⟩
  | tickFill _ hph hf hcond hfill => exact ⟨hph, fun _ => by rw [fill_same_log hfill hl]⟩
  | tickFillRaise c1 e enum hph hf hcond hfill henum => exact ⟨hph, fun h => by cases h⟩
  | exitSaveFail hph hx hsv => exact ⟨hph, fun h => by cases h⟩
  | fillRaiseSaveFail c1 e hph hf hcond hfill hsv => exact ⟨hph, fun h => by cases h⟩
  | done s r hph hs hr => exfalso; have := taskDone_log (A := A) (p := p) c s r; omega
  | fail s id hph hs => simp [taskFail] at hl
  | save enum hph henum => exact ⟨hph, fun _ => by rw [(doSave_same p c enum).1]⟩
  | saveFail hph hsv => exact ⟨hph, fun _ => rfl⟩

theorem numRunning_eq {c : Ctl d} (h : Acct A p Res c) : c.state.simplexQueue.numRunning = c.tasks.length + c.failed.length := by
  have hnd := (List.nodup_append.1 (List.nodup_append.1 h.nodup).2.1).1
  have hfs : c.state.simplexQueue.running = (c.tasks ++ c.failed.map Prod.fst).toFinset := by
    ext s
    rw [List.mem_toFinset, h.run]
  unfold RunQueue.numRunning
  rw [hfs, List.toFinset_card_of_nodup hnd]
  simp

/-- with `num_minimize_parallel ≥ 1`, if the search is not finished after a round, a minimization is running or has failed -/
theorem no_stall (hS : FloatSearch A p Res) {c c' : Ctl d} (h : Acct A p Res c) (hN : 1 ≤ p.numMinimizeParallel) (hf : fill A p c = (none, c')) (hc : loopCondition c') :
    c'.tasks ≠ [] ∨ c'.failed ≠ [] := by
  obtain ⟨c1, h1, h2 | ⟨err, h2, -⟩⟩ := fill_induction (P := Acct A p Res) (fun _ _ h hs => Acct.fillStep hS h hs) c h _ _ hf
  · obtain ⟨-, rfl, hstop⟩ := h2
    have hn := numRunning_eq h1
    have hpos : 0 < c'.state.simplexQueue.numRunning := by
      rcases fillStep_stop hstop with h3 | ⟨h3, h4⟩
      · omega
      · rcases hc with hc | hc
        · unfold RunQueue.finished at hc
          rw [not_and] at hc
          have : c'.state.simplexQueue.running ≠ ∅ := fun e => hc e h3
          exact Finset.card_pos.2 (Finset.nonempty_iff_ne_empty.2 this)
        · simp [ObjQueue.hasQueued, h4] at hc
    by_contra hcon
    push Not at hcon
    rw [hn, hcon.1, hcon.2] at hpos
    simp at hpos
  · cases h2

theorem terminates (hS : FloatSearch A p Res) (hN : 1 ≤ p.numMinimizeParallel) {k : ℕ} (f : ℕ → Ctl d) (h0 : Reach A p Res k (f 0)) {N : ℕ}
    (hbound : ∀ n, Reach A p Res k (f n) → (f n).state.result.refined.values.length ≤ N) : ¬ FloatFairRun A p Res f := by
  intro hf
  have hreach : ∀ n, Reach A p Res k (f n) := by
    intro n
    induction n with
    | zero => exact h0
    | succ n ih => exact .step ih (hf.step n)
  obtain ⟨B, P, R, w0, -⟩ := reach_work hS h0
  have hwork : ∀ n, Good A p Res (f n) ∧ WorkInv p B P R (f n) := by
    have e1 : Elem A p Res (fun _ => True) (fun c => Good A p Res c ∧ WorkInv p B P R c) := (elem_good hS).and ((elem_work hS).mono fun c h => h.2)
    intro n
    induction n with
    | zero => exact ⟨good_reach hS h0, w0⟩
    | succ n ih => exact e1.step ih (hf.step n)
  obtain ⟨M, hM⟩ : ∃ M, ∀ n, (f n).log.length ≤ M := by
    refine ⟨3 * (B + stencilSize p * N) + P, fun n => ?_⟩
    have hw := (hwork n).2
    have hb := hbound n (hreach n)
    have h1 := hw.simplices
    have h2 := hw.log
    have h3 := hw.refined
    have h4 : (refinedPositions (f n).log).length ≤ N := by
      change (f n).state.result.refined.flat.length ≤ _ at hb
      omega
    have h5 := Nat.mul_le_mul_left (stencilSize p) h4
    simp only [outstanding, List.length_append, List.length_map] at h1
    omega
  have hmono : ∀ n m, n ≤ m → (f n).log.length ≤ (f m).log.length := by
    intro n m hnm
    induction m, hnm using Nat.le_induction with
    | base => exact le_rfl
    | succ m _ ih => exact ih.trans (step_log_le (hf.step m))
  obtain ⟨n0, hn0⟩ : ∃ n0, ∀ m, n0 ≤ m → (f m).log.length = (f n0).log.length := by
    set g : ℕ → ℕ := fun n => M - (f n).log.length
    refine ⟨Function.argmin g, fun m hm => ?_⟩
    have h1 : g (Function.argmin g) ≤ g m := Function.argmin_le g m
    have h2 := hmono _ _ hm
    have h3 := hM m
    have h4 := hM (Function.argmin g)
    simp only [g] at h1 h2 h4 ⊢
    omega
  have hrun : ∀ m, n0 ≤ m → (f m).phase = .running := fun m hm =>
    (step_same_log (hf.step m) (by rw [hn0 m hm, hn0 (m + 1) (by omega)])).1
  have htasks : ∀ m, n0 ≤ m → (f m).tasks = (f n0).tasks := by
    intro m hm
    induction m, hm using Nat.le_induction with
    | base => rfl
    | succ m hm ih =>
      rw [← ih]
      exact (step_same_log (hf.step m) (by rw [hn0 m hm, hn0 (m + 1) (by omega)])).2 (hrun _ (by omega))
  obtain ⟨m, hm, hturn⟩ := hf.turns n0
  rcases hturn with h1 | ⟨h1, h2, h3⟩
  · exact h1 (hrun _ (by omega))
  · have e := fill_same_log h3 (by rw [hn0 m hm, hn0 (m + 1) (by omega)])
    have := no_stall hS (hwork m).1.1 hN h3 (by rw [e]; exact h2)
    rw [e, h1] at this
    have hne : (f m).tasks ≠ [] := by simpa using this
    obtain ⟨s, hs⟩ := List.exists_mem_of_ne_nil _ hne
    obtain ⟨m', hm', hs'⟩ := hf.tasks m s hs
    rw [htasks m' (by omega), ← htasks m hm] at hs'
    exact hs' hs

end NF.FL
