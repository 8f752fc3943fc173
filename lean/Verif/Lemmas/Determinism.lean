import Verif.Spec.Determinism
import Verif.Lemmas.Phase
import Verif.Lemmas.Hist

/-! # One minimization at a time: the search is a deterministic machine -/

noncomputable section
open Classical
namespace NF
open Spec CoordSys
variable {d : ℕ}

/-- forget whether things have been saved -/
def Ctl.strip (c : Ctl d) : Ctl d := { c with state := c.state.setSaved, disk := none, phase := .running, base := [] }

/-- forget the same in the outcome of a scheduling step -/
def FillStep.strip : FillStep d → FillStep d
  | .stop => .stop
  | .next c => .next c.strip
  | .raise e c => .raise e c.strip

@[simp] theorem strip_strip (c : Ctl d) : c.strip.strip = c.strip := rfl

theorem strip_ext {a b : Ctl d}
    (h1 : ({ a.state.result with needsSaving := false } : Container d) = { b.state.result with needsSaving := false })
    (h2 : ({ a.state.simplexQueue with base := { a.state.simplexQueue.base with needsSaving := false } } : RunQueue (Simplex d)) =
      { b.state.simplexQueue with base := { b.state.simplexQueue.base with needsSaving := false } })
    (h3 : ({ a.state.positionQueue with needsSaving := false } : ObjQueue (Vec d)) = { b.state.positionQueue with needsSaving := false })
    (h4 : a.tasks = b.tasks) (h5 : a.failed = b.failed) (h6 : a.log = b.log) : a.strip = b.strip := by
  unfold Ctl.strip CtlState.setSaved
  rw [h1, h2, h3, h4, h5, h6]

theorem checkSimplex_saved (p : CtlParams d) (res : Container d) (b : Bool) (x : Simplex d) :
    checkSimplex p { res with needsSaving := b } x = checkSimplex p res x := by
  unfold checkSimplex
  suffices ∀ n, checkSimplexLoop p { res with needsSaving := b } n x = checkSimplexLoop p res n x from this 0
  induction x with
  | nil => intro n; rfl
  | cons a x ih =>
    intro n
    unfold checkSimplexLoop
    rw [ih, ih]
    rfl

theorem addObjects_saved {α : Type} (q : ObjQueue α) (b : Bool) (l : List α) :
    { ({ q with needsSaving := b } : ObjQueue α).addObjects l with needsSaving := false } =
      { q.addObjects l with needsSaving := false } := by
  unfold ObjQueue.addObjects
  simp only
  split <;> rfl

theorem fillStep_strip (p : CtlParams d) (c : Ctl d) : (fillStep p c.strip).strip = (fillStep p c).strip := by
  have hn : c.strip.state.simplexQueue.numRunning = c.state.simplexQueue.numRunning := rfl
  unfold fillStep
  rw [hn]
  split
  · rfl
  · cases hq : c.state.simplexQueue.base.queued with
    | cons x rest =>
      have hq' : c.strip.state.simplexQueue.base.queued = x :: rest := hq
      simp only [RunQueue.popQueued_cons hq, RunQueue.popQueued_cons hq']
      have hc : checkSimplex p c.strip.state.result x = checkSimplex p c.state.result x := checkSimplex_saved _ _ _ _
      rw [hc]
      split
      · rfl
      · have hx : x ∈ (c.state.simplexQueue.popTo x rest).running := by simp
        have hx' : x ∈ (c.strip.state.simplexQueue.popTo x rest).running := by simp
        simp only [RunQueue.setFinished_of_mem hx, RunQueue.setFinished_of_mem hx']
        rfl
    | nil =>
      have hq' : c.strip.state.simplexQueue.base.queued = [] := hq
      simp only [RunQueue.popQueued_nil hq, RunQueue.popQueued_nil hq']
      cases hp : c.state.positionQueue.queued with
      | nil =>
        have hp' : c.strip.state.positionQueue.queued = [] := hp
        simp only [ObjQueue.popQueued_nil hp, ObjQueue.popQueued_nil hp']
      | cons y ys =>
        have hp' : c.strip.state.positionQueue.queued = y :: ys := hp
        simp only [ObjQueue.popQueued_cons hp, ObjQueue.popQueued_cons hp']
        have hc : checkPosRefinement p c.strip.state.result y p.recheckCountCutoff
            = checkPosRefinement p c.state.result y p.recheckCountCutoff := rfl
        rw [hc]
        split
        · cases hst : p.stencil with
          | none => rfl
          | some st =>
            simp only [FillStep.strip, Ctl.strip, CtlState.setSaved, RunQueue.addObjects]
            have := addObjects_saved c.state.simplexQueue.base false (normalizeSimplices (translateStencil y st))
            simp only [this]
            rfl
        · rfl

/-- the next event of a search with one minimization at a time -/
def micro (p : CtlParams d) (R : Minimizer d) (c : Ctl d) : Ctl d :=
  match c.tasks with
  | s :: _ => match R c.state.result.nodes.values s with
    | .ok r => (taskDone p c s r).strip
    | .error id => (taskFail c s (.gap id)).strip
  | [] =>
    if c.failed = [] then
      match (fillStep p c).strip with
      | .next c' => c'
      | _ => c
    else c

theorem strip_taskDone (p : CtlParams d) (c : Ctl d) (s : Simplex d) (r : SRes d) (h : s ∈ c.state.simplexQueue.running) :
    (taskDone p c.strip s r).strip = (taskDone p c s r).strip := by
  have h' : s ∈ c.strip.state.simplexQueue.running := h
  rw [taskDone_of_mem r h, taskDone_of_mem r h']
  have ha : (c.strip.state.result.addResult r).2 = (c.state.result.addResult r).2 := by
    simp only [Container.addResult_def]; split <;> simp_all [Ctl.strip, CtlState.setSaved]
  have hb : (c.strip.state.result.addResult r).1 = { (c.state.result.addResult r).1 with needsSaving := false } := by
    have hg : c.strip.state.result.gapThreshold = c.state.result.gapThreshold := rfl
    simp only [Container.addResult_def, hg]; split <;> rfl
  have hr : (processResult p c.strip.state r).result = { (processResult p c.state r).result with needsSaving := false } := by
    rw [(processResult_cases p c.strip.state r).1, (processResult_cases p c.state r).1, hb]
  have hq : { (processResult p c.strip.state r).positionQueue with needsSaving := false } =
      { (processResult p c.state r).positionQueue with needsSaving := false } := by
    unfold processResult
    simp only [ha, hb]
    have hc : checkPosRefinement p { (c.state.result.addResult r).1 with needsSaving := false } (p.coord.normalizePosition r.pos) 0
        = checkPosRefinement p (c.state.result.addResult r).1 (p.coord.normalizePosition r.pos) 0 := rfl
    rw [hc]
    split
    · split
      · exact addObjects_saved c.state.positionQueue false _
      · rfl
    · rfl
  exact strip_ext (by simp only [hr]) rfl hq rfl rfl rfl

theorem micro_task {p : CtlParams d} (R : Minimizer d) {c : Ctl d} {s : Simplex d} (h : Acct p c) (hs : c.tasks = [s]) :
    micro p R c.strip = match R c.state.result.nodes.values s with
      | .ok r => (taskDone p c s r).strip
      | .error id => (taskFail c s (.gap id)).strip := by
  have hrun : s ∈ c.state.simplexQueue.running := (h.run s).1 (by simp [hs])
  have h1 : c.strip.tasks = [s] := hs
  have h2 : c.strip.state.result.nodes = c.state.result.nodes := rfl
  unfold micro
  rw [h1, h2]
  simp only
  split
  · exact strip_taskDone p c s _ hrun
  · rfl

theorem micro_fill {p : CtlParams d} (R : Minimizer d) {c c' : Ctl d} (h1 : c.tasks = []) (h2 : c.failed = [])
    (h : fillStep p c = .next c') : micro p R c.strip = c'.strip := by
  have h1' : c.strip.tasks = [] := h1
  have h2' : c.strip.failed = [] := h2
  unfold micro
  rw [h1', fillStep_strip, h]
  simp [h2', FillStep.strip]

theorem micro_stop {p : CtlParams d} (R : Minimizer d) {c : Ctl d} (h1 : c.tasks = []) (h2 : c.failed ≠ [] ∨ ∀ c', fillStep p c ≠ .next c') :
    micro p R c.strip = c.strip := by
  have h1' : c.strip.tasks = [] := h1
  unfold micro
  rw [h1', fillStep_strip]
  simp only
  split_ifs with h
  · have h2 := h2.resolve_left (fun hn => hn h)
    cases hf : fillStep p c with
    | stop => rfl
    | raise e c' => rfl
    | next c' => exact absurd hf (h2 c')
  · rfl

/-- with at most one minimization at a time -/
structure SeqInv (p : CtlParams d) (c : Ctl d) : Prop where
  one : c.tasks.length + c.failed.length ≤ 1
  ended : c.phase ≠ .running → c.tasks = []

theorem idle {p : CtlParams d} (hp : p.numMinimizeParallel ≤ 1) {c : Ctl d} (h : Acct p c)
    (hn : (c.state.simplexQueue.numRunning : ℤ) < p.numMinimizeParallel) : c.tasks = [] ∧ c.failed = [] := by
  have h0 : c.state.simplexQueue.running = ∅ := by
    rw [← Finset.card_eq_zero]
    unfold RunQueue.numRunning at hn
    omega
  have : c.tasks ++ c.failed.map Prod.fst = [] := by
    rw [List.eq_nil_iff_forall_not_mem]
    intro s hs
    have := (h.run s).1 hs
    rw [h0] at this
    simp at this
  simpa using this

theorem noLoop_idle {p : CtlParams d} {c : Ctl d} (h : Acct p c) (hn : ¬ loopCondition c) :
    c.tasks = [] ∧ c.failed = [] ∧ c.state.simplexQueue.base.queued = [] ∧ c.state.positionQueue.queued = [] := by
  unfold loopCondition RunQueue.finished ObjQueue.hasQueued at hn
  push Not at hn
  obtain ⟨⟨h0, h1⟩, h2⟩ := hn
  have : c.tasks ++ c.failed.map Prod.fst = [] := by
    rw [List.eq_nil_iff_forall_not_mem]
    intro s hs
    have := (h.run s).1 hs
    rw [h0] at this
    simp at this
  have h3 : c.state.positionQueue.queued = [] := by simpa using h2
  have h4 : c.tasks = [] ∧ c.failed = [] := by simpa using this
  exact ⟨h4.1, h4.2, h1, h3⟩

/-- where a search with the minimization `R` stands: after some number of events -/
structure At (p : CtlParams d) (R : Minimizer d) (c0 c : Ctl d) (k : ℕ) : Prop where
  log : ((micro p R)^[k] c0.strip).log = c.log
  result : SameC ((micro p R)^[k] c0.strip).state.result c.state.result
  tasks : ((micro p R)^[k] c0.strip).tasks = c.tasks
  failed : ((micro p R)^[k] c0.strip).failed = c.failed
  running : c.phase = .running → (micro p R)^[k] c0.strip = c.strip
  ended : c.phase ≠ .running → micro p R ((micro p R)^[k] c0.strip) = (micro p R)^[k] c0.strip
  returned : c.phase = .returned → c.failed = [] ∧ ¬ loopCondition ((micro p R)^[k] c0.strip)
  raised : ∀ e, c.phase = .raised e → (e = .io ∧ p.saveFile = true) ∨ (∃ s, (s, e) ∈ c.failed) ∨
    (e = .type ∧ c.failed = [] ∧ loopCondition ((micro p R)^[k] c0.strip))

theorem At.of_strip {p : CtlParams d} {R : Minimizer d} {c0 c : Ctl d} {k : ℕ} (h : (micro p R)^[k] c0.strip = c.strip)
    (hr : c.phase = .running) : At p R c0 c k := by
  refine ⟨by rw [h]; rfl, by rw [h]; rfl, by rw [h]; rfl, by rw [h]; rfl, fun _ => h, fun hn => absurd hr hn, ?_, ?_⟩
  · intro h; rw [hr] at h; cases h
  · intro e h; rw [hr] at h; cases h


theorem fill_micro {p : CtlParams d} (hd : DistinctInput p) (hp : p.numMinimizeParallel ≤ 1) (R : Minimizer d) {c c' : Ctl d} {e : Option Err}
    (ha : Acct p c) (hs : SeqInv p c) (hph : c.phase = .running) (hf : c.failed = []) (h : fill p c = (e, c')) :
    ∃ c1, (Acct p c1 ∧ SeqInv p c1 ∧ c1.phase = .running ∧ c1.failed = [] ∧ ∃ j, (micro p R)^[j] c.strip = c1.strip) ∧
      ((e = none ∧ c' = c1 ∧ fillStep p c1 = .stop) ∨ ∃ err, e = some err ∧ fillStep p c1 = .raise err c') := by
  refine fill_induction (P := fun c1 => Acct p c1 ∧ SeqInv p c1 ∧ c1.phase = .running ∧ c1.failed = [] ∧
    ∃ j, (micro p R)^[j] c.strip = c1.strip) ?_ c ⟨ha, hs, hph, hf, 0, rfl⟩ _ _ h
  rintro x x' ⟨h1, h2, h3, h4, j, h5⟩ hx
  obtain ⟨ht, hf⟩ := idle hp h1 (fillStep_next hx).1
  have h6 := fillStep_disk hx
  have hph : x'.phase = .running := h6.2.1.trans h3
  have hf' : x'.failed = [] := h6.2.2.1.trans h4
  refine ⟨h1.fillStep hd hx, ⟨?_, fun hn => absurd hph hn⟩, hph, hf', j + 1, ?_⟩
  · rw [hf']
    obtain ⟨-, ⟨y, rest, hq, -, e⟩ | ⟨y, rest, hq, -, e⟩ | ⟨pos, rest, st, hq, hpq, -, hst, e⟩ |
      ⟨pos, rest, hq, hpq, -, -, e⟩⟩ := fillStep_next hx <;> subst e <;> simp [ht]
  · rw [Function.iterate_succ_apply', h5]
    exact micro_fill R ht hf hx

theorem At.doSave {p : CtlParams d} {R : Minimizer d} {c0 c : Ctl d} {k : ℕ} (h : (micro p R)^[k] c0.strip = c.strip) (enum : List (Simplex d)) :
    (micro p R)^[k] c0.strip = (doSave p c enum).strip := by
  rw [h]
  rcases doSave_eq p c enum with ⟨-, -, e⟩ | ⟨-, e⟩ <;> rw [e] <;> rfl

theorem loopCondition_strip (c : Ctl d) : loopCondition c.strip ↔ loopCondition c := Iff.rfl

theorem SeqInv.doSave {p : CtlParams d} {c : Ctl d} (h : SeqInv p c) (enum : List (Simplex d)) : SeqInv p (doSave p c enum) := by
  obtain ⟨h1, h2, -, h3, -⟩ := doSave_same p c enum
  exact ⟨by rw [h1, h2]; exact h.one, by rw [h1, h3]; exact h.ended⟩

/-- the search ends in a state that is reached after `k` events, and whose result and log the final state has -/
theorem At.finish {p : CtlParams d} {R : Minimizer d} {c0 c1 c : Ctl d} {k : ℕ} (h : (micro p R)^[k] c0.strip = c1.strip)
    (hl : c.log = c1.log) (hr : SameC c1.state.result c.state.result) (ht : c.tasks = c1.tasks) (hf : c.failed = c1.failed)
    (hph : c.phase ≠ .running) (hm : micro p R c1.strip = c1.strip)
    (hret : c.phase = .returned → c1.failed = [] ∧ ¬ loopCondition c1)
    (hra : ∀ e, c.phase = .raised e → (e = .io ∧ p.saveFile = true) ∨ (∃ s, (s, e) ∈ c1.failed) ∨ (e = .type ∧ c1.failed = [] ∧ loopCondition c1)) :
    At p R c0 c k := by
  refine ⟨by rw [h, hl]; rfl, ?_, by rw [h, ht]; rfl, by rw [h, hf]; rfl, fun hn => absurd hn hph, fun _ => by rw [h, hm], ?_, ?_⟩
  · rw [h]
    exact SameC.of_fields hr.fields
  · rw [h, hf]; exact hret
  · rw [h, hf]; exact hra

theorem sameC_doSave (p : CtlParams d) (c : Ctl d) (enum : List (Simplex d)) : SameC c.state.result (NF.doSave p c enum).state.result := by
  rcases doSave_eq p c enum with ⟨-, -, e⟩ | ⟨-, e⟩ <;> rw [e] <;> rfl

theorem sameC_refl (c : Container d) : SameC c c := rfl

theorem stop_of_empty {p : CtlParams d} {c : Ctl d} (h1 : c.state.simplexQueue.base.queued = []) (h2 : c.state.positionQueue.queued = []) :
    ∀ c', fillStep p c ≠ .next c' := by
  intro c' h
  obtain ⟨-, ⟨y, rest, hq, -, e⟩ | ⟨y, rest, hq, -, e⟩ | ⟨pos, rest, st, hq, hpq, -, hst, e⟩ |
      ⟨pos, rest, hq, hpq, -, -, e⟩⟩ := fillStep_next h
  · rw [h1] at hq; cases hq
  · rw [h1] at hq; cases hq
  · rw [h2] at hpq; cases hpq
  · rw [h2] at hpq; cases hpq

theorem loop_of_raise {p : CtlParams d} {c c' : Ctl d} {e : Err} (h : fillStep p c = .raise e c') : loopCondition c := by
  obtain ⟨-, -, pos, rest, hq, -⟩ := fillStep_raise h
  right
  simp [ObjQueue.hasQueued, hq]

theorem raise_idle {p : CtlParams d} (hp : p.numMinimizeParallel ≤ 1) {c c' : Ctl d} {e : Err} (ha : Acct p c)
    (h : fillStep p c = .raise e c') : c.tasks = [] ∧ c.failed = [] := by
  refine idle hp ha ?_
  unfold fillStep at h
  split at h
  · cases h
  · rename_i hlt
    simpa using hlt

theorem at_step {p : CtlParams d} (hd : DistinctInput p) (hp : p.numMinimizeParallel ≤ 1) {R : Minimizer d} {c0 c c' : Ctl d}
    (ha : Acct p c) (hq : SeqInv p c) (hk : ∃ k, At p R c0 c k) (hs : Step p c c') (ho : Obeys R c c') :
    SeqInv p c' ∧ ∃ k, At p R c0 c' k := by
  obtain ⟨k, hk⟩ := hk
  cases hs with
  | tickRaise s e enum hph hf henum =>
    obtain ⟨e1, e2, e3, e4, -⟩ := doSave_same p c enum
    have hlen := hq.one
    have hpos := List.length_pos_of_mem hf
    have ht : c.tasks = [] := List.eq_nil_of_length_eq_zero (by omega)
    refine ⟨⟨(hq.doSave enum).one, fun _ => e1.trans ht⟩, k, At.finish (hk.running hph) e3 (sameC_doSave p c enum) e1 e2 (by simp) ?_ (by simp) ?_⟩
    · exact micro_stop R ht (Or.inl (List.ne_nil_of_mem hf))
    · intro e' he
      cases he
      exact Or.inr (Or.inl ⟨s, hf⟩)
  | tickReturn enum hph hf hcond henum =>
    obtain ⟨e1, e2, e3, e4, -⟩ := doSave_same p c enum
    obtain ⟨h1, h2, h3, h4⟩ := noLoop_idle ha hcond
    refine ⟨⟨(hq.doSave enum).one, fun _ => e1.trans h1⟩, k, At.finish (hk.running hph) e3 (sameC_doSave p c enum) e1 e2 (by simp) ?_ ?_ (by simp)⟩
    · exact micro_stop R h1 (Or.inr (stop_of_empty h3 h4))
    · exact fun _ => ⟨hf, hcond⟩
  | tickFill _ hph hf hcond hfill =>
    obtain ⟨c1, ⟨h1, h2, h3, h4, j, h5⟩, ⟨-, h6, -⟩ | ⟨err, h6, -⟩⟩ := fill_micro hd hp R ha hq hph hf hfill
    · subst h6
      refine ⟨h2, j + k, At.of_strip ?_ h3⟩
      rw [Function.iterate_add_apply, hk.running hph, h5]
    · cases h6
  | tickFillRaise c2 e enum hph hf hcond hfill henum =>
    obtain ⟨c1, ⟨h1, h2, h3, h4, j, h5⟩, ⟨h6, -, -⟩ | ⟨err, h6, h7⟩⟩ := fill_micro hd hp R ha hq hph hf hfill
    · cases h6
    · obtain ⟨e1, e2, e3, e4, -⟩ := doSave_same p c2 enum
      obtain ⟨h8, h9⟩ := raise_idle hp h1 h7
      obtain ⟨r1, r2, pos, rest, r3, r4⟩ := fillStep_raise h7
      have t : c2.tasks = [] := by rw [r4]; exact h8
      have f : c2.failed = [] := by rw [r4]; exact h9
      refine ⟨⟨by simp [e1, e2, t, f], fun _ => e1.trans t⟩, j + k, At.finish (c1 := c1) ?_ ?_ ?_ (e1.trans (t.trans h8.symm)) (e2.trans (f.trans h9.symm))
        (by simp) ?_ (by simp) ?_⟩
      · rw [Function.iterate_add_apply, hk.running hph, h5]
      · rw [e3, r4]
      · have := sameC_doSave p c2 enum
        rw [r4] at this ⊢
        exact this
      · exact micro_stop R h8 (Or.inr fun c' hn => by rw [h7] at hn; cases hn)
      · intro e' he
        cases h6
        cases he
        exact Or.inr (Or.inr ⟨r1, h9, loop_of_raise h7⟩)
  | exitSaveFail hph hx hsv =>
    have ht : c.tasks = [] ∧ (c.failed ≠ [] ∨ ∀ c', fillStep p c ≠ .next c') := by
      rcases hx with hx | hx
      · have hlen := hq.one
        have hpos := List.length_pos_of_ne_nil hx
        exact ⟨List.eq_nil_of_length_eq_zero (by omega), Or.inl hx⟩
      · obtain ⟨h1, h2, h3, h4⟩ := noLoop_idle ha hx
        exact ⟨h1, Or.inr (stop_of_empty h3 h4)⟩
    refine ⟨⟨hq.one, fun _ => ht.1⟩, k, At.finish (hk.running hph) rfl rfl rfl rfl (by simp) (micro_stop R ht.1 ht.2) (by simp) ?_⟩
    intro e he
    cases he
    exact Or.inl ⟨rfl, hsv.1⟩
  | fillRaiseSaveFail c2 e hph hf hcond hfill hsv =>
    obtain ⟨c1, ⟨h1, h2, h3, h4, j, h5⟩, ⟨h6, -, -⟩ | ⟨err, h6, h7⟩⟩ := fill_micro hd hp R ha hq hph hf hfill
    · cases h6
    · obtain ⟨h8, h9⟩ := raise_idle hp h1 h7
      obtain ⟨r1, r2, pos, rest, r3, r4⟩ := fillStep_raise h7
      have t : c2.tasks = [] := by rw [r4]; exact h8
      have f : c2.failed = [] := by rw [r4]; exact h9
      refine ⟨⟨by simp [t, f], fun _ => t⟩, j + k, At.finish (c1 := c1) ?_ ?_ ?_ (t.trans h8.symm) (f.trans h9.symm)
        (by simp) ?_ (by simp) ?_⟩
      · rw [Function.iterate_add_apply, hk.running hph, h5]
      · rw [r4]
      · rw [r4]; rfl
      · exact micro_stop R h8 (Or.inr fun c' hn => by rw [h7] at hn; cases hn)
      · intro e' he
        cases he
        exact Or.inl ⟨rfl, hsv.1⟩
  | done s r hph hs hr =>
    have hrun : c.phase = .running := by
      by_contra hn
      rw [hq.ended hn] at hs
      cases hs
    have hmem : s ∈ c.state.simplexQueue.running := (ha.run s).1 (List.mem_append_left _ hs)
    have hlen := hq.one
    have hpos := List.length_pos_of_mem hs
    obtain ⟨a, ht⟩ := List.length_eq_one_iff.1 (show c.tasks.length = 1 by omega)
    have hf : c.failed = [] := List.eq_nil_of_length_eq_zero (by omega)
    obtain rfl : s = a := by rw [ht] at hs; simpa using hs
    have he := taskDone_of_mem (p := p) r hmem
    have hR := (ho [.completed s r] (by rw [he])).1 s r (by simp)
    have hph' : (taskDone p c s r).phase = .running := by rw [he]; exact hrun
    refine ⟨⟨?_, fun hn => absurd hph' hn⟩, k + 1, At.of_strip ?_ hph'⟩
    · rw [he]; simp [ht, hf]
    · rw [Function.iterate_succ_apply', hk.running hrun, micro_task R ha ht, hR]
  | fail s id hph hs =>
    have hrun : c.phase = .running := by
      by_contra hn
      rw [hq.ended hn] at hs
      cases hs
    have hlen := hq.one
    have hpos := List.length_pos_of_mem hs
    obtain ⟨a, ht⟩ := List.length_eq_one_iff.1 (show c.tasks.length = 1 by omega)
    have hf : c.failed = [] := List.eq_nil_of_length_eq_zero (by omega)
    obtain rfl : s = a := by rw [ht] at hs; simpa using hs
    obtain ⟨id', hR, hm⟩ := (ho [.failed s] rfl).2 s (by simp)
    have hid : id' = id := by simpa [taskFail, hf] using hm
    subst hid
    have hph' : (taskFail c s (.gap id')).phase = .running := hrun
    refine ⟨⟨?_, fun hn => absurd hph' hn⟩, k + 1, At.of_strip ?_ hph'⟩
    · simp [taskFail, ht, hf]
    · rw [Function.iterate_succ_apply', hk.running hrun, micro_task R ha ht, hR]
  | save enum hph henum =>
    exact ⟨hq.doSave enum, k, At.of_strip (At.doSave (hk.running hph) enum) ((doSave_same p c enum).2.2.2.1.trans hph)⟩
  | saveFail hph hsv => exact ⟨hq, k, hk⟩

theorem at_reach {p : CtlParams d} (hd : DistinctInput p) (hp : p.numMinimizeParallel ≤ 1) {R : Minimizer d} {disk initial : Option (Saved d)}
    (h2 : ∀ sv, initial = some sv → WellFormedSaved sv) {c : Ctl d} (h : ReachDet p R (startFrom p disk initial) c) :
    Acct p c ∧ SeqInv p c ∧ ∃ k, At p R (startFrom p disk initial) c k := by
  induction h with
  | refl =>
    exact ⟨acct_start hd disk initial h2, ⟨by simp [startFrom], fun _ => rfl⟩, 0, At.of_strip rfl rfl⟩
  | tail _ hs ho ih => exact ⟨ih.1.step hd hs, at_step hd hp ih.1 ih.2.1 ih.2.2 hs ho⟩

theorem strip_log_micro (p : CtlParams d) (R : Minimizer d) (c : Ctl d) : c.log <+: (micro p R c).log := by
  unfold micro
  split
  · split
    · unfold taskDone
      simp only
      split <;> simp [Ctl.strip]
    · simp [taskFail, Ctl.strip]
  · split_ifs
    · split
      · rename_i c' h
        cases hf : fillStep p c with
        | stop => rw [hf] at h; cases h
        | raise => rw [hf] at h; cases h
        | next c1 =>
          rw [hf] at h
          simp only [FillStep.strip] at h
          injection h with h
          subst h
          obtain ⟨-, ⟨y, rest, hq, -, e⟩ | ⟨y, rest, hq, -, e⟩ | ⟨pos, rest, st, hq, hpq, -, hst, e⟩ |
            ⟨pos, rest, hq, hpq, -, -, e⟩⟩ := fillStep_next hf <;> rw [e] <;> simp [Ctl.strip]
      · exact List.prefix_rfl
    · exact List.prefix_rfl

theorem log_iterate (p : CtlParams d) (R : Minimizer d) (c : Ctl d) {k l : ℕ} (h : k ≤ l) :
    ((micro p R)^[k] c).log <+: ((micro p R)^[l] c).log := by
  induction l, h using Nat.le_induction with
  | base => exact List.prefix_rfl
  | succ l _ ih =>
    rw [Function.iterate_succ_apply']
    exact ih.trans (strip_log_micro p R _)

theorem iterate_fixed {α : Type} {f : α → α} {x : α} {k l : ℕ} (h : k ≤ l) (hf : f (f^[k] x) = f^[k] x) : f^[l] x = f^[k] x := by
  induction l, h using Nat.le_induction with
  | base => rfl
  | succ l _ ih => rw [Function.iterate_succ_apply', ih, hf]

end NF
