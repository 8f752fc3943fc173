import Verif.Spec.Exploration
import Verif.Props.EndToEnd
import Verif.Props.Refinement

/-! # C72: a search leaves nothing out -/

noncomputable section
open Classical
namespace NF
open Spec CoordSys Container

variable {d : ℕ}

theorem numNear_mono {p : CtlParams d} {l l' : List (SRes d)} (h : ∀ r ∈ l, r ∈ l') (s : Simplex d) : numNear p l s ≤ numNear p l' s := by
  unfold numNear
  refine List.Sublist.length_le (List.monotone_filter_right s fun v hv => ?_)
  have := of_decide_eq_true hv
  obtain ⟨r, hr, h2⟩ := this
  exact decide_eq_true ⟨r, h r hr, h2⟩

theorem explored_mono {p : CtlParams d} {R : Simplex d → SRes d → Prop} {res res' : Container d} {s : Simplex d} (h : Explored p R res s)
    (h1 : ∀ r ∈ res.minimizationResults, r ∈ res'.minimizationResults) (h2 : ∀ r ∈ res.nodes.values, r ∈ res'.nodes.values) : Explored p R res' s := by
  rcases h with ⟨r, hr, hm⟩ | ⟨h3, h4⟩
  · exact .inl ⟨r, hr, h1 _ hm⟩
  · have := numNear_mono (p := p) h2 s
    right
    constructor <;> omega

/-- every simplex that has to be dealt with is outstanding or has been dealt with -/
def Kept (p : CtlParams d) (R : Simplex d → SRes d → Prop) (res : Container d) (out : List (Simplex d)) : Prop :=
  ∀ s ∈ p.mesh ++ stencilSimplices p res.refined.values, normalizeSimplex s ∈ out ∨ Explored p R res (normalizeSimplex s)

/-- the invariant -/
structure KeptInv (p : CtlParams d) (R : Simplex d → SRes d → Prop) (c : Ctl d) : Prop where
  all : ∀ s ∈ c.state.simplexQueue.base.all, s ∈ outstanding c ∨ Explored p R c.state.result s
  kept : Kept p R c.state.result (outstanding c)
  disk : ∀ sv, c.disk = some sv → Kept p R (Container.create p.coord sv.results p.gapThreshold p.distCutoff sv.refined) sv.simplices

theorem addResult_grows (res : Container d) (r : SRes d) :
    (∀ x ∈ res.minimizationResults, x ∈ (res.addResult r).1.minimizationResults) ∧
    (∀ x ∈ res.nodes.values, x ∈ (res.addResult r).1.nodes.values) ∧
    stored res.coord r ∈ (res.addResult r).1.minimizationResults := by
  rw [addResult_def]
  split
  · refine ⟨fun x hx => ?_, fun x hx => ?_, ?_⟩
    · rcases List.mem_append.1 hx with h | h
      · exact List.mem_append_left _ (List.mem_append_left _ h)
      · exact List.mem_append_right _ h
    · exact List.mem_append_left _ hx
    · exact List.mem_append_left _ (List.mem_append_right _ (by simp))
  · refine ⟨fun x hx => ?_, fun x hx => hx, ?_⟩
    · rcases List.mem_append.1 hx with h | h
      · exact List.mem_append_left _ h
      · exact List.mem_append_right _ (List.mem_append_left _ h)
    · exact List.mem_append_right _ (by simp)

theorem skipped_near {p : CtlParams d} (hg : GoodGeometry p) {c : Ctl d} (ha : Acct p c) {s : Simplex d}
    (h : checkSimplex p c.state.result s = false) :
    0 < numNear p c.state.result.nodes.values s ∧ p.simplexCheckCutoff < numNear p c.state.result.nodes.values s := by
  have e : ∀ v, ((c.state.result.neighbourDistances v).any fun x => decide (x < p.distCutoff)) =
      decide (∃ r ∈ c.state.result.nodes.values, r.pos ≠ v ∧ p.coord.distance v r.pos < p.featureSize / 3) := fun v => by
    rw [Bool.eq_iff_iff, decide_eq_true_iff]
    exact any_near_iff ha.cont hg.1 (goodGeometry_dc hg) (goodGeometry_sz hg) v
  unfold checkSimplex at h
  rw [checkSimplexLoop_eq_false_iff _ _ _ _ (by omega)] at h
  simp only [e, zero_add] at h
  obtain ⟨⟨v, hv, h1⟩, h2⟩ := h
  exact ⟨List.length_pos_of_mem (List.mem_filter.2 ⟨hv, h1⟩), h2⟩

theorem kept_elem {p : CtlParams d} (hg : GoodGeometry p) (R : Simplex d → SRes d → Prop) :
    Elem p (fun c => Good p c ∧ HistInv p c) (fun c => LogOk R c → KeptInv p R c) where
  fill c c' hG h hs := by
    obtain ⟨-, ⟨x, rest, hq, -, rfl⟩ | ⟨x, rest, hq, hchk, rfl⟩ | ⟨pos, rest, st, hq, hpq, -, hst, rfl⟩ |
      ⟨pos, rest, hq, hpq, -, -, rfl⟩⟩ := fillStep_next hs
    all_goals
      intro hl
      obtain ⟨h1, h2, h3⟩ := h (fun s r hm => hl s r (List.mem_append_left _ hm))
    · have hout : ∀ s, s ∈ outstanding c → s ∈ outstanding { c with
          state := { c.state with simplexQueue := c.state.simplexQueue.popTo x rest }
          tasks := c.tasks ++ [x], log := c.log ++ [.scheduled x] } := by
        intro s
        simp only [outstanding, List.mem_append, hq, List.mem_cons, RunQueue.popTo_queued]
        tauto
      exact ⟨fun s hs => (h1 s hs).imp (hout s) id, fun s hs => (h2 s hs).imp (hout _) id, h3⟩
    · have hout : ∀ s, s ∈ outstanding c → s ∈ outstanding { c with
          state := { c.state with simplexQueue := (c.state.simplexQueue.popTo x rest).finishOf x }
          log := c.log ++ [.skipped x] } ∨ Explored p R c.state.result s := by
        intro s
        simp only [outstanding, List.mem_append, hq, List.mem_cons, RunQueue.popTo_queued, RunQueue.finishOf_queued]
        rintro (h | rfl | h)
        · exact .inl (.inl h)
        · exact .inr (.inr (skipped_near hg hG.1.1 hchk))
        · exact .inl (.inr h)
      exact ⟨fun s hs => (h1 s hs).elim (hout s) .inr, fun s hs => (h2 s hs).elim (hout _) .inr, h3⟩
    · have haq := addObjects_queued c.state.simplexQueue (normalizeSimplices (translateStencil pos st))
      have hex : ∀ s, Explored p R c.state.result s → Explored p R (c.state.result.setRefined pos) s := fun s h =>
        explored_mono h (fun _ h => h) (fun _ h => h)
      set c' : Ctl d := { c with
          state := ⟨c.state.result.setRefined pos,
            c.state.simplexQueue.addObjects (normalizeSimplices (translateStencil pos st)),
            c.state.positionQueue.popTo rest⟩
          log := c.log ++ [.refined pos] } with hc'
      have hout : ∀ s, s ∈ outstanding c → s ∈ outstanding c' := by
        intro s
        simp only [outstanding, hc', List.mem_append, haq.1]
        tauto
      have hnew : ∀ s ∈ normalizeSimplices (translateStencil pos st), s ∈ outstanding c' ∨ Explored p R (c.state.result.setRefined pos) s := by
        intro s hs
        by_cases hall : s ∈ c.state.simplexQueue.base.all
        · exact (h1 s hall).imp (hout s) (hex s)
        · left
          simp only [outstanding, hc', List.mem_append, haq.1, List.mem_filter, decide_eq_true_eq]
          exact .inr (.inr ⟨hs, hall⟩)
      refine ⟨?_, ?_, h3⟩
      · intro s hs
        have hs : s ∈ (c.state.simplexQueue.addObjects (normalizeSimplices (translateStencil pos st))).base.all := hs
        rw [haq.2.1] at hs
        rcases hs with hs | hs
        · exact (h1 s hs).imp (hout s) (hex s)
        · exact hnew s hs
      · intro s hs
        have href : (c.state.result.setRefined pos).refined.values = c.state.result.refined.values ++ [pos] := rfl
        rcases List.mem_append.1 hs with hs | hs
        · exact (h2 s (List.mem_append_left _ hs)).imp (hout _) (hex _)
        · change s ∈ stencilSimplices p (c.state.result.setRefined pos).refined.values at hs
          have hsplit : s ∈ stencilSimplices p c.state.result.refined.values ∨ s ∈ translateStencil pos st := by
            rw [href] at hs
            unfold stencilSimplices at hs ⊢
            rw [hst] at hs ⊢
            simp only [List.flatMap_append, List.mem_append, List.flatMap_singleton] at hs ⊢
            exact hs
          rcases hsplit with hs | hs
          · exact (h2 s (List.mem_append_right _ hs)).imp (hout _) (hex _)
          · exact hnew _ (List.mem_map.2 ⟨s, hs, rfl⟩)
    · exact ⟨h1, h2, h3⟩
  raise c e c' _ h hs := by
    obtain ⟨-, -, pos, rest, -, rfl⟩ := fillStep_raise hs
    exact fun hl => ⟨(h hl).all, (h hl).kept, (h hl).disk⟩
  done c s r hG h hs hr := by
    intro hl
    have hrun : s ∈ c.state.simplexQueue.running := (hG.1.1.run s).1 (List.mem_append_left _ hs)
    rw [taskDone_of_mem r hrun] at hl ⊢
    obtain ⟨h1, h2, h3⟩ := h (fun s r hm => hl s r (List.mem_append_left _ hm))
    have hR : R s r := hl s r (by simp)
    have hres := (processResult_cases p c.state r).1
    obtain ⟨g1, g2, g3⟩ := addResult_grows c.state.result r
    have hcs := hG.1.1.cont.coord
    have hex : ∀ x, Explored p R c.state.result x → Explored p R (c.state.result.addResult r).1 x := fun x h => explored_mono h g1 g2
    have herase : c.tasks.Perm (s :: c.tasks.erase s) := List.perm_cons_erase hs
    set c' : Ctl d := { c with
      state := { processResult p c.state r with simplexQueue := c.state.simplexQueue.finishOf s }
      tasks := c.tasks.erase s
      log := c.log ++ [.completed s r] } with hc'
    have hcr : c'.state.result = (c.state.result.addResult r).1 := hres
    have hout : ∀ x, x ∈ outstanding c → x ∈ outstanding c' ∨ Explored p R (c.state.result.addResult r).1 x := by
      intro x
      simp only [outstanding, hc', List.mem_append, herase.mem_iff, List.mem_cons, RunQueue.finishOf_queued]
      rintro (((rfl | h) | h) | h)
      · right; left
        refine ⟨r, hR, ?_⟩
        rw [← hcs]
        exact g3
      · exact .inl (.inl (.inl h))
      · exact .inl (.inl (.inr h))
      · exact .inl (.inr h)
    refine ⟨fun x hx => ?_, fun x hx => ?_, h3⟩
    · rw [hcr]
      exact (h1 x hx).elim (hout x) fun h => .inr (hex x h)
    · rw [hcr] at hx ⊢
      simp only [CellList.values, (addResult_refined c.state.result r).1] at hx
      exact (h2 x hx).elim (hout _) fun h => .inr (hex _ h)
  fail c s e _ h hs := by
    intro hl
    obtain ⟨h1, h2, h3⟩ := h (fun s r hm => hl s r (by simp [taskFail, hm]))
    have herase : c.tasks.Perm (s :: c.tasks.erase s) := List.perm_cons_erase hs
    have hout : ∀ x, x ∈ outstanding c → x ∈ outstanding (taskFail c s (.gap e)) := by
      intro x
      simp only [outstanding, List.mem_append, herase.mem_iff, taskFail, List.map_append, List.map_cons, List.map_nil, List.mem_cons]
      tauto
    exact ⟨fun s hs => (h1 s hs).imp (hout s) id, fun s hs => (h2 s hs).imp (hout _) id, h3⟩
  save c enum hG h he := by
    rcases doSave_eq p c enum with ⟨-, -, e⟩ | ⟨-, e⟩
    · rw [e]
      intro hl
      obtain ⟨h1, h2, h3⟩ := h hl
      refine ⟨h1, h2, ?_⟩
      intro sv hsv
      obtain rfl := Option.some.inj hsv
      have hrec := recreate hg.1 hG.2.1
      simp only at hrec
      obtain ⟨r1, r2, r3, r4⟩ := hrec
      have hup := (snapshot_upToDate hG.1.1 he).simplices
      intro s hs
      simp only [CtlState.snapshot] at hs
      rw [r3] at hs
      rcases h2 s hs with h4 | h4
      · exact .inl ((hup _).2 h4)
      · right
        refine explored_mono h4 (fun x hx => ?_) (fun x hx => ?_)
        · change x ∈ CellList.values _ ++ (Container.create _ _ _ _ _).rejected
          simp only [CtlState.snapshot]
          rw [r1, r2]
          exact hx
        · simp only [CtlState.snapshot]
          rw [r1]
          exact hx
    · rw [e]; exact h
  phase c ph _ h := fun hl => ⟨(h hl).all, (h hl).kept, (h hl).disk⟩

theorem kept_start {p : CtlParams d} (R : Simplex d → SRes d → Prop) (disk initial : Option (Saved d))
    (hi : ∀ sv, initial = some sv → WellFormedSaved sv)
    (h1 : ∀ sv, disk = some sv → Kept p R (Container.create p.coord sv.results p.gapThreshold p.distCutoff sv.refined) sv.simplices)
    (h2 : ∀ sv, initial = some sv → Kept p R (Container.create p.coord sv.results p.gapThreshold p.distCutoff sv.refined) sv.simplices) :
    KeptInv p R (startFrom p disk initial) := by
  cases initial with
  | none =>
    refine ⟨fun s hs => .inl ?_, fun s hs => .inl ?_, h1⟩
    · exact List.mem_append_right _ hs
    · refine List.mem_append_right _ ?_
      have hr : (startFrom p disk none).state.result.refined.values = [] := (create_contents p.coord [] p.gapThreshold p.distCutoff []).2.2
      rw [hr] at hs
      have : s ∈ p.mesh := by
        rcases List.mem_append.1 hs with h | h
        · exact h
        · unfold stencilSimplices at h
          split at h <;> simp at h
      exact List.mem_map.2 ⟨s, this, rfl⟩
  | some sv =>
    have hq : ∀ s ∈ sv.simplices, s ∈ (startFrom p disk (some sv)).state.simplexQueue.base.queued := by
      intro s hs
      have hn : normalizeSimplices sv.simplices = sv.simplices := normalizeSimplices_of_norm (hi sv rfl).norm
      change s ∈ (if p.forceInitialMesh then _ else _ : RunQueue (Simplex d)).base.queued
      rw [hn]
      split
      · rw [(addObjects_queued _ _).1]
        exact List.mem_append_left _ hs
      · exact hs
    refine ⟨fun s hs => .inl ?_, fun s hs => ?_, h1⟩
    · refine List.mem_append_right _ ?_
      change s ∈ (if p.forceInitialMesh then _ else _ : RunQueue (Simplex d)).base.all at hs
      change s ∈ (if p.forceInitialMesh then _ else _ : RunQueue (Simplex d)).base.queued
      split at hs
      · rename_i hf
        rw [if_pos hf]
        rw [(addObjects_queued _ _).2.1] at hs
        rw [(addObjects_queued _ _).1]
        by_cases ho : s ∈ (RunQueue.create (normalizeSimplices sv.simplices)).base.all
        · exact List.mem_append_left _ ho
        · rcases hs with hs | hs
          · exact absurd hs ho
          · exact List.mem_append_right _ (List.mem_filter.2 ⟨hs, decide_eq_true ho⟩)
      · rename_i hf
        rw [if_neg hf]
        exact hs
    · exact (h2 sv rfl s hs).imp (fun h => List.mem_append_right _ (hq _ h)) id

theorem kept_reach {p : CtlParams d} (hd : DistinctInput p) (hg : GoodGeometry p) {R : Simplex d → SRes d → Prop} {c : Ctl d} (h : ReachWith p R c) :
    (Good p c ∧ HistInv p c) ∧ KeptInv p R c := by
  have e1 : Elem p (fun _ => True) (fun c => (Good p c ∧ HistInv p c) ∧ (LogOk R c → KeptInv p R c)) :=
    ((elem_good hd).and (elem_hist.mono fun _ _ => trivial)).and ((kept_elem hg R).mono fun c h => h.2)
  induction h with
  | start => exact ⟨⟨⟨acct_start hd none none (by simp), by simp [startFresh, startFrom]⟩,
      hist_start p none none (by simp), by simp [startFresh, startFrom]⟩, kept_start R none none (by simp) (by simp) (by simp)⟩
  | tail _ hs hr ih =>
    cases hs with
    | step hs =>
      have := e1.step ⟨ih.1, fun _ => ih.2⟩ hs
      exact ⟨this.1, this.2 hr⟩
    | crash =>
      obtain ⟨⟨hG, hh⟩, hP⟩ := ih
      exact ⟨⟨⟨acct_start hd _ _ hG.2, hG.2⟩, hist_start p _ _ hh.2, hh.2⟩, kept_start R _ _ hG.2 hP.disk hP.disk⟩

theorem reachWith_reach {p : CtlParams d} {R : Simplex d → SRes d → Prop} {c : Ctl d} (h : ReachWith p R c) : Reach p c := by
  induction h with
  | start => exact .start
  | tail _ hs _ ih => exact .tail ih hs

/-- **C72**, at any time, whatever crashes and restarts there were: every simplex of the initial mesh, and every stencil simplex around a refined position, is queued or being minimized, or
has been dealt with: a minimization that started from it is among the results, or it was skipped and too many of its vertices are near nodes. -/
theorem C72_nothing_lost {p : CtlParams d} (hd : DistinctInput p) (hg : GoodGeometry p) {R : Simplex d → SRes d → Prop} {c : Ctl d} (h : ReachWith p R c) :
    ∀ s ∈ p.mesh ++ stencilSimplices p c.state.result.refined.values,
      normalizeSimplex s ∈ outstanding c ∨ Explored p R c.state.result (normalizeSimplex s) :=
  (kept_reach hd hg h).2.kept

/-- **C72**: when a search returns, whatever crashes and restarts there were before, every node is nearer than `feature_size / 3` to a refined position, and every simplex of the initial mesh and every stencil simplex
around a refined position has been dealt with: a minimization that started from it is among the results, or too many of its vertices are near nodes of the result. -/
theorem C72_exploration_complete {p : CtlParams d} (hd : DistinctInput p) (hg : GoodGeometry p) (hst : p.stencil ≠ none)
    (hrc : p.recheckPosDist = false ∨ 0 ≤ p.recheckCountCutoff) {R : Simplex d → SRes d → Prop} {c : Ctl d} (h : ReachWith p R c)
    (hret : c.phase = .returned) :
    (∀ r ∈ c.state.result.nodes.values, ∃ q ∈ c.state.result.refined.values, p.coord.distance r.pos q < p.featureSize / 3) ∧
    ∀ s ∈ p.mesh ++ stencilSimplices p c.state.result.refined.values, Explored p R c.state.result (normalizeSimplex s) := by
  refine ⟨C27_nodes_covered hd hg hst hrc (reachWith_reach h) hret, fun s hs => (C72_nothing_lost hd hg h s hs).resolve_left ?_⟩
  obtain ⟨h1, h2, h3, -⟩ := C24_return_means_finished hd (reachWith_reach h).any hret
  simp [outstanding, h1, h2, h3]

/-! ## Non-vacuity: the search of `Lemmas/Demo.lean` that refines the node it found and returns -/
namespace C72Demo
open Demo

/-- the outcomes of the two minimizations -/
def R (a : Simplex 1) (r : SRes 1) : Prop := (a = s ∧ r = node) ∨ (a = t ∧ r = bad)

theorem log2 : c2.log = [.scheduled s, .completed s node] := by rw [c2_eq]
theorem log4 : c4.log = c3.log ++ [.completed t bad] := by rw [c4_eq]
theorem ok2 : LogOk R c2 := by
  intro a r h; rw [log2] at h
  simp only [List.mem_cons, reduceCtorEq, LogEntry.completed.injEq, List.not_mem_nil, or_false, false_or] at h
  exact .inl h
theorem ok3 : LogOk R c3 := by
  intro a r h
  have h : a = s ∧ r = node := by simpa [c3] using h
  exact .inl h
theorem ok4 : LogOk R c4 := by
  intro a r h
  rw [log4] at h
  rcases List.mem_append.1 h with h | h
  · exact ok3 a r h
  · simp only [List.mem_singleton, LogEntry.completed.injEq] at h
    exact .inr h
theorem ok5 : LogOk R c5 := by
  intro a r h
  refine ok4 a r ?_
  have : c5.log = c4.log := by
    change (doSave params c4 []).log = _
    rcases doSave_eq params c4 [] with ⟨-, -, e⟩ | ⟨-, e⟩ <;> rw [e]
  rwa [this] at h

theorem reach : ReachWith params R c5 := by
  refine .tail (.tail (.tail (.tail (.tail .start (.step (.tickFill c0 c1 rfl rfl (Or.inl (fun h => by have := h.2; rw [q0] at this; cases this)) fill0)) ?_)
    (.step (.done c1 s node (by simp [c1, c0, startFresh, startFrom]) (by simp [c1]) (by intro _ _ _ h; simp [node] at h))) ok2)
    (.step (.tickFill c2 c3 (by rw [c2_eq]; rfl) (by rw [c2_eq]; rfl) (Or.inr (by simp [ObjQueue.hasQueued, pos2])) fill2)) ok3)
    (.step (.done c3 t bad (by rw [phase3]; simp) (by simp [c3]) (by intro _ _ _ h; simp [bad] at h))) ok4)
    (.step (.tickReturn c4 [] (by rw [c4_eq]; exact phase3) (by rw [c4_eq]; exact failed3) finished4 (by rw [running4]; simp))) ok5
  intro a r h
  simp [c1] at h

example : DistinctInput params ∧ GoodGeometry params ∧ params.stencil ≠ none ∧ (params.recheckPosDist = false ∨ 0 ≤ params.recheckCountCutoff) ∧
    ReachWith params R c5 ∧ c5.phase = .returned :=
  ⟨distinct, geometry, by simp [params], .inr (by simp [params]), reach, rfl⟩

end C72Demo

end NF
