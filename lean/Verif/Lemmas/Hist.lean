import Verif.Lemmas.Phase

/-! # The container of a search has a history of calls; what a search without stencil never has -/

noncomputable section
open Classical
namespace NF
open Spec CoordSys Container
variable {d : ℕ}

/-- equal up to the flag `needs_saving` -/
def SameC (c c' : Container d) : Prop := { c with needsSaving := true } = { c' with needsSaving := true }

theorem SameC.fields {c c' : Container d} (h : SameC c c') : c.coord = c'.coord ∧ c.gapThreshold = c'.gapThreshold ∧
    c.distCutoff = c'.distCutoff ∧ c.nodes = c'.nodes ∧ c.rejected = c'.rejected ∧ c.refined = c'.refined := by
  unfold SameC at h
  have := congrArg Container.coord h
  have h2 := congrArg Container.gapThreshold h
  have h3 := congrArg Container.distCutoff h
  have h4 := congrArg Container.nodes h
  have h5 := congrArg Container.rejected h
  have h6 := congrArg Container.refined h
  exact ⟨this, h2, h3, h4, h5, h6⟩

theorem SameC.of_fields {c c' : Container d} (h : c.coord = c'.coord ∧ c.gapThreshold = c'.gapThreshold ∧
    c.distCutoff = c'.distCutoff ∧ c.nodes = c'.nodes ∧ c.rejected = c'.rejected ∧ c.refined = c'.refined) : SameC c c' := by
  obtain ⟨h1, h2, h3, h4, h5, h6⟩ := h
  unfold SameC
  cases c; cases c'
  simp_all

theorem SameC.addResult {c c' : Container d} (h : SameC c c') (r : SRes d) : SameC (c.addResult r).1 (c'.addResult r).1 := by
  obtain ⟨h1, h2, h3, h4, h5, h6⟩ := h.fields
  apply SameC.of_fields
  unfold Container.addResult
  simp only [h1, h2]
  split <;> simp [h3, h4, h5, h6]

theorem SameC.setRefined {c c' : Container d} (h : SameC c c') (x : Vec d) : SameC (c.setRefined x) (c'.setRefined x) := by
  obtain ⟨h1, h2, h3, h4, h5, h6⟩ := h.fields
  apply SameC.of_fields
  simp [Container.setRefined, h1, h2, h3, h4, h5, h6]

theorem history_snoc (cs : CoordSys d) (g dc : ℝ) (ops : List (ContainerOp d)) (op : ContainerOp d) :
    history cs g dc (ops ++ [op]) = applyOp (history cs g dc ops) op := by
  simp [Spec.history, List.foldl_append]

/-- The container is what some history of calls produces, with fresh results. -/
def Hist (p : CtlParams d) (c : Ctl d) : Prop :=
  ∃ ops, SameC c.state.result (history p.coord p.gapThreshold p.distCutoff ops) ∧ ∀ r ∈ resultsOf ops, FreshRes r

def HistInv (p : CtlParams d) (c : Ctl d) : Prop :=
  Hist p c ∧ (∀ sv, c.disk = some sv → ∀ r ∈ sv.results, FreshRes r)

theorem hist_create (p : CtlParams d) (rs : List (SRes d)) (ps : List (Vec d)) (h : ∀ r ∈ rs, FreshRes r) :
    ∃ ops, SameC (Container.create p.coord rs p.gapThreshold p.distCutoff ps)
      (history p.coord p.gapThreshold p.distCutoff ops) ∧ ∀ r ∈ resultsOf ops, FreshRes r := by
  refine ⟨rs.map ContainerOp.addResult ++ ps.map ContainerOp.setRefined, ?_, ?_⟩
  · rw [create_eq_history]; rfl
  · simpa [resultsOf_append] using h

theorem hist_start (p : CtlParams d) (disk initial : Option (Saved d)) (h : ∀ sv, initial = some sv → ∀ r ∈ sv.results, FreshRes r) :
    Hist p (startFrom p disk initial) := by
  cases initial with
  | none => exact hist_create p [] [] (by simp)
  | some sv => exact hist_create p sv.results sv.refined (h sv rfl)

theorem histInv_done {p : CtlParams d} {c : Ctl d} {s : Simplex d} {r : SRes d} (h : HistInv p c) (hr : FreshRes r) :
    HistInv p (taskDone p c s r) := by
  obtain ⟨⟨ops, h1, h2⟩, h3⟩ := h
  have hres : (taskDone p c s r).state.result = (c.state.result.addResult r).1 := by
    unfold taskDone
    simp only
    split <;> exact (processResult_cases p c.state r).1
  refine ⟨⟨ops ++ [.addResult r], ?_, ?_⟩, by rw [(taskDone_disk p c s r).1]; exact h3⟩
  · rw [history_snoc, hres]; exact h1.addResult r
  · intro x hx
    rw [resultsOf_append] at hx
    rcases List.mem_append.1 hx with hx | hx
    · exact h2 x hx
    · simp only [resultsOf, List.mem_singleton] at hx; rw [hx]; exact hr

theorem histInv_save {p : CtlParams d} {c : Ctl d} (h : HistInv p c) (enum : List (Simplex d)) : HistInv p (doSave p c enum) := by
  rcases doSave_eq p c enum with ⟨-, -, e⟩ | ⟨-, e⟩
  · rw [e]
    refine ⟨h.1, ?_⟩
    intro sv hsv r hr
    obtain rfl := Option.some.inj hsv
    obtain ⟨r0, -, rfl⟩ := List.mem_map.1 hr
    exact freshRes_reload r0
  · rw [e]; exact h

theorem histInv_step {p : CtlParams d} {c c' : Ctl d} (h : HistInv p c) (hs : Step p c c') : HistInv p c' := by
  refine Step.preserves (P := HistInv p) ?_ ?_ (fun c s r h _ hr => histInv_done h hr) (fun c s id h _ => h)
    (fun c en h _ => histInv_save h en) (fun c ph h => h) h hs
  · intro c c' h hs
    obtain ⟨-, ⟨x, rest, hq, -, rfl⟩ | ⟨x, rest, hq, -, rfl⟩ | ⟨pos, rest, st, hq, hpq, -, hst, rfl⟩ |
      ⟨pos, rest, hq, hpq, -, -, rfl⟩⟩ := fillStep_next hs
    · exact h
    · exact h
    · obtain ⟨⟨ops, h1, h2⟩, h3⟩ := h
      refine ⟨⟨ops ++ [.setRefined pos], ?_, ?_⟩, h3⟩
      · rw [history_snoc]; exact h1.setRefined pos
      · simpa [resultsOf_append, resultsOf] using h2
    · exact h
  · intro c e c' h hs
    obtain ⟨-, -, pos, rest, -, rfl⟩ := fillStep_raise hs
    exact h

theorem hist_reach {p : CtlParams d} {c : Ctl d} (h : Reach p c) : HistInv p c := by
  refine Reach.induction (P := HistInv p) ?_ (fun c c' h hs => histInv_step h hs) ?_ h
  · exact ⟨hist_start p none none (by simp), by simp [startFresh, startFrom]⟩
  · intro c h
    exact ⟨hist_start p c.disk c.disk h.2, h.2⟩

/-! ## the refined positions determine the cell list of refined positions -/

theorem refined_of_ops (cs : CoordSys d) (g dc : ℝ) (ops : List (ContainerOp d)) :
    (history cs g dc ops).refined =
      (refinedOf ops).foldl (fun l q => l.addPoint (cs.getFrac q) q) (CellList.mk' (numCellsFor cs dc) cs.periodic) := by
  induction ops using List.reverseRecOn with
  | nil => rfl
  | append_singleton ops op ih =>
    rw [history_snoc, refinedOf_append, List.foldl_append, ← ih]
    have hc := (Inv.history cs g dc ops).coord
    cases op with
    | addResult r => exact (addResult_refined _ _).1
    | setRefined q => simp [applyOp, Container.setRefined, refinedOf, hc]

/-- re-creating the container from a snapshot restores everything -/
theorem recreate {p : CtlParams d} (hb : ProperBox p.coord) {res : Container d}
    (h : ∃ ops, SameC res (history p.coord p.gapThreshold p.distCutoff ops) ∧ ∀ r ∈ resultsOf ops, FreshRes r) :
    let c' := Container.create p.coord (res.minimizationResults.map SRes.reload) p.gapThreshold p.distCutoff res.refined.values
    c'.nodes.values = res.nodes.values ∧ c'.rejected = res.rejected ∧ c'.refined = res.refined ∧ c'.coord = res.coord := by
  intro c'
  obtain ⟨ops, h1, h2⟩ := h
  obtain ⟨f1, f2, f3, f4, f5, f6⟩ := h1.fields
  have hf : ∀ r ∈ resultsOf ops, FreshResult r := by
    intro r hr
    have := h2 r hr
    cases r with
    | plain m => trivial
    | joined a b c => exact this a b c rfl
  have key := C15_recreate_after_reload p.coord p.gapThreshold p.distCutoff ops hb hf
  simp only at key
  have e : c' = Container.create p.coord ((history p.coord p.gapThreshold p.distCutoff ops).minimizationResults.map SRes.reload)
      p.gapThreshold p.distCutoff (history p.coord p.gapThreshold p.distCutoff ops).refined.values := by
    simp only [c', Container.minimizationResults, f4, f5, f6]
  refine ⟨?_, ?_, ?_, ?_⟩
  · rw [e, f4]; exact key.1
  · rw [e, f5]; exact key.2.1
  · rw [e, f6, create_eq_history]
    simp only
    rw [refined_of_ops, refined_of_ops]
    simp only [refinedOf_append, refinedOf_map_addResult, refinedOf_map_setRefined, List.nil_append]
    rw [← refined_of_ops p.coord p.gapThreshold p.distCutoff ops, CellList.values, (history_contents p.coord p.gapThreshold p.distCutoff ops).2.2]
    exact (refined_of_ops p.coord p.gapThreshold p.distCutoff ops).symm
  · rw [f1, e, (Inv.history p.coord p.gapThreshold p.distCutoff ops).coord]
    exact (Inv.create _ _).coord

/-! ## without stencil, no positions -/

def NoPos (p : CtlParams d) (c : Ctl d) : Prop :=
  p.stencil = none → c.state.positionQueue.queued = [] ∧ ∀ sv, c.disk = some sv → sv.positions = []

theorem noPos_reach {p : CtlParams d} {c : Ctl d} (h : Reach p c) : NoPos p c := by
  refine Reach.induction (P := NoPos p) ?_ ?_ ?_ h
  · intro _; exact ⟨rfl, by simp [startFresh, startFrom]⟩
  · intro c c' h hs
    refine Step.preserves (P := NoPos p) ?_ ?_ ?_ ?_ ?_ ?_ h hs
    · intro c c' h hs hn
      obtain ⟨h1, h2⟩ := h hn
      obtain ⟨-, ⟨x, rest, hq, -, rfl⟩ | ⟨x, rest, hq, -, rfl⟩ | ⟨pos, rest, st, hq, hpq, -, hst, rfl⟩ |
        ⟨pos, rest, hq, hpq, -, -, rfl⟩⟩ := fillStep_next hs
      · exact ⟨h1, h2⟩
      · exact ⟨h1, h2⟩
      · rw [h1] at hpq; cases hpq
      · rw [h1] at hpq; cases hpq
    · intro c e c' h hs hn
      obtain ⟨h1, h2⟩ := h hn
      obtain ⟨-, -, pos, rest, hpq, rfl⟩ := fillStep_raise hs
      rw [h1] at hpq; cases hpq
    · intro c s r h hs hr hn
      obtain ⟨h1, h2⟩ := h hn
      refine ⟨?_, by rw [(taskDone_disk p c s r).1]; exact h2⟩
      have hres : (taskDone p c s r).state.positionQueue = (processResult p c.state r).positionQueue := by
        unfold taskDone
        simp only
        split <;> rfl
      rw [hres]
      rcases (processResult_cases p c.state r).2.2 with ⟨-, h3, -⟩ | ⟨h3, -⟩
      · rw [hn] at h3; cases h3
      · rw [h3]; exact h1
    · intro c s id h hs; exact h
    · intro c enum h _ hn
      obtain ⟨h1, h2⟩ := h hn
      rcases doSave_eq p c enum with ⟨-, -, e⟩ | ⟨-, e⟩
      · rw [e]
        refine ⟨h1, ?_⟩
        intro sv hsv
        obtain rfl := Option.some.inj hsv
        exact h1
      · rw [e]; exact ⟨h1, h2⟩
    · intro c ph h; exact h
  · intro c h hn
    obtain ⟨h1, h2⟩ := h hn
    refine ⟨?_, h2⟩
    unfold restart
    cases hdk : c.disk with
    | none => rfl
    | some sv => exact h2 sv hdk

end NF
