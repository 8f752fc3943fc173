import Verif.Lemmas.Disk

/-! # What holds when the search has ended -/

noncomputable section
open Classical
namespace NF
open Spec CoordSys
variable {d : ℕ}

/-- what is known about a search that has ended -/
def EndInv (p : CtlParams d) (c : Ctl d) : Prop :=
  match c.phase with
  | .running => True
  | .returned => ¬ loopCondition c ∧ c.failed = [] ∧ (p.saveFile = true → c.state.needsSaving = false)
  | .raised e => (∃ s, (s, e) ∈ c.failed ∧ (p.saveFile = true → ∃ sv, c.disk = some sv ∧ s ∈ sv.simplices)) ∨
      (e = .type ∧ p.stencil = none) ∨ (e = .io ∧ p.saveFile = true)

theorem doSave_saved (p : CtlParams d) (c : Ctl d) (enum : List (Simplex d)) (h : p.saveFile = true) :
    (doSave p c enum).state.needsSaving = false := by
  rcases doSave_eq p c enum with ⟨-, -, e⟩ | ⟨h1, e⟩
  · rw [e]; rfl
  · rw [e]
    by_contra hn
    exact h1 ⟨h, by simpa using hn⟩

theorem doSave_same (p : CtlParams d) (c : Ctl d) (enum : List (Simplex d)) :
    (doSave p c enum).tasks = c.tasks ∧ (doSave p c enum).failed = c.failed ∧ (doSave p c enum).log = c.log ∧
    (doSave p c enum).phase = c.phase ∧
    (doSave p c enum).state.simplexQueue.running = c.state.simplexQueue.running ∧
    (doSave p c enum).state.simplexQueue.base.queued = c.state.simplexQueue.base.queued ∧
    (doSave p c enum).state.positionQueue.queued = c.state.positionQueue.queued ∧
    (doSave p c enum).state.result.refined = c.state.result.refined ∧
    (doSave p c enum).state.result.nodes = c.state.result.nodes ∧
    (doSave p c enum).state.result.coord = c.state.result.coord := by
  rcases doSave_eq p c enum with ⟨-, -, e⟩ | ⟨-, e⟩ <;> rw [e] <;> exact ⟨rfl, rfl, rfl, rfl, rfl, rfl, rfl, rfl, rfl, rfl⟩

theorem loopCondition_doSave (p : CtlParams d) (c : Ctl d) (enum : List (Simplex d)) :
    loopCondition (doSave p c enum) ↔ loopCondition c := by
  have h := doSave_same p c enum
  unfold loopCondition RunQueue.finished ObjQueue.hasQueued
  rw [h.2.2.2.2.1, h.2.2.2.2.2.1, h.2.2.2.2.2.2.1]

theorem endInv_of_running {p : CtlParams d} {c : Ctl d} (h : c.phase = .running) : EndInv p c := by
  unfold EndInv; rw [h]; trivial

theorem fill_phase {p : CtlParams d} {c c' : Ctl d} {e : Option Err} (h : fill p c = (e, c')) :
    c'.phase = c.phase ∧ c'.failed = c.failed := by
  obtain ⟨c1, hc1, h1 | ⟨err, -, h2⟩⟩ := fill_induction (P := fun x => x.phase = c.phase ∧ x.failed = c.failed)
    (fun a b ha hs => by
      have := fillStep_disk hs
      exact ⟨this.2.1.trans ha.1, this.2.2.1.trans ha.2⟩) c ⟨rfl, rfl⟩ _ _ h
  · rw [h1.2.1]; exact hc1
  · obtain ⟨-, -, pos, rest, -, rfl⟩ := fillStep_raise h2
    exact hc1

theorem endInv_step {p : CtlParams d} (hd : DistinctInput p) {c c' : Ctl d} (hi : DiskInv p c) (he : EndInv p c) (hs : Step p c c') : EndInv p c' := by
  have hdisk := diskInv_step hd hi hs
  cases hs with
  | tickRaise s e enum hph hf henum =>
    have hf' : (s, e) ∈ (doSave p c enum).failed := by rw [(doSave_same p c enum).2.1]; exact hf
    refine Or.inl ⟨s, hf', fun h => ?_⟩
    obtain ⟨sv, h1, h2⟩ := hdisk.2 (doSave_saved p c enum h)
    refine ⟨sv, h1, (h2.simplices s).2 ?_⟩
    simp only [outstanding, List.mem_append]
    exact Or.inl (Or.inr (List.mem_map.2 ⟨_, hf', rfl⟩))
  | tickReturn enum hph hf hcond henum =>
    refine ⟨?_, by simpa [(doSave_same p c enum).2.1] using hf, fun h => doSave_saved p c enum h⟩
    intro h
    exact hcond ((loopCondition_doSave p c enum).1 h)
  | tickFill _ hph hf hcond hfill => exact endInv_of_running ((fill_phase hfill).1.trans hph)
  | tickFillRaise c1 e enum hph hf hcond hfill henum =>
    refine Or.inr (Or.inl ?_)
    obtain ⟨c2, -, h1 | ⟨err, h1, h2⟩⟩ := fill_induction (p := p) (P := fun _ => True) (fun _ _ _ _ => trivial) c trivial _ _ hfill
    · cases h1.1
    · obtain ⟨h3, h4, -⟩ := fillStep_raise h2
      cases h1
      exact ⟨h3, h4⟩
  | exitSaveFail hph hx hsv => exact Or.inr (Or.inr ⟨rfl, hsv.1⟩)
  | fillRaiseSaveFail c1 e hph hf hcond hfill hsv => exact Or.inr (Or.inr ⟨rfl, hsv.1⟩)
  | done s r hph hs hr =>
    have hrun : s ∈ c.state.simplexQueue.running := (hi.1.1.run s).1 (List.mem_append_left _ hs)
    rw [taskDone_of_mem r hrun]
    unfold EndInv at he ⊢
    simp only
    cases hp : c.phase with
    | running => trivial
    | returned => exact absurd hp hph
    | raised e => rw [hp] at he; exact he
  | fail s id hph hs =>
    unfold EndInv at he ⊢
    simp only [taskFail]
    cases hp : c.phase with
    | running => trivial
    | returned => exact absurd hp hph
    | raised e =>
      rw [hp] at he
      rcases he with ⟨x, h1, h2⟩ | he
      · exact Or.inl ⟨x, List.mem_append_left _ h1, h2⟩
      · exact Or.inr he
  | save enum hph henum => exact endInv_of_running ((doSave_same p c enum).2.2.2.1.trans hph)
  | saveFail hph hsv => exact he

theorem endInv_any {p : CtlParams d} (hd : DistinctInput p) {c : Ctl d} (h : ReachAny p c) : EndInv p c := by
  induction h with
  | start disk initial h1 h2 => exact endInv_of_running rfl
  | tail h hs ih =>
    cases hs with
    | step hs => exact endInv_step hd (diskInv_any hd h) ih hs
    | crash => exact endInv_of_running rfl

/-- the current session of a search -/
theorem session {p : CtlParams d} (hd : DistinctInput p) {c : Ctl d} (h : ReachAny p c) : ∃ disk initial, (∀ sv, disk = some sv → WellFormedSaved sv) ∧
    (∀ sv, initial = some sv → WellFormedSaved sv) ∧ ReachFrom p (startFrom p disk initial) c := by
  have hg := good_any hd h
  induction h with
  | start disk initial h1 h2 => exact ⟨disk, initial, h1, h2, .refl⟩
  | @tail c0 c1 h0 hs ih =>
    cases hs with
    | step hs =>
      obtain ⟨disk, initial, h1, h2, h3⟩ := ih (good_any hd h0)
      exact ⟨disk, initial, h1, h2, .tail h3 hs⟩
    | crash =>
      have h4 := (good_any hd h0).2
      exact ⟨c0.disk, c0.disk, h4, h4, .refl⟩

theorem ReachFrom.any {p : CtlParams d} {disk initial : Option (Saved d)} (h1 : ∀ sv, disk = some sv → WellFormedSaved sv)
    (h2 : ∀ sv, initial = some sv → WellFormedSaved sv) {c : Ctl d} (h : ReachFrom p (startFrom p disk initial) c) :
    ReachAny p c := by
  induction h with
  | refl => exact .start disk initial h1 h2
  | tail _ hs ih => exact .tail ih (.step hs)

theorem ReachFrom.induction {p : CtlParams d} {c0 : Ctl d} {P : Ctl d → Prop} (h0 : P c0)
    (hstep : ∀ c c', P c → Step p c c' → P c') {c : Ctl d} (h : ReachFrom p c0 c) : P c := by
  induction h with
  | refl => exact h0
  | tail _ hs ih => exact hstep _ _ ih hs

end NF
