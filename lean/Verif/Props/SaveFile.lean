import Verif.Model.SaveFile
import Verif.Props.Restart

/-! # C36: the save file is replaced atomically -/

noncomputable section
open Classical
namespace NF
open Spec

variable {σ : Type}

/-- everything that is true during a call -/
def SaveInv (f tmp : String) (new : σ) (D0 : Dir σ) (n0 : Bool) (s : SaveState σ) : Prop :=
  (∀ g, g ≠ f → g ≠ tmp → s.dir g = D0 g) ∧
  match s.pc with
  | .start => s.dir = D0 ∧ s.needsSaving = n0
  | .writing => s.dir f = D0 f ∧ s.needsSaving = n0 ∧ tmp ≠ f ∧ n0 = true ∧ D0 tmp = none
  | .beforeRename => s.dir f = D0 f ∧ s.dir tmp = some (.complete new) ∧ s.needsSaving = n0 ∧ tmp ≠ f ∧ n0 = true ∧ D0 tmp = none
  | .marking => s.dir f = some (.complete new) ∧ s.dir tmp = none ∧ s.needsSaving = n0 ∧ n0 = true ∧ D0 tmp = none
  | .handler e => s.dir f = D0 f ∧ s.needsSaving = n0 ∧ (∃ id, e = .exception id) ∧ tmp ≠ f ∧ n0 = true ∧ D0 tmp = none
  | .returned => (n0 = false ∧ s.dir = D0 ∧ s.needsSaving = false) ∨
      (n0 = true ∧ s.dir f = some (.complete new) ∧ s.dir tmp = D0 tmp ∧ s.needsSaving = false)
  | .raised (.exception _) => s.dir f = D0 f ∧ s.needsSaving = n0 ∧ n0 = true ∧ s.dir tmp = (if s.dir tmp = D0 tmp then D0 tmp else none)
  | .cleanupRaised _ => s.dir f = D0 f ∧ s.needsSaving = n0 ∧ n0 = true
  | .raised (.baseException _) => (s.dir f = D0 f ∨ (n0 = true ∧ s.dir f = some (.complete new))) ∧ s.needsSaving = n0

theorem saveInv_step {f tmp : String} {new : σ} {D0 : Dir σ} {n0 : Bool} {s s' : SaveState σ}
    (h : SaveInv f tmp new D0 n0 s) (hs : SaveStep (some f) tmp new s s') : SaveInv f tmp new D0 n0 s' := by
  obtain ⟨ho, h⟩ := h
  cases hs with
  | skip D n hc =>
    obtain ⟨rfl, rfl⟩ := h
    rcases hc with hc | hc
    · cases hc
    · exact ⟨ho, Or.inl ⟨hc, rfl, hc⟩⟩
  | create D g hf hfresh hne =>
    obtain ⟨rfl, rfl⟩ := h
    obtain rfl := Option.some.inj hf
    refine ⟨fun g h1 h2 => ?_, ?_, rfl, hne, rfl, hfresh⟩
    · simp [Function.update_of_ne h2]
    · simp [Function.update_of_ne (Ne.symm hne)]
  | createFail D g hf e =>
    obtain ⟨rfl, rfl⟩ := h
    cases e with
    | exception id => exact ⟨ho, rfl, rfl, rfl, by simp⟩
    | baseException id => exact ⟨ho, Or.inl rfl, rfl⟩
  | write D n bytes =>
    obtain ⟨h1, h2, h3, h4, h5⟩ := h
    refine ⟨fun g g1 g2 => ?_, ?_, h2, h3, h4, h5⟩
    · simpa [Function.update_of_ne g2] using ho g g1 g2
    · simpa [Function.update_of_ne (Ne.symm h3)] using h1
  | writeEnd D n =>
    obtain ⟨h1, h2, h3, h4, h5⟩ := h
    refine ⟨fun g g1 g2 => ?_, ?_, ?_, h2, h3, h4, h5⟩
    · simpa [Function.update_of_ne g2] using ho g g1 g2
    · simpa [Function.update_of_ne (Ne.symm h3)] using h1
    · simp
  | writeFail D n id =>
    obtain ⟨h1, h2, h3, h4, h5⟩ := h
    exact ⟨ho, h1, h2, ⟨id, rfl⟩, h3, h4, h5⟩
  | rename D n g hf =>
    obtain ⟨h1, h2, h3, h4, h5, h6⟩ := h
    obtain rfl := Option.some.inj hf
    refine ⟨fun g g1 g2 => ?_, ?_, ?_, h3, h5, h6⟩
    · simpa [Function.update_of_ne g2, Function.update_of_ne g1] using ho g g1 g2
    · simp only [Function.update_of_ne (Ne.symm h4), Function.update_self]; exact h2
    · simp
  | renameFail D n id =>
    obtain ⟨h1, h2, h3, h4, h5, h6⟩ := h
    exact ⟨ho, h1, h3, ⟨id, rfl⟩, h4, h5, h6⟩
  | mark D n =>
    obtain ⟨h1, h2, h3, h4, h5⟩ := h
    exact ⟨ho, Or.inr ⟨h4, h1, h2.trans h5.symm, rfl⟩⟩
  | remove D n e =>
    obtain ⟨h1, h2, ⟨id, rfl⟩, h4, h5, h6⟩ := h
    refine ⟨fun g g1 g2 => ?_, ?_, h2, h5, ?_⟩
    · simpa [Function.update_of_ne g2] using ho g g1 g2
    · simpa [Function.update_of_ne (Ne.symm h4)] using h1
    · simp [h6]
  | removeFail D n e id =>
    obtain ⟨h1, h2, ⟨id, rfl⟩, h4, h5, h6⟩ := h
    exact ⟨ho, h1, h2, h5⟩
  | interrupt pc D n id hr hret hcl =>
    refine ⟨ho, ?_⟩
    cases pc with
    | start => obtain ⟨rfl, rfl⟩ := h; exact ⟨Or.inl rfl, rfl⟩
    | writing => exact ⟨Or.inl h.1, h.2.1⟩
    | beforeRename => exact ⟨Or.inl h.1, h.2.2.1⟩
    | marking => exact ⟨Or.inr ⟨h.2.2.2.1, h.1⟩, h.2.2.1⟩
    | handler e => exact ⟨Or.inl h.1, h.2.1⟩
    | returned => exact absurd rfl hret
    | raised e => exact absurd rfl (hr e)
    | cleanupRaised id => exact absurd rfl (hcl id)

theorem saveInv_reach {f tmp : String} {new : σ} {D0 : Dir σ} {n0 : Bool} {s : SaveState σ}
    (h : Relation.ReflTransGen (SaveStep (some f) tmp new) ⟨.start, D0, n0⟩ s) : SaveInv f tmp new D0 n0 s := by
  induction h with
  | refl => exact ⟨fun _ _ _ => rfl, rfl, rfl⟩
  | tail _ hs ih => exact saveInv_step ih hs

/-- C36.  Whatever instruction of `save` the process dies at (`s` is any state reached during the call), the save file is either what it was, or the complete
new state; and no file other than it and the temporary file is touched. -/
theorem C36_save_atomic {f tmp : String} {new : σ} {D0 : Dir σ} {n0 : Bool} {s : SaveState σ}
    (h : Relation.ReflTransGen (SaveStep (some f) tmp new) ⟨.start, D0, n0⟩ s) :
    (s.dir f = D0 f ∨ (n0 = true ∧ s.dir f = some (.complete new))) ∧ ∀ g, g ≠ f → g ≠ tmp → s.dir g = D0 g := by
  obtain ⟨h1, h2⟩ := saveInv_reach h
  refine ⟨?_, h1⟩
  cases hpc : s.pc with
  | start => rw [hpc] at h2; exact Or.inl (by rw [h2.1])
  | writing => rw [hpc] at h2; exact Or.inl h2.1
  | beforeRename => rw [hpc] at h2; exact Or.inl h2.1
  | marking => rw [hpc] at h2; exact Or.inr ⟨h2.2.2.2.1, h2.1⟩
  | handler e => rw [hpc] at h2; exact Or.inl h2.1
  | returned =>
    rw [hpc] at h2
    rcases h2 with h2 | h2
    · exact Or.inl (by rw [h2.2.1])
    · exact Or.inr ⟨h2.1, h2.2.1⟩
  | cleanupRaised id => rw [hpc] at h2; exact Or.inl h2.1
  | raised e =>
    rw [hpc] at h2
    cases e with
    | exception id => exact Or.inl h2.1
    | baseException id => exact h2.1

/-- C36.  If `save` returns, and the state needed saving, the save file is the complete new state, the state is marked as saved, and no temporary
file is left; if it did not need saving, nothing happened. -/
theorem C36_save_returns {f tmp : String} {new : σ} {D0 : Dir σ} {n0 : Bool} {D : Dir σ} {n : Bool}
    (h : Relation.ReflTransGen (SaveStep (some f) tmp new) ⟨.start, D0, n0⟩ ⟨.returned, D, n⟩) :
    n = false ∧ (n0 = true → D f = some (.complete new) ∧ D tmp = D0 tmp) ∧ (n0 = false → D = D0) := by
  obtain ⟨h1, h2⟩ := saveInv_reach h
  rcases h2 with ⟨a, b, c⟩ | ⟨a, b, c, e⟩
  · exact ⟨c, by simp [a], fun _ => b⟩
  · exact ⟨e, fun _ => ⟨b, c⟩, by simp [a]⟩

/-- C36.  If `save` ends with an `Exception` (of creating, writing or renaming the temporary file), the save file is unchanged, the state is still marked as
unsaved, so that saving is tried again, and no temporary file is left. -/
theorem C36_save_raises {f tmp : String} {new : σ} {D0 : Dir σ} {n0 : Bool} {D : Dir σ} {n : Bool} {id : ℕ}
    (h : Relation.ReflTransGen (SaveStep (some f) tmp new) ⟨.start, D0, n0⟩ ⟨.raised (.exception id), D, n⟩) :
    D f = D0 f ∧ n = true ∧ (D tmp = D0 tmp ∨ D tmp = none) := by
  obtain ⟨h1, h2⟩ := saveInv_reach h
  refine ⟨h2.1, h2.2.1.trans h2.2.2.1, ?_⟩
  have := h2.2.2.2
  simp only at this
  split at this
  · rename_i h; exact Or.inl h
  · exact Or.inr this

/-- C36.  If even removing the temporary file fails, at least the save file is unchanged and the state is still marked as unsaved. -/
theorem C36_cleanup_raises {f tmp : String} {new : σ} {D0 : Dir σ} {n0 : Bool} {D : Dir σ} {n : Bool} {id : ℕ}
    (h : Relation.ReflTransGen (SaveStep (some f) tmp new) ⟨.start, D0, n0⟩ ⟨.cleanupRaised id, D, n⟩) :
    D f = D0 f ∧ n = true := by
  obtain ⟨h1, h2⟩ := saveInv_reach h
  exact ⟨h2.1, h2.2.1.trans h2.2.2⟩

/-- C36.  Without a save file nothing happens. -/
theorem C36_no_save_file {tmp : String} {new : σ} {D0 : Dir σ} {n0 : Bool} {s : SaveState σ}
    (h : Relation.ReflTransGen (SaveStep none tmp new) ⟨.start, D0, n0⟩ s) : s.dir = D0 ∧ s.needsSaving = n0 := by
  have key : s.dir = D0 ∧ s.needsSaving = n0 ∧ (s.pc = .start ∨ s.pc = .returned ∨ ∃ id, s.pc = .raised (.baseException id)) := by
    induction h with
    | refl => exact ⟨rfl, rfl, Or.inl rfl⟩
    | tail _ hs ih =>
      obtain ⟨h1, h2, h3⟩ := ih
      cases hs with
      | skip D n _ => exact ⟨h1, h2, Or.inr (Or.inl rfl)⟩
      | create D f hf _ _ => cases hf
      | createFail D f hf _ => cases hf
      | interrupt pc D n id _ _ _ => exact ⟨h1, h2, Or.inr (Or.inr ⟨id, rfl⟩)⟩
      | _ => simp at h3
  exact ⟨key.1, key.2.1⟩

/-- C36, connection with the controller model, in which `save` is one step: let `c` be any state of a search whose save file is described by `c.disk`.
If the process is killed at any instruction of `save`, what a restart loads is what it would have loaded had the process been killed just before
or just after the whole call; if `save` returns, the file and the flag are those after the whole call; and if it ends with an `Exception`, file and flag are
unchanged, as in the `saveFail` steps of the controller, and there was something to save. -/
theorem C36_save_refines_controller {d : ℕ} {p : CtlParams d} (hsf : p.saveFile = true) {c : Ctl d} {enum : List (Simplex d)} {f tmp : String}
    {D0 : Dir (Saved d)} (hdisk : (D0 f).bind FileContent.load = c.disk) {s : SaveState (Saved d)}
    (h : Relation.ReflTransGen (SaveStep (some f) tmp (c.state.snapshot enum)) ⟨.start, D0, c.state.needsSaving⟩ s) :
    ((s.dir f).bind FileContent.load = c.disk ∨ (s.dir f).bind FileContent.load = (doSave p c enum).disk) ∧
    (s.pc = .returned → (s.dir f).bind FileContent.load = (doSave p c enum).disk ∧
      s.needsSaving = (doSave p c enum).state.needsSaving) ∧
    (∀ id, s.pc = .raised (.exception id) ∨ s.pc = .cleanupRaised id → (s.dir f).bind FileContent.load = c.disk ∧
      s.needsSaving = c.state.needsSaving ∧ c.state.needsSaving = true) := by
  refine ⟨?_, ?_, ?_⟩
  · rcases (C36_save_atomic h).1 with h1 | ⟨h0, h1⟩
    · left; rw [h1, hdisk]
    · right
      rw [h1]
      simp [doSave, hsf, h0, FileContent.load]
  · intro hpc
    obtain ⟨pc, D, n⟩ := s
    simp only at hpc
    subst hpc
    obtain ⟨h1, h2, h3⟩ := C36_save_returns h
    rcases doSave_eq p c enum with ⟨-, hn, e⟩ | ⟨hn, e⟩
    · rw [e]
      simp only
      rw [(h2 hn).1, h1]
      exact ⟨rfl, rfl⟩
    · rw [e]
      have hn : c.state.needsSaving = false := by
        by_contra hc
        exact hn ⟨hsf, by simpa using hc⟩
      simp only
      rw [h3 hn, hdisk, h1, hn]
      exact ⟨rfl, rfl⟩
  · intro id hpc
    obtain ⟨pc, D, n⟩ := s
    simp only at hpc ⊢
    rcases hpc with hpc | hpc
    · subst hpc
      have h1 := C36_save_raises h
      have h2 := (saveInv_reach h).2
      have h3 : c.state.needsSaving = true := h2.2.2.1
      exact ⟨by rw [h1.1, hdisk], by rw [h1.2.1, h3], h3⟩
    · subst hpc
      have h1 := C36_cleanup_raises h
      have h2 := (saveInv_reach h).2
      have h3 : c.state.needsSaving = true := h2.2.2
      exact ⟨by rw [h1.1, hdisk], by rw [h1.2, h3], h3⟩

/-- non-vacuity: a complete save that replaces an old file -/
example : ∃ s : SaveState ℕ, Relation.ReflTransGen (SaveStep (some "save.hdf5") "tmp" 2)
    ⟨.start, fun g => if g = "save.hdf5" then some (.complete 1) else none, true⟩ s ∧ s.pc = .returned ∧
    s.dir "save.hdf5" = some (.complete 2) := by
  refine ⟨_, .tail (.tail (.tail (.tail (.tail .refl (.create _ "save.hdf5" rfl (by simp) (by decide))) (.write _ _ 17)) (.writeEnd _ _))
    (.rename _ _ "save.hdf5" rfl)) (.mark _ _), rfl, ?_⟩
  simp [Function.update]

/-- non-vacuity: an interrupted one that leaves the old file -/
example : ∃ s : SaveState ℕ, Relation.ReflTransGen (SaveStep (some "save.hdf5") "tmp" 2)
    ⟨.start, fun g => if g = "save.hdf5" then some (.complete 1) else none, true⟩ s ∧ s.pc = .raised (.exception 5) ∧
    s.dir "save.hdf5" = some (.complete 1) := by
  refine ⟨_, .tail (.tail (.tail (.tail .refl (.create _ "save.hdf5" rfl (by simp) (by decide))) (.write _ _ 17)) (.writeFail _ _ 5))
    (.remove _ _ _), rfl, ?_⟩
  simp [Function.update]

end NF
