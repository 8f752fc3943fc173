import Verif.Lemmas.FloatLive

/-! # Lemmas for C108: all simplices of a search in floating-point arithmetic have a property that those of the mesh and of the stencil have -/

noncomputable section
open Classical
namespace NF.FL
open Spec
variable {d : ℕ} {A : CtlArith d} {p : CtlParams d} {Res : Simplex d → SRes d → Prop}

/-- all simplices the search deals with have the property `Q` -/
structure SimpInv (Q : Simplex d → Prop) (c : Ctl d) : Prop where
  queued : ∀ s ∈ c.state.simplexQueue.base.queued, Q s
  running : ∀ s ∈ c.state.simplexQueue.running, Q s
  tasks : ∀ s ∈ c.tasks, Q s
  disk : ∀ sv, c.disk = some sv → ∀ s ∈ sv.simplices, Q s

theorem simpInv_elem (hS : FloatSearch A p Res) {Q : Simplex d → Prop} (hst : ∀ st, p.stencil = some st → ∀ pos, ∀ s ∈ translateStencil A pos st, Q (normalizeSimplex s)) :
    Elem A p Res (Good A p Res) (SimpInv Q) where
  fill c c' hG h hs := by
    obtain ⟨-, ⟨x, rest, hq, -, rfl⟩ | ⟨x, rest, hq, -, rfl⟩ | ⟨pos, rest, st, res, hq, hpq, -, hst', -, rfl⟩ |
      ⟨pos, rest, hq, hpq, -, -, rfl⟩⟩ := fillStep_next hs
    · have h1 := h.queued
      rw [hq] at h1
      refine ⟨fun s hs => h1 s (by simp at hs; simp [hs]), fun s hs => ?_, fun s hs => ?_, h.disk⟩
      · simp only [RunQueue.mem_popTo] at hs
        rcases hs with rfl | hs
        · exact h1 _ (by simp)
        · exact h.running s hs
      · rcases List.mem_append.1 hs with hs | hs
        · exact h.tasks s hs
        · rw [List.mem_singleton] at hs; rw [hs]; exact h1 _ (by simp)
    · have h1 := h.queued
      rw [hq] at h1
      refine ⟨fun s hs => h1 s (by simp at hs; simp [hs]), fun s hs => ?_, h.tasks, h.disk⟩
      simp only [RunQueue.mem_finishOf, RunQueue.mem_popTo] at hs
      rcases hs.2 with rfl | hs
      · exact h1 _ (by simp)
      · exact h.running s hs
    · have haq := addObjects_queued c.state.simplexQueue (normalizeSimplices (translateStencil A pos st))
      refine ⟨fun s hs => ?_, fun s hs => ?_, h.tasks, h.disk⟩
      · have hs : s ∈ (c.state.simplexQueue.addObjects (normalizeSimplices (translateStencil A pos st))).base.queued := hs
        rw [haq.1] at hs
        rcases List.mem_append.1 hs with hs | hs
        · exact h.queued s hs
        · obtain ⟨t, ht, rfl⟩ := List.mem_map.1 (List.mem_filter.1 hs).1
          exact hst st hst' pos t ht
      · have hs : s ∈ (c.state.simplexQueue.addObjects (normalizeSimplices (translateStencil A pos st))).running := hs
        rw [haq.2.2] at hs
        exact h.running s hs
    · exact ⟨h.queued, h.running, h.tasks, h.disk⟩
  raise c e c' hG h hs := by
    obtain ⟨-, -, pos, rest, -, rfl⟩ := raise_type hS hG.1 hs
    exact ⟨h.queued, h.running, h.tasks, h.disk⟩
  done c s r hG h hs hf hr := by
    obtain ⟨st, e, -⟩ := taskDone_ok hS hG.1 hs r
    rw [e]
    exact ⟨h.queued, fun x hx => h.running x (RunQueue.mem_finishOf.1 hx).2, fun x hx => h.tasks x (List.mem_of_mem_erase hx), h.disk⟩
  fail c s id _ h hs := ⟨h.queued, h.running, fun x hx => h.tasks x (List.mem_of_mem_erase hx), h.disk⟩
  save c enum _ h he := by
    rcases doSave_eq p c enum with ⟨-, -, e⟩ | ⟨-, e⟩ <;> rw [e]
    · refine ⟨h.queued, h.running, h.tasks, ?_⟩
      intro sv hsv s hs
      obtain rfl := Option.some.inj hsv
      rcases List.mem_append.1 hs with hs | hs
      · exact h.running s ((he.2 s).1 hs)
      · exact h.queued s hs
    · exact h
  phase c ph _ h := ⟨h.queued, h.running, h.tasks, h.disk⟩

theorem simpInv_start (hS : FloatSearch A p Res) {Q : Simplex d → Prop} (hn : ∀ s, Q s → Q (normalizeSimplex s)) (hm : ∀ s ∈ p.mesh, Q (normalizeSimplex s)) (disk initial : Option (Saved d))
    (h1 : ∀ sv, disk = some sv → ∀ s ∈ sv.simplices, Q s) (h2 : ∀ sv, initial = some sv → DiskOk A p Res sv ∧ ∀ s ∈ sv.simplices, Q s) {c : Ctl d} (h : startFrom A p disk initial = .ok c) : SimpInv Q c := by
  have hmesh : ∀ s ∈ normalizeSimplices p.mesh, Q s := fun s hs => by obtain ⟨t, ht, rfl⟩ := List.mem_map.1 hs; exact hm t ht
  cases initial with
  | none =>
    simp only [startFrom, createStateFrom] at h
    injection h with h
    subst h
    exact ⟨fun s hs => hmesh s hs, fun s hs => by simp [RunQueue.create] at hs, by simp, h1⟩
  | some sv =>
    obtain ⟨⟨hwf, hpos⟩, hq⟩ := h2 sv rfl
    obtain ⟨res, e1, -⟩ := createContainer_ok hS sv.results sv.refined fun x hx => hpos x (List.mem_append_left _ hx)
    simp only [startFrom, createStateFrom, e1] at h
    injection h with h
    subst h
    have hq' : ∀ s ∈ normalizeSimplices sv.simplices, Q s := fun s hs => by obtain ⟨t, ht, rfl⟩ := List.mem_map.1 hs; exact hn t (hq t ht)
    refine ⟨fun s hs => ?_, fun s hs => ?_, by simp, h1⟩
    · dsimp only at hs
      split at hs
      · obtain ⟨a1, -, -⟩ := addObjects_queued (RunQueue.create (normalizeSimplices sv.simplices)) (normalizeSimplices p.mesh)
        rw [a1] at hs
        rcases List.mem_append.1 hs with hs | hs
        · exact hq' s hs
        · exact hmesh s (List.mem_filter.1 hs).1
      · exact hq' s hs
    · dsimp only at hs
      split at hs
      · obtain ⟨-, -, a3⟩ := addObjects_queued (RunQueue.create (normalizeSimplices sv.simplices)) (normalizeSimplices p.mesh)
        rw [a3] at hs
        simp [RunQueue.create] at hs
      · simp [RunQueue.create] at hs

theorem simpInv_reach (hS : FloatSearch A p Res) {Q : Simplex d → Prop} (hn : ∀ s, Q s → Q (normalizeSimplex s)) (hm : ∀ s ∈ p.mesh, Q s)
    (hst : ∀ st, p.stencil = some st → ∀ pos, ∀ s ∈ translateStencil A pos st, Q s) {n : ℕ} {c : Ctl d} (h : Reach A p Res n c) : SimpInv Q c :=
  (reach_of_elem hS (P := fun _ => SimpInv Q) (fun _ => simpInv_elem hS fun st h1 pos s h2 => hn s (hst st h1 pos s h2))
    (fun _ _ h0 => simpInv_start hS hn (fun s hs => hn s (hm s hs)) none none (by simp) (by simp) h0)
    (fun _ _ _ hG hP h0 => simpInv_start hS hn (fun s hs => hn s (hm s hs)) _ _ hP.disk (fun sv hsv => ⟨hG.2 sv hsv, hP.disk sv hsv⟩) h0) h).2

end NF.FL
