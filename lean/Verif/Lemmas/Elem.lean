import Verif.Lemmas.Hist

/-! # Invariants relative to other invariants -/

noncomputable section
open Classical
namespace NF
open Spec CoordSys Container
variable {d : ℕ}

/-- `P` is preserved by every elementary operation, in states where `G` holds -/
structure Elem (p : CtlParams d) (G P : Ctl d → Prop) : Prop where
  fill : ∀ c c', G c → P c → fillStep p c = .next c' → P c'
  raise : ∀ c e c', G c → P c → fillStep p c = .raise e c' → P c'
  done : ∀ c s r, G c → P c → s ∈ c.tasks → FreshRes r → P (taskDone p c s r)
  fail : ∀ c s id, G c → P c → s ∈ c.tasks → P (taskFail c s (.gap id))
  save : ∀ c enum, G c → P c → IsEnum enum c.state.simplexQueue.running → P (doSave p c enum)
  phase : ∀ c ph, G c → P c → P { c with phase := ph }

theorem Elem.and {p : CtlParams d} {G P Q : Ctl d → Prop} (h1 : Elem p G P) (h2 : Elem p (fun c => G c ∧ P c) Q) :
    Elem p G (fun c => P c ∧ Q c) where
  fill c c' hg h hs := ⟨h1.fill c c' hg h.1 hs, h2.fill c c' ⟨hg, h.1⟩ h.2 hs⟩
  raise c e c' hg h hs := ⟨h1.raise c e c' hg h.1 hs, h2.raise c e c' ⟨hg, h.1⟩ h.2 hs⟩
  done c s r hg h hs hr := ⟨h1.done c s r hg h.1 hs hr, h2.done c s r ⟨hg, h.1⟩ h.2 hs hr⟩
  fail c s id hg h hs := ⟨h1.fail c s id hg h.1 hs, h2.fail c s id ⟨hg, h.1⟩ h.2 hs⟩
  save c en hg h hs := ⟨h1.save c en hg h.1 hs, h2.save c en ⟨hg, h.1⟩ h.2 hs⟩
  phase c ph hg h := ⟨h1.phase c ph hg h.1, h2.phase c ph ⟨hg, h.1⟩ h.2⟩

theorem Elem.mono {p : CtlParams d} {G G' P : Ctl d → Prop} (h : Elem p G P) (hg : ∀ c, G' c → G c) : Elem p G' P where
  fill c c' g := h.fill c c' (hg c g)
  raise c e c' g := h.raise c e c' (hg c g)
  done c s r g := h.done c s r (hg c g)
  fail c s id g := h.fail c s id (hg c g)
  save c en g := h.save c en (hg c g)
  phase c ph g := h.phase c ph (hg c g)

theorem Elem.step {p : CtlParams d} {P : Ctl d → Prop} (he : Elem p (fun _ => True) P) {c c' : Ctl d} (h : P c)
    (hs : Step p c c') : P c' :=
  Step.preserves (P := P) (fun c c' h hs => he.fill c c' trivial h hs) (fun c e c' h hs => he.raise c e c' trivial h hs)
    (fun c s r h hs hr => he.done c s r trivial h hs hr) (fun c s id h hs => he.fail c s id trivial h hs)
    (fun c en h hs => he.save c en trivial h hs) (fun c ph h => he.phase c ph trivial h) h hs

theorem elem_good {p : CtlParams d} (hd : DistinctInput p) : Elem p (fun _ => True) (Good p) where
  fill c c' _ h hs := ⟨h.1.fillStep hd hs, by rw [(fillStep_disk hs).1]; exact h.2⟩
  raise c e c' _ h hs := by
    refine ⟨h.1.raise hs, ?_⟩
    obtain ⟨-, -, pos, rest, hpq, rfl⟩ := fillStep_raise hs
    exact h.2
  done c s r _ h hs hr := ⟨h.1.taskDone hs, by rw [(taskDone_disk p c s r).1]; exact h.2⟩
  fail c s id _ h hs := ⟨h.1.taskFail hs, h.2⟩
  save c enum _ h he := by
    refine ⟨h.1.doSave enum, ?_⟩
    rcases doSave_eq p c enum with ⟨-, -, e⟩ | ⟨-, e⟩
    · rw [e]
      intro sv hsv
      obtain rfl := Option.some.inj hsv
      exact snapshot_ok h.1 he
    · rw [e]; exact h.2
  phase c ph _ h := ⟨h.1.phase ph, h.2⟩

theorem elem_hist {p : CtlParams d} : Elem p (fun _ => True) (HistInv p) where
  fill c c' _ h hs := by
    obtain ⟨-, ⟨x, rest, hq, -, rfl⟩ | ⟨x, rest, hq, -, rfl⟩ | ⟨pos, rest, st, hq, hpq, -, hst, rfl⟩ |
      ⟨pos, rest, hq, hpq, -, -, rfl⟩⟩ := fillStep_next hs
    · exact h
    · exact h
    · obtain ⟨⟨ops, h1, h2⟩, h3⟩ := h
      refine ⟨⟨ops ++ [.setRefined pos], ?_, ?_⟩, h3⟩
      · rw [history_snoc]; exact h1.setRefined pos
      · simpa [resultsOf_append, resultsOf] using h2
    · exact h
  raise c e c' _ h hs := by
    obtain ⟨-, -, pos, rest, -, rfl⟩ := fillStep_raise hs
    exact h
  done c s r _ h hs hr := histInv_done h hr
  fail c s id _ h hs := h
  save c enum _ h he := histInv_save h enum
  phase c ph _ h := h

/-- the save file is only changed by saving, and then it becomes the snapshot -/
theorem elem_disk {p : CtlParams d} {G : Ctl d → Prop} {S : Saved d → Prop}
    (h : ∀ c enum, G c → IsEnum enum c.state.simplexQueue.running → S (c.state.snapshot enum)) :
    Elem p G (fun c => ∀ sv, c.disk = some sv → S sv) where
  fill c c' _ h hs := by rw [(fillStep_disk hs).1]; exact h
  raise c e c' _ h hs := by
    obtain ⟨-, -, pos, rest, hpq, rfl⟩ := fillStep_raise hs
    exact h
  done c s r _ h hs hr := by rw [(taskDone_disk p c s r).1]; exact h
  fail c s id _ h hs := h
  save c enum hg h' he := by
    rcases doSave_eq p c enum with ⟨-, -, e⟩ | ⟨-, e⟩
    · rw [e]
      intro sv hsv
      obtain rfl := Option.some.inj hsv
      exact h c enum hg he
    · rw [e]; exact h'
  phase c ph _ h := h

end NF
