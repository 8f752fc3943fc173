import Verif.Lemmas.FloatElem

/-! # The cutoff of the container never changes -/

noncomputable section
open Classical

namespace NF.FL
open Spec
variable {d : ℕ} {A : CtlArith d} {p : CtlParams d} {Res : Simplex d → SRes d → Prop}

theorem addResult_cutoff {c : Container d} {r : SRes d} {c' : Container d × Bool} (h : addResult A c r = .ok c') : c'.1.distCutoff = c.distCutoff := by
  unfold addResult at h
  simp only at h
  split at h
  · cases h; rfl
  · split at h
    · cases h; rfl
    · cases h

theorem setRefined_cutoff {c c' : Container d} {x : Vec d} (h : setRefined A c x = .ok c') : c'.distCutoff = c.distCutoff := by
  unfold setRefined at h
  split at h
  · cases h; rfl
  · cases h

theorem addResults_cutoff : ∀ (rs : List (SRes d)) {c c' : Container d}, addResults A c rs = .ok c' → c'.distCutoff = c.distCutoff
  | [], c, c', h => by cases h; rfl
  | r :: rs, c, c', h => by
    unfold addResults at h
    split at h
    · rename_i c1 h1
      rw [addResults_cutoff rs h, addResult_cutoff h1]
    · cases h

theorem setRefineds_cutoff : ∀ (xs : List (Vec d)) {c c' : Container d}, setRefineds A c xs = .ok c' → c'.distCutoff = c.distCutoff
  | [], c, c', h => by cases h; rfl
  | x :: xs, c, c', h => by
    unfold setRefineds at h
    split at h
    · rename_i c1 h1
      rw [setRefineds_cutoff xs h, setRefined_cutoff h1]
    · cases h

theorem createContainer_cutoff {coord : CoordSys d} {rs : List (SRes d)} {t dc : ℝ} {xs : List (Vec d)} {c : Container d} (h : createContainer A coord rs t dc xs = .ok c) : c.distCutoff = dc := by
  unfold createContainer at h
  split at h
  · cases h
  · rename_i c1 h1
    split at h
    · cases h
    · rename_i c2 h2
      cases h
      show c2.distCutoff = dc
      rw [setRefineds_cutoff xs h2, addResults_cutoff rs h1]
      rfl

theorem startFrom_cutoff {disk initial : Option (Saved d)} {c : Ctl d} (h : startFrom A p disk initial = .ok c) : c.state.result.distCutoff = distCutoff A p := by
  unfold startFrom at h
  split at h
  · cases h
  · rename_i st hst
    cases h
    show st.result.distCutoff = _
    unfold createStateFrom at hst
    split at hst
    · split at hst
      · cases hst
      · rename_i res hres
        cases hst
        exact createContainer_cutoff hres
    · cases hst; rfl

theorem fillStep_cutoff {c c' : Ctl d} (h : fillStep A p c = .next c') : c'.state.result.distCutoff = c.state.result.distCutoff := by
  obtain ⟨-, ⟨x, rest, hq, -, rfl⟩ | ⟨x, rest, hq, -, rfl⟩ | ⟨pos, rest, st, res, hq, hpq, -, hst, hres, rfl⟩ |
    ⟨pos, rest, hq, hpq, -, -, rfl⟩⟩ := fillStep_next h
  · rfl
  · rfl
  · exact setRefined_cutoff hres
  · rfl

theorem processResult_cutoff {s s' : CtlState d} {r : SRes d} (h : processResult A p s r = .ok s') : s'.result.distCutoff = s.result.distCutoff := by
  unfold processResult at h
  split at h
  · cases h
  · rename_i added hadd
    have := addResult_cutoff hadd
    simp only at h
    split at h
    · split at h <;> (cases h; exact this)
    · cases h; exact this

theorem elem_cutoff : Elem A p Res (fun _ => True) fun c => c.state.result.distCutoff = distCutoff A p where
  fill c c' _ h hs := (fillStep_cutoff hs).trans h
  raise c e c' _ h hs := by
    unfold fillStep at hs
    split at hs
    · cases hs
    · split at hs
      · split at hs
        · cases hs
        · split at hs
          · cases hs
          · cases hs; exact h
      · split at hs
        · split at hs
          · split at hs
            · split at hs
              · cases hs
              · cases hs; exact h
            · cases hs; exact h
          · cases hs
        · cases hs
  done c s r _ h _ _ _ := by
    unfold taskDone
    split
    · exact h
    · rename_i st hst
      split <;> exact (processResult_cutoff hst).trans h
  fail c s id _ h _ := h
  save c enum _ h _ := by
    unfold doSave
    split
    · exact h
    · exact h
  phase c ph _ h := h

theorem reach_cutoff (hS : FloatSearch A p Res) {n : ℕ} {c : Ctl d} (h : Reach A p Res n c) : c.state.result.distCutoff = distCutoff A p :=
  (reach_of_elem hS (P := fun _ c => c.state.result.distCutoff = distCutoff A p) (fun _ => elem_cutoff.mono fun _ _ => trivial) (fun _ _ h => startFrom_cutoff h) (fun _ _ _ _ _ h => startFrom_cutoff h) h).2

end NF.FL
