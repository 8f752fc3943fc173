import Verif.Lemmas.Checks

/-! # The save file and the current state -/

noncomputable section
open Classical
namespace NF
open Spec CoordSys
variable {d : ℕ}

/-- A state that is marked as saved is on disk. -/
def DiskInv (p : CtlParams d) (c : Ctl d) : Prop :=
  Good p c ∧ (c.state.needsSaving = false → ∃ sv, c.disk = some sv ∧ UpToDate p c sv)

theorem needsSaving_false {s : CtlState d} : s.needsSaving = false ↔
    s.result.needsSaving = false ∧ s.simplexQueue.base.needsSaving = false ∧ s.positionQueue.needsSaving = false := by
  simp [CtlState.needsSaving, and_assoc]

theorem setSaved_needs (s : CtlState d) : s.setSaved.needsSaving = false := rfl

theorem addResult_refined (c : Container d) (r : SRes d) :
    (c.addResult r).1.refined = c.refined ∧ (c.addResult r).1.needsSaving = c.needsSaving := by
  unfold Container.addResult
  simp only
  split <;> exact ⟨rfl, rfl⟩

/-- the check only depends on the refined positions -/
theorem checkPos_congr {p : CtlParams d} {r r' : Container d} (h1 : r'.refined = r.refined) (h2 : r'.coord = r.coord) (x : Vec d) (k : ℤ) :
    checkPosRefinement p r' x k = checkPosRefinement p r x k := by
  unfold checkPosRefinement Container.refinedNeighbourDistances
  rw [h1, h2]

theorem snapshot_upToDate {p : CtlParams d} {c : Ctl d} (h : Acct p c) {enum : List (Simplex d)}
    (he : IsEnum enum c.state.simplexQueue.running) : UpToDate p c (c.state.snapshot enum) := by
  refine ⟨rfl, rfl, (snapshot_ok h he).nodup, ?_, [], rfl, by simp⟩
  intro s
  change s ∈ enum ++ _ ↔ s ∈ _ ++ _
  rw [List.mem_append, List.mem_append, he.2, h.run]

theorem diskInv_fillStep {p : CtlParams d} (hd : DistinctInput p) {c c' : Ctl d} (h : DiskInv p c)
    (hs : fillStep p c = .next c') : DiskInv p c' := by
  have hg : Good p c' := ⟨h.1.1.fillStep hd hs, by rw [(fillStep_disk hs).1]; exact h.1.2⟩
  refine ⟨hg, ?_⟩
  obtain ⟨-, ⟨x, rest, hq, -, rfl⟩ | ⟨x, rest, hq, -, rfl⟩ | ⟨pos, rest, st, hq, hpq, -, hst, rfl⟩ |
    ⟨pos, rest, hq, hpq, hrp, hchk, rfl⟩⟩ := fillStep_next hs
  · intro hn
    obtain ⟨sv, h1, h2⟩ := h.2 (by rw [needsSaving_false] at hn ⊢; exact hn)
    refine ⟨sv, h1, h2.results, h2.refined, h2.nodup, ?_, h2.positions⟩
    intro s
    rw [h2.simplices s]
    simp only [outstanding, List.mem_append, hq, List.mem_cons]
    tauto
  · intro hn
    rw [needsSaving_false] at hn
    exact absurd hn.2.1 (by simp)
  · intro hn
    rw [needsSaving_false] at hn
    exact absurd hn.1 (by simp [Container.setRefined])
  · intro hn
    obtain ⟨sv, h1, h2⟩ := h.2 (by rw [needsSaving_false] at hn ⊢; exact hn)
    obtain ⟨stale, e, hst⟩ := h2.positions
    refine ⟨sv, h1, h2.results, h2.refined, h2.nodup, h2.simplices, stale ++ [pos], ?_, ?_⟩
    · rw [e, hpq]; simp
    · intro x hx
      rcases List.mem_append.1 hx with hx | hx
      · exact hst x hx
      · rw [List.mem_singleton.1 hx]; exact Or.inr ⟨hrp, hchk⟩

theorem diskInv_step {p : CtlParams d} (hd : DistinctInput p) {c c' : Ctl d} (h : DiskInv p c) (hs : Step p c c') :
    DiskInv p c' := by
  refine Step.preserves (P := DiskInv p) ?_ ?_ ?_ ?_ ?_ ?_ h hs
  · intro c c' h hs; exact diskInv_fillStep hd h hs
  · intro c e c' h hs
    obtain ⟨-, hnone, pos, rest, hpq, rfl⟩ := fillStep_raise hs
    refine ⟨⟨h.1.1.raise hs, h.1.2⟩, ?_⟩
    intro hn
    obtain ⟨sv, h1, h2⟩ := h.2 (by rw [needsSaving_false] at hn ⊢; exact hn)
    obtain ⟨stale, e, hst⟩ := h2.positions
    refine ⟨sv, h1, h2.results, h2.refined, h2.nodup, h2.simplices, stale ++ [pos], ?_, ?_⟩
    · rw [e, hpq]; simp
    · intro x _; exact Or.inl hnone
  · intro c s r h hs hr
    have hrun : s ∈ c.state.simplexQueue.running := (h.1.1.run s).1 (List.mem_append_left _ hs)
    refine ⟨⟨h.1.1.taskDone hs, by rw [(taskDone_disk p c s r).1]; exact h.1.2⟩, ?_⟩
    rw [taskDone_of_mem r hrun]
    intro hn
    rw [needsSaving_false] at hn
    exact absurd hn.2.1 (by simp)
  · intro c s id h hs
    refine ⟨⟨h.1.1.taskFail hs, h.1.2⟩, ?_⟩
    intro hn
    obtain ⟨sv, h1, h2⟩ := h.2 hn
    refine ⟨sv, h1, h2.results, h2.refined, h2.nodup, ?_, h2.positions⟩
    intro x
    rw [h2.simplices x]
    have herase : c.tasks.Perm (s :: c.tasks.erase s) := List.perm_cons_erase hs
    simp only [outstanding, List.mem_append, herase.mem_iff, taskFail, List.map_append, List.map_cons,
      List.map_nil, List.mem_cons]
    tauto
  · intro c enum h he
    have hsm : Good p (doSave p c enum) := by
      refine ⟨h.1.1.doSave enum, ?_⟩
      rcases doSave_eq p c enum with ⟨-, -, e⟩ | ⟨-, e⟩
      · rw [e]
        intro sv hsv
        obtain rfl := Option.some.inj hsv
        exact snapshot_ok h.1.1 he
      · rw [e]; exact h.1.2
    refine ⟨hsm, ?_⟩
    rcases doSave_eq p c enum with ⟨-, -, e⟩ | ⟨-, e⟩
    · rw [e]
      intro _
      have := snapshot_upToDate h.1.1 he
      exact ⟨_, rfl, this.results, this.refined, this.nodup, this.simplices, this.positions⟩
    · rw [e]; exact h.2
  · intro c ph h
    refine ⟨⟨h.1.1.phase ph, h.1.2⟩, ?_⟩
    intro hn
    obtain ⟨sv, h1, h2⟩ := h.2 hn
    exact ⟨sv, h1, h2.results, h2.refined, h2.nodup, h2.simplices, h2.positions⟩

theorem start_needsSaving (p : CtlParams d) (disk initial : Option (Saved d)) :
    (startFrom p disk initial).state.needsSaving = true := by
  cases initial <;> simp [startFrom, createStateFrom, CtlState.needsSaving, Container.create]

theorem diskInv_any {p : CtlParams d} (hd : DistinctInput p) {c : Ctl d} (h : ReachAny p c) : DiskInv p c := by
  refine ReachAny.induction (P := DiskInv p) ?_ (fun c c' h hs => diskInv_step hd h hs) ?_ h
  · intro disk initial h1 h2
    refine ⟨⟨acct_start hd disk initial h2, h1⟩, ?_⟩
    rw [start_needsSaving]; simp
  · intro c h
    refine ⟨⟨acct_start hd c.disk c.disk h.1.2, h.1.2⟩, ?_⟩
    unfold restart
    rw [start_needsSaving]; simp

end NF
