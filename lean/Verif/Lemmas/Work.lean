import Verif.Lemmas.Refine

/-! # How much a session can do -/

noncomputable section
open Classical
namespace NF
open Spec CoordSys Container
variable {d : ℕ}

/-- number of simplices in the stencil -/
def stencilSize (p : CtlParams d) : ℕ := match p.stencil with
  | none => 0
  | some st => st.length

/-- what is known about the record of a session that started with `B` simplices, `P` positions and `R` refined ones -/
structure WorkInv (p : CtlParams d) (B P R : ℕ) (c : Ctl d) : Prop where
  simplices : (handled c.log ++ outstanding c).length ≤ B + stencilSize p * (refinedPositions c.log).length
  log : c.log.length + c.state.positionQueue.queued.length ≤
    3 * (handled c.log).length + c.tasks.length + 2 * c.failed.length + P
  refined : c.state.result.refined.flat.length = R + (refinedPositions c.log).length

theorem addObjects_length (q : RunQueue (Simplex d)) (l : List (Simplex d)) :
    (q.addObjects l).base.queued.length ≤ q.base.queued.length + l.length := by
  rw [(addObjects_queued q l).1, List.length_append]
  have := List.length_filter_le (fun o => decide (o ∉ q.base.all)) l
  omega

theorem elem_work {p : CtlParams d} {B P R : ℕ} : Elem p (Good p) (WorkInv p B P R) where
  fill := by
    rintro c c' hG ⟨h1, h2, h3⟩ hs
    obtain ⟨-, ⟨x, rest, hq, -, rfl⟩ | ⟨x, rest, hq, -, rfl⟩ | ⟨pos, rest, st, hq, hpq, hck, hst, rfl⟩ |
        ⟨pos, rest, hq, hpq, -, -, rfl⟩⟩ := fillStep_next hs
    · refine ⟨?_, ?_, ?_⟩
      · simp only [outstanding, hq, handled_append, handled, refinedPositions_append, refinedPositions, List.length_append,
          List.length_cons, List.length_nil, RunQueue.popTo_queued, List.length_map, add_zero] at h1 ⊢
        omega
      · simp only [handled_append, handled, List.length_append, List.length_cons, List.length_nil] at h2 ⊢
        omega
      · simpa [refinedPositions_append, refinedPositions] using h3
    · refine ⟨?_, ?_, ?_⟩
      · simp only [outstanding, hq, handled_append, handled, refinedPositions_append, refinedPositions, List.length_append,
          List.length_cons, List.length_nil, RunQueue.popTo_queued, RunQueue.finishOf_queued, List.length_map, add_zero] at h1 ⊢
        omega
      · simp only [handled_append, handled, List.length_append, List.length_cons, List.length_nil] at h2 ⊢
        omega
      · simpa [refinedPositions_append, refinedPositions] using h3
    · refine ⟨?_, ?_, ?_⟩
      · have hl := addObjects_length c.state.simplexQueue (normalizeSimplices (translateStencil pos st))
        rw [length_normalizeSimplices, translateStencil, List.length_map] at hl
        have hS : stencilSize p = st.length := by simp [stencilSize, hst]
        simp only [outstanding, handled_append, handled, refinedPositions_append, refinedPositions, List.length_append,
          List.length_cons, List.length_nil, List.length_map, hS, mul_add, mul_one, zero_add, add_zero, translateStencil] at h1 hl ⊢
        omega
      · simp only [handled_append, handled, List.length_append, List.length_cons, List.length_nil, hpq,
          ObjQueue.popTo_queued] at h2 ⊢
        omega
      · simp only [refinedPositions_append, refinedPositions, Container.setRefined, CellList.addPoint, List.length_append,
          List.length_cons, List.length_nil] at h3 ⊢
        omega
    · refine ⟨?_, ?_, ?_⟩
      · simpa [outstanding, handled_append, handled, refinedPositions_append, refinedPositions] using h1
      · simp only [handled_append, handled, List.length_append, List.length_cons, List.length_nil, hpq,
          ObjQueue.popTo_queued] at h2 ⊢
        omega
      · simpa [refinedPositions_append, refinedPositions] using h3
  raise := by
    rintro c e c' hG ⟨h1, h2, h3⟩ hs
    obtain ⟨-, -, pos, rest, hpq, rfl⟩ := fillStep_raise hs
    refine ⟨h1, ?_, h3⟩
    simp only [hpq, List.length_cons, ObjQueue.popTo_queued] at h2 ⊢
    omega
  done := by
    rintro c s r hG ⟨h1, h2, h3⟩ hs hr
    have hrun : s ∈ c.state.simplexQueue.running := (hG.1.run s).1 (List.mem_append_left _ hs)
    rw [taskDone_of_mem r hrun]
    obtain ⟨g1, -, g3⟩ := processResult_cases p c.state r
    have hlen := List.length_erase_of_mem hs
    have hpos : 0 < c.tasks.length := List.length_pos_of_mem hs
    refine ⟨?_, ?_, ?_⟩
    · simp only [outstanding, handled_append, handled, refinedPositions_append, refinedPositions, List.length_append,
        List.length_cons, List.length_nil, List.length_map, RunQueue.finishOf_queued, hlen, add_zero] at h1 ⊢
      omega
    · simp only [handled_append, handled, List.length_append, List.length_cons, List.length_nil, hlen] at h2 ⊢
      rcases g3 with ⟨-, -, -, g4⟩ | ⟨g4, -⟩
      · rw [g4]
        rcases objAddObjects c.state.positionQueue (p.coord.normalizePosition r.pos) with ⟨-, h5⟩ | ⟨-, h5⟩ <;> rw [h5]
        · omega
        · simp only [List.length_append, List.length_cons, List.length_nil]; omega
      · rw [g4]; omega
    · simp only [g1, (addResult_refined _ _).1, refinedPositions_append, refinedPositions, List.append_nil]
      exact h3
  fail := by
    rintro c s id hG ⟨h1, h2, h3⟩ hs
    have hlen := List.length_erase_of_mem hs
    have hpos : 0 < c.tasks.length := List.length_pos_of_mem hs
    refine ⟨?_, ?_, ?_⟩
    · simp only [outstanding, taskFail, handled_append, handled, refinedPositions_append, refinedPositions, List.length_append,
        List.length_cons, List.length_nil, List.length_map, hlen, add_zero] at h1 ⊢
      omega
    · simp only [taskFail, handled_append, handled, List.length_append, List.length_cons, List.length_nil, hlen] at h2 ⊢
      omega
    · simpa [taskFail, refinedPositions_append, refinedPositions] using h3
  save := by
    intro c enum hG hP he
    rcases doSave_eq p c enum with ⟨-, -, e⟩ | ⟨-, e⟩ <;> rw [e] <;> exact ⟨hP.simplices, hP.log, hP.refined⟩
  phase := fun c ph hG hP => ⟨hP.simplices, hP.log, hP.refined⟩

theorem work_start (p : CtlParams d) (disk initial : Option (Saved d)) :
    WorkInv p (startSimplices p initial).length (startPositions initial).length
      (startFrom p disk initial).state.result.refined.flat.length (startFrom p disk initial) := by
  refine ⟨?_, ?_, ?_⟩
  · cases initial with
    | none => simp [startFrom, createStateFrom, handled, outstanding, RunQueue.create, ObjQueue.create, startSimplices, length_normalizeSimplices]
    | some sv =>
      simp only [startFrom, createStateFrom, handled, outstanding, startSimplices, List.nil_append, List.map_nil]
      split
      · refine (addObjects_length _ _).trans ?_
        simp only [length_normalizeSimplices, RunQueue.create, ObjQueue.create, List.length_append]
        omega
      · simp [RunQueue.create, ObjQueue.create, length_normalizeSimplices]
  · cases initial <;> simp [startFrom, createStateFrom, handled, ObjQueue.create, startPositions]
  · simp [startFrom, refinedPositions]

theorem work_from {p : CtlParams d} (hd : DistinctInput p) {disk initial : Option (Saved d)}
    (h1 : ∀ sv, disk = some sv → WellFormedSaved sv) (h2 : ∀ sv, initial = some sv → WellFormedSaved sv) {c : Ctl d}
    (h : ReachFrom p (startFrom p disk initial) c) :
    WorkInv p (startSimplices p initial).length (startPositions initial).length
      (startFrom p disk initial).state.result.refined.flat.length c := by
  have e := (elem_good hd).and ((elem_work (p := p) (B := (startSimplices p initial).length) (P := (startPositions initial).length)
    (R := (startFrom p disk initial).state.result.refined.flat.length)).mono fun c h => h.2)
  exact (ReachFrom.induction (P := fun c => Good p c ∧ _) ⟨⟨acct_start hd disk initial h2, h1⟩, work_start p disk initial⟩
    (fun c c' h hs => e.step h hs) h).2

end NF
