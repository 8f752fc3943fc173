import Verif.Spec.FloatController
import Verif.Props.Float
import Verif.Lemmas.Work

/-! # Helper lemmas about the search loop in floating-point arithmetic -/

noncomputable section
open Classical
namespace NF.FL
open Spec CoordSys
variable {d : ℕ} {A : CtlArith d} {p : CtlParams d} {Res : Simplex d → SRes d → Prop}

/-! ## the cell lists -/

/-- the cells are the flat list sorted by (computed) index -/
def KeyInv {α : Type} (A : CtlArith d) (cs : CoordSys d) (c : CellList d α) (key : α → Vec d) : Prop :=
  ∀ idx, c.cells idx = c.flat.filter fun v => decide (FL.getIndex A.rnd c (FL.getFrac A.rnd cs (key v)) = idx)

theorem getIndex_congr {α β : Type} {rnd : ℝ → ℝ} {c : CellList d α} {c' : CellList d β} (h1 : c.periodic = c'.periodic) (h2 : c.numCells = c'.numCells) (f : Vec d) :
    FL.getIndex rnd c f = FL.getIndex rnd c' f := by
  funext i; simp [FL.getIndex, CellList.total, h1, h2]

theorem add_ok {α : Type} {cs : CoordSys d} (hr : IsNearest A.rnd) (hb : ProperBox cs) (hf : FloatBox cs) {dc : ℝ} {cl : CellList d α} (hper : cl.periodic = cs.periodic)
    (hn : cl.numCells = FL.numCellsFor A.rnd cs dc) {key : α → Vec d} (hinv : KeyInv A cs cl key) (v : α) (hv : ∃ y, key v = FL.normalizePosition A.rnd cs y) :
    ∃ cl', FL.addPointChecked A.rnd cl (FL.getFrac A.rnd cs (key v)) v = .ok cl' ∧ cl'.flat = cl.flat ++ [v] ∧ cl'.periodic = cl.periodic ∧ cl'.numCells = cl.numCells ∧ KeyInv A cs cl' key := by
  obtain ⟨y, hy⟩ := hv
  have hnn : ∀ i, 1 ≤ cl.numCells i ∧ cl.numCells i < 2 ^ 52 := fun i => by
    have := fl_numCells_bounds A.rnd cs dc i
    rw [hn]; exact ⟨this.1, lt_of_le_of_lt this.2 (by norm_num)⟩
  have h := getIndex_normalized hr hb hf hper hnn y
  rw [← hy] at h
  set idx := FL.getIndex A.rnd cl (FL.getFrac A.rnd cs (key v)) with hidx
  refine ⟨{ cl with cells := Function.update cl.cells idx (cl.cells idx ++ [v]), flat := cl.flat ++ [v] }, ?_, rfl, rfl, rfl, ?_⟩
  · unfold FL.addPointChecked
    simp only [← hidx]
    have h2 : (fun j => if idx j < 0 then idx j + cl.total j else idx j) = idx := by
      funext j; rw [if_neg (by have := h j; omega)]
    rw [if_pos (fun j => ⟨by have := h j; omega, (h j).2⟩), h2]
  · intro idx'
    have e : ∀ f, FL.getIndex A.rnd { cl with cells := Function.update cl.cells idx (cl.cells idx ++ [v]), flat := cl.flat ++ [v] } f = FL.getIndex A.rnd cl f := fun f => rfl
    simp only [e]
    by_cases hc : idx = idx'
    · subst hc
      rw [Function.update_self, hinv idx, List.filter_append]
      congr 1
      simp [← hidx]
    · rw [Function.update_of_ne (fun h => hc h.symm), hinv idx', List.filter_append]
      simp [← hidx, hc]

theorem mem_neighbourValues {α : Type} {cs : CoordSys d} {c : CellList d α} {key : α → Vec d} (h : KeyInv A cs c key) (f : Vec d) (v : α) :
    v ∈ neighbourValues A c f ↔ v ∈ c.flat ∧ FL.getIndex A.rnd c (FL.getFrac A.rnd cs (key v)) ∈ c.calculateNeighbourIndices (FL.getIndex A.rnd c f) := by
  simp only [neighbourValues, List.mem_flatMap, h _, List.mem_filter, decide_eq_true_eq]
  constructor
  · rintro ⟨i, hi, hv, rfl⟩; exact ⟨hv, hi⟩
  · rintro ⟨hv, hi⟩; exact ⟨_, hi, hv, rfl⟩

theorem count_neighbourValues {α : Type} [BEq α] [LawfulBEq α] {cs : CoordSys d} {c : CellList d α} {key : α → Vec d} (h : KeyInv A cs c key) (f : Vec d) (v : α) :
    (neighbourValues A c f).count v =
      (c.calculateNeighbourIndices (FL.getIndex A.rnd c f)).count (FL.getIndex A.rnd c (FL.getFrac A.rnd cs (key v))) * c.flat.count v := by
  unfold neighbourValues
  rw [List.count_flatMap]
  induction c.calculateNeighbourIndices (FL.getIndex A.rnd c f) with
  | nil => simp
  | cons a l ih =>
    rw [List.map_cons, List.sum_cons, ih, List.count_cons]
    simp only [Function.comp, h _]
    by_cases e : a = FL.getIndex A.rnd c (FL.getFrac A.rnd cs (key v))
    · subst e
      rw [List.count_filter (by simp)]
      simp; ring
    · have e' : ¬ FL.getIndex A.rnd c (FL.getFrac A.rnd cs (key v)) = a := fun h => e h.symm
      rw [List.count_eq_zero_of_not_mem (by simp [e'])]
      simp [e]

/-! ## the container -/

/-- what every container of the search looks like -/
structure ContInv (A : CtlArith d) (p : CtlParams d) (c : Container d) : Prop where
  coord : c.coord = p.coord
  gap : c.gapThreshold = p.gapThreshold
  nper : c.nodes.periodic = p.coord.periodic
  nnum : c.nodes.numCells = FL.numCellsFor A.rnd p.coord (distCutoff A p)
  ninv : KeyInv A p.coord c.nodes fun r => r.pos
  rper : c.refined.periodic = p.coord.periodic
  rnum : c.refined.numCells = FL.numCellsFor A.rnd p.coord (distCutoff A p)
  rinv : KeyInv A p.coord c.refined fun x => x

/-- the result as stored -/
def stored (A : CtlArith d) (p : CtlParams d) (r : SRes d) : SRes d := r.setPos (FL.normalizePosition A.rnd p.coord r.pos)

/-- a normalized position of a result -/
def NormPos (A : CtlArith d) (p : CtlParams d) (Res : Simplex d → SRes d → Prop) (x : Vec d) : Prop :=
  ∃ s r, Res s r ∧ x = FL.normalizePosition A.rnd p.coord r.pos

theorem empty_inv : ContInv A p (emptyContainer A p.coord p.gapThreshold (distCutoff A p)) :=
  ⟨rfl, rfl, rfl, rfl, fun idx => by simp [emptyContainer, CellList.mk'], rfl, rfl, fun idx => by simp [emptyContainer, CellList.mk']⟩

theorem addResult_ok (hs : FloatSearch A p Res) {c : Container d} (h : ContInv A p c) (r : SRes d) :
    ∃ c' b, addResult A c r = .ok (c', b) ∧ ContInv A p c' ∧ (b = true ↔ IsNode p.gapThreshold r) ∧ c'.refined = c.refined ∧ c'.needsSaving = c.needsSaving ∧
      c'.nodes.flat = (if IsNode p.gapThreshold r then c.nodes.flat ++ [stored A p r] else c.nodes.flat) ∧
      c'.rejected = (if IsNode p.gapThreshold r then c.rejected else c.rejected ++ [stored A p r]) := by
  unfold addResult
  simp only [SRes.success_setPos, SRes.value_setPos, SRes.pos_setPos, h.coord, h.gap]
  by_cases hn : IsNode p.gapThreshold r
  · have h' : ¬ (r.success = false ∨ FVal.gt r.value (FVal.ofReal p.gapThreshold)) := by
      unfold IsNode at hn; simp [hn.1, hn.2]
    rw [if_neg h']
    obtain ⟨cl', e, e1, e2, e3, e4⟩ := add_ok (cs := p.coord) hs.nearest hs.box hs.floats h.nper h.nnum h.ninv (stored A p r) ⟨r.pos, by simp [stored]⟩
    have e' : FL.addPointChecked A.rnd c.nodes (FL.getFrac A.rnd p.coord (FL.normalizePosition A.rnd p.coord r.pos)) (r.setPos (FL.normalizePosition A.rnd p.coord r.pos)) = .ok cl' := by
      simpa [stored] using e
    simp only [e']
    exact ⟨_, _, rfl, ⟨rfl, rfl, e2.trans h.nper, e3.trans h.nnum, e4, h.rper, h.rnum, h.rinv⟩, by simp [hn], rfl, rfl, by simp [hn, e1], by simp [hn]⟩
  · have h' : r.success = false ∨ FVal.gt r.value (FVal.ofReal p.gapThreshold) := by
      unfold IsNode at hn
      by_cases h1 : r.success = true
      · right; by_contra h2; exact hn ⟨h1, h2⟩
      · left; simpa using h1
    rw [if_pos h']
    exact ⟨_, _, rfl, ⟨rfl, rfl, h.nper, h.nnum, h.ninv, h.rper, h.rnum, h.rinv⟩, by simp [hn], rfl, rfl, by simp [hn], by simp [hn, stored]⟩

theorem setRefined_ok (hs : FloatSearch A p Res) {c : Container d} (h : ContInv A p c) {x : Vec d} (hx : NormPos A p Res x) :
    ∃ c', setRefined A c x = .ok c' ∧ ContInv A p c' ∧ c'.refined.flat = c.refined.flat ++ [x] ∧ c'.nodes = c.nodes ∧ c'.rejected = c.rejected ∧ c'.needsSaving = true := by
  obtain ⟨s, r, -, hx⟩ := hx
  obtain ⟨cl', e, e1, e2, e3, e4⟩ := add_ok (cs := p.coord) hs.nearest hs.box hs.floats h.rper h.rnum h.rinv x ⟨r.pos, hx⟩
  unfold setRefined
  simp only [h.coord, e]
  exact ⟨_, rfl, ⟨rfl, h.gap, h.nper, h.nnum, h.ninv, e2.trans h.rper, e3.trans h.rnum, e4⟩, e1, rfl, rfl, rfl⟩

theorem addResults_ok (hs : FloatSearch A p Res) (rs : List (SRes d)) {c : Container d} (h : ContInv A p c) :
    ∃ c', addResults A c rs = .ok c' ∧ ContInv A p c' ∧ c'.refined = c.refined ∧
      c'.nodes.flat = c.nodes.flat ++ (rs.filter fun r => decide (IsNode p.gapThreshold r)).map (stored A p) ∧
      c'.rejected = c.rejected ++ (rs.filter fun r => decide (¬ IsNode p.gapThreshold r)).map (stored A p) := by
  induction rs generalizing c with
  | nil => exact ⟨c, rfl, h, rfl, by simp, by simp⟩
  | cons r rs ih =>
    obtain ⟨c1, b, e, h1, -, h2, -, h3, h4⟩ := addResult_ok hs h r
    obtain ⟨c2, e2, g1, g2, g3, g4⟩ := ih h1
    refine ⟨c2, ?_, g1, g2.trans h2, ?_, ?_⟩
    · simp only [addResults, e, e2]
    · rw [g3, h3]
      by_cases hn : IsNode p.gapThreshold r <;> simp [hn]
    · rw [g4, h4]
      by_cases hn : IsNode p.gapThreshold r <;> simp [hn]

theorem setRefineds_ok (hs : FloatSearch A p Res) (xs : List (Vec d)) (hx : ∀ x ∈ xs, NormPos A p Res x) {c : Container d} (h : ContInv A p c) :
    ∃ c', setRefineds A c xs = .ok c' ∧ ContInv A p c' ∧ c'.refined.flat = c.refined.flat ++ xs ∧ c'.nodes = c.nodes ∧ c'.rejected = c.rejected := by
  induction xs generalizing c with
  | nil => exact ⟨c, rfl, h, by simp, rfl, rfl⟩
  | cons x xs ih =>
    obtain ⟨c1, e, h1, h2, h3, h4, -⟩ := setRefined_ok hs h (hx x (by simp))
    obtain ⟨c2, e2, g1, g2, g3, g4⟩ := ih (fun y hy => hx y (by simp [hy])) h1
    refine ⟨c2, ?_, g1, ?_, g3.trans h3, g4.trans h4⟩
    · simp only [setRefineds, e, e2]
    · rw [g2, h2]; simp

theorem createContainer_ok (hs : FloatSearch A p Res) (rs : List (SRes d)) (xs : List (Vec d)) (hx : ∀ x ∈ xs, NormPos A p Res x) :
    ∃ c', createContainer A p.coord rs p.gapThreshold (distCutoff A p) xs = .ok c' ∧ ContInv A p c' ∧ c'.refined.flat = xs ∧
      c'.nodes.flat = (rs.filter fun r => decide (IsNode p.gapThreshold r)).map (stored A p) ∧
      c'.rejected = (rs.filter fun r => decide (¬ IsNode p.gapThreshold r)).map (stored A p) := by
  obtain ⟨c1, e1, h1, h2, h3, h4⟩ := addResults_ok hs rs (empty_inv (A := A) (p := p))
  obtain ⟨c2, e2, g1, g2, g3, g4⟩ := setRefineds_ok hs xs hx h1
  refine ⟨{ c2 with needsSaving := true }, ?_, ⟨g1.coord, g1.gap, g1.nper, g1.nnum, g1.ninv, g1.rper, g1.rnum, g1.rinv⟩, ?_, ?_, ?_⟩
  · simp only [createContainer, e1, e2]
  · simp only [g2, h2]; rfl
  · simp only [g3, h3]; rfl
  · simp only [g4, h4]; rfl

/-! ## the scheduling step -/

theorem fillStep_next {c c' : Ctl d} (h : fillStep A p c = .next c') :
    (c.state.simplexQueue.numRunning : ℤ) < p.numMinimizeParallel ∧
    ((∃ x rest, c.state.simplexQueue.base.queued = x :: rest ∧ checkSimplex A p c.state.result x = true ∧
        c' = { c with
          state := { c.state with simplexQueue := c.state.simplexQueue.popTo x rest }
          tasks := c.tasks ++ [x], log := c.log ++ [.scheduled x] }) ∨
     (∃ x rest, c.state.simplexQueue.base.queued = x :: rest ∧ checkSimplex A p c.state.result x = false ∧
        c' = { c with
          state := { c.state with simplexQueue := (c.state.simplexQueue.popTo x rest).finishOf x }
          log := c.log ++ [.skipped x] }) ∨
     (∃ pos rest st res, c.state.simplexQueue.base.queued = [] ∧ c.state.positionQueue.queued = pos :: rest ∧
        (p.recheckPosDist = false ∨ checkPosRefinement A p c.state.result pos p.recheckCountCutoff = true) ∧
        p.stencil = some st ∧ setRefined A c.state.result pos = .ok res ∧
        c' = { c with
          state := ⟨res, c.state.simplexQueue.addObjects (normalizeSimplices (translateStencil A pos st)),
            c.state.positionQueue.popTo rest⟩
          log := c.log ++ [.refined pos] }) ∨
     (∃ pos rest, c.state.simplexQueue.base.queued = [] ∧ c.state.positionQueue.queued = pos :: rest ∧
        p.recheckPosDist = true ∧ checkPosRefinement A p c.state.result pos p.recheckCountCutoff = false ∧
        c' = { c with
          state := { c.state with positionQueue := c.state.positionQueue.popTo rest }
          log := c.log ++ [.discarded pos] })) := by
  unfold fillStep at h
  split at h
  · cases h
  · rename_i hlt
    refine ⟨by simpa using hlt, ?_⟩
    cases hq : c.state.simplexQueue.base.queued with
    | cons x rest =>
      simp only [RunQueue.popQueued_cons hq] at h
      split at h
      · rename_i hc
        injection h with h; subst h
        left; exact ⟨x, rest, rfl, hc, rfl⟩
      · rename_i hc
        have hx : x ∈ (c.state.simplexQueue.popTo x rest).running := by simp
        simp only [RunQueue.setFinished_of_mem hx] at h
        injection h with h; subst h
        right; left; exact ⟨x, rest, rfl, by simpa using hc, rfl⟩
    | nil =>
      simp only [RunQueue.popQueued_nil hq] at h
      cases hp : c.state.positionQueue.queued with
      | nil => simp [ObjQueue.popQueued_nil hp] at h
      | cons y ys =>
        simp only [ObjQueue.popQueued_cons hp] at h
        split at h
        · rename_i hc
          cases hst : p.stencil with
          | none => simp [hst] at h
          | some st =>
            cases hsr : setRefined A c.state.result y with
            | error e => simp [hst, hsr] at h
            | ok res =>
              simp only [hst, hsr] at h
              injection h with h; subst h
              right; right; left; exact ⟨y, ys, st, res, rfl, rfl, hc, rfl, hsr, rfl⟩
        · rename_i hc
          injection h with h; subst h
          right; right; right
          push Not at hc
          exact ⟨y, ys, rfl, rfl, by simpa using hc.1, by simpa using hc.2, rfl⟩

theorem fillStep_stop {c : Ctl d} (h : fillStep A p c = .stop) :
    p.numMinimizeParallel ≤ c.state.simplexQueue.numRunning ∨
      (c.state.simplexQueue.base.queued = [] ∧ c.state.positionQueue.queued = []) := by
  unfold fillStep at h
  split at h
  · rename_i hlt; left; simpa using hlt
  · right
    cases hq : c.state.simplexQueue.base.queued with
    | cons x rest =>
      simp only [RunQueue.popQueued_cons hq] at h
      split at h
      · cases h
      · have hx : x ∈ (c.state.simplexQueue.popTo x rest).running := by simp
        simp [RunQueue.setFinished_of_mem hx] at h
    | nil =>
      simp only [RunQueue.popQueued_nil hq] at h
      cases hp : c.state.positionQueue.queued with
      | nil => exact ⟨rfl, rfl⟩
      | cons y ys =>
        simp only [ObjQueue.popQueued_cons hp] at h
        split at h
        · split at h
          · split at h <;> cases h
          · cases h
        · cases h

theorem fillStep_raise {c c' : Ctl d} {e : Err} (h : fillStep A p c = .raise e c') :
    ∃ pos rest, c.state.positionQueue.queued = pos :: rest ∧
      ((e = .type ∧ p.stencil = none ∧ c' = { c with state := { c.state with positionQueue := c.state.positionQueue.popTo rest } }) ∨
        setRefined A c.state.result pos = .error e) := by
  unfold fillStep at h
  split at h
  · cases h
  · cases hq : c.state.simplexQueue.base.queued with
    | cons x rest =>
      simp only [RunQueue.popQueued_cons hq] at h
      split at h
      · cases h
      · have hx : x ∈ (c.state.simplexQueue.popTo x rest).running := by simp
        simp [RunQueue.setFinished_of_mem hx] at h
    | nil =>
      simp only [RunQueue.popQueued_nil hq] at h
      cases hp : c.state.positionQueue.queued with
      | nil => simp [ObjQueue.popQueued_nil hp] at h
      | cons y ys =>
        simp only [ObjQueue.popQueued_cons hp] at h
        split at h
        · cases hst : p.stencil with
          | none =>
            simp only [hst] at h
            injection h with h1 h2
            exact ⟨y, ys, rfl, .inl ⟨h1.symm, rfl, h2.symm⟩⟩
          | some st =>
            cases hsr : setRefined A c.state.result y with
            | error e' =>
              simp only [hst, hsr] at h
              injection h with h1 h2
              exact ⟨y, ys, rfl, .inr (by rw [← h1, hsr])⟩
            | ok res => simp [hst, hsr] at h
        · cases h

/-- induction over the scheduling round -/
theorem fill_induction {P : Ctl d → Prop} (hstep : ∀ c c', P c → fillStep A p c = .next c' → P c') :
    ∀ (c : Ctl d), P c → ∀ e c', fill A p c = (e, c') →
      ∃ c1, P c1 ∧ ((e = none ∧ c' = c1 ∧ fillStep A p c1 = .stop) ∨
        ∃ err, e = some err ∧ fillStep A p c1 = .raise err c') := by
  intro c
  induction hm : fillMeasure c using WellFoundedLT.induction generalizing c with
  | _ m ih =>
  intro hP e c' h
  rw [fill] at h
  split at h
  · rename_i hs
    injection h with h1 h2
    exact ⟨c, hP, Or.inl ⟨h1.symm, h2.symm, hs⟩⟩
  · rename_i e0 c0 hs
    injection h with h1 h2
    subst h2
    exact ⟨c, hP, Or.inr ⟨e0, h1.symm, hs⟩⟩
  · rename_i c0 hs
    exact ih (fillMeasure c0) (hm ▸ fillStep_decreases hs) c0 rfl (hstep c c0 hP hs) e c' h

end NF.FL
