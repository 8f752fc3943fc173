import Verif.Lemmas.CellList
import Verif.Spec.Container
import Verif.Props.Coord

/-! # Helper lemmas about the result container -/

noncomputable section
open Classical
namespace NF
open Spec CoordSys

namespace SRes
variable {d : ℕ}
@[simp] theorem pos_setPos (r : SRes d) (p : Vec d) : (r.setPos p).pos = p := by cases r <;> rfl
@[simp] theorem value_setPos (r : SRes d) (p : Vec d) : (r.setPos p).value = r.value := by cases r <;> rfl
@[simp] theorem success_setPos (r : SRes d) (p : Vec d) : (r.setPos p).success = r.success := by
  cases r <;> rfl
@[simp] theorem setPos_setPos (r : SRes d) (p q : Vec d) : (r.setPos p).setPos q = r.setPos q := by
  cases r <;> rfl
end SRes

theorem isNode_setPos {d : ℕ} (g : ℝ) (r : SRes d) (p : Vec d) : IsNode g (r.setPos p) ↔ IsNode g r := by
  simp [IsNode]

namespace Container
variable {d : ℕ}

/-- The result as stored: with its position normalized. -/
def stored (cs : CoordSys d) (r : SRes d) : SRes d := r.setPos (cs.normalizePosition r.pos)

/-- What a container with the given settings looks like. -/
structure Inv (c : Container d) (cs : CoordSys d) (g dc : ℝ) : Prop where
  coord : c.coord = cs
  gap : c.gapThreshold = g
  dist : c.distCutoff = dc
  nper : c.nodes.periodic = cs.periodic
  nnum : c.nodes.numCells = numCellsFor cs dc
  ninv : c.nodes.Inv fun r => cs.getFrac r.pos
  rper : c.refined.periodic = cs.periodic
  rnum : c.refined.numCells = numCellsFor cs dc
  rinv : c.refined.Inv fun p => cs.getFrac p

theorem addResult_def (c : Container d) (r : SRes d) :
    c.addResult r = if IsNode c.gapThreshold r then
        ({ c with nodes := c.nodes.addPoint (c.coord.getFrac (stored c.coord r).pos) (stored c.coord r) }, true)
      else ({ c with rejected := c.rejected ++ [stored c.coord r] }, false) := by
  unfold addResult
  simp only [SRes.success_setPos, SRes.value_setPos]
  by_cases h : IsNode c.gapThreshold r
  · have h' : ¬ (r.success = false ∨ FVal.gt r.value (FVal.ofReal c.gapThreshold)) := by
      unfold IsNode at h; simp [h.1, h.2]
    rw [if_neg h', if_pos h]; rfl
  · have h' : r.success = false ∨ FVal.gt r.value (FVal.ofReal c.gapThreshold) := by
      unfold IsNode at h
      by_cases h1 : r.success = true
      · right; by_contra h2; exact h ⟨h1, h2⟩
      · left; simpa using h1
    rw [if_pos h', if_neg h]; rfl

theorem Inv.empty (cs : CoordSys d) (g dc : ℝ) : Inv (empty cs g dc) cs g dc :=
  ⟨rfl, rfl, rfl, rfl, rfl, CellList.Inv.mk' _ _ _, rfl, rfl, CellList.Inv.mk' _ _ _⟩

theorem Inv.addResult {c : Container d} {cs : CoordSys d} {g dc : ℝ} (h : Inv c cs g dc) (r : SRes d) :
    Inv (c.addResult r).1 cs g dc := by
  rw [addResult_def]
  split
  · refine ⟨h.coord, h.gap, h.dist, h.nper, h.nnum, ?_, h.rper, h.rnum, h.rinv⟩
    rw [h.coord]
    exact h.ninv.addPoint (stored cs r)
  · exact ⟨h.coord, h.gap, h.dist, h.nper, h.nnum, h.ninv, h.rper, h.rnum, h.rinv⟩

theorem Inv.setRefined {c : Container d} {cs : CoordSys d} {g dc : ℝ} (h : Inv c cs g dc) (p : Vec d) :
    Inv (c.setRefined p) cs g dc := by
  refine ⟨h.coord, h.gap, h.dist, h.nper, h.nnum, h.ninv, h.rper, h.rnum, ?_⟩
  have := h.rinv.addPoint p
  simp only [Container.setRefined]
  rw [h.coord]
  exact this

theorem Inv.foldl {c : Container d} {cs : CoordSys d} {g dc : ℝ} (h : Inv c cs g dc)
    (ops : List (ContainerOp d)) : Inv (ops.foldl applyOp c) cs g dc := by
  induction ops generalizing c with
  | nil => exact h
  | cons op ops ih =>
    cases op with
    | addResult r => exact ih (h.addResult r)
    | setRefined p => exact ih (h.setRefined p)

theorem Inv.create {cs : CoordSys d} {g dc : ℝ} (rs : List (SRes d)) (ps : List (Vec d)) :
    Inv (create cs rs g dc ps) cs g dc := by
  have h1 : ∀ c : Container d, Inv c cs g dc → Inv (rs.foldl (fun c r => (c.addResult r).1) c) cs g dc := by
    induction rs with
    | nil => intro c h; exact h
    | cons r rs ih => intro c h; exact ih _ (h.addResult r)
  have h2 : ∀ c : Container d, Inv c cs g dc → Inv (ps.foldl (fun c p => c.setRefined p) c) cs g dc := by
    induction ps with
    | nil => intro c h; exact h
    | cons r rs ih => intro c h; exact ih _ (h.setRefined r)
  have := h2 _ (h1 _ (Inv.empty cs g dc))
  exact ⟨this.coord, this.gap, this.dist, this.nper, this.nnum, this.ninv, this.rper, this.rnum, this.rinv⟩

theorem Inv.history (cs : CoordSys d) (g dc : ℝ) (ops : List (ContainerOp d)) :
    Inv (history cs g dc ops) cs g dc := (Inv.create [] []).foldl ops

/-! ## contents -/

theorem foldl_contents {c : Container d} {cs : CoordSys d} {g dc : ℝ} (h : Inv c cs g dc)
    (ops : List (ContainerOp d)) :
    (ops.foldl applyOp c).nodes.flat
        = c.nodes.flat ++ ((resultsOf ops).filter fun r => decide (IsNode g r)).map (stored cs) ∧
      (ops.foldl applyOp c).rejected
        = c.rejected ++ ((resultsOf ops).filter fun r => decide (¬ IsNode g r)).map (stored cs) ∧
      (ops.foldl applyOp c).refined.flat = c.refined.flat ++ refinedOf ops := by
  induction ops generalizing c with
  | nil => simp [resultsOf, refinedOf]
  | cons op ops ih =>
    cases op with
    | addResult r =>
      obtain ⟨i1, i2, i3⟩ := ih (h.addResult r)
      simp only [List.foldl_cons, applyOp] at *
      rw [i1, i2, i3]
      simp only [resultsOf, refinedOf]
      rw [addResult_def, h.gap, h.coord]
      by_cases e : IsNode g r
      · simp [e, CellList.addPoint]
      · simp [e]
    | setRefined p =>
      obtain ⟨i1, i2, i3⟩ := ih (h.setRefined p)
      simp only [List.foldl_cons, applyOp] at *
      rw [i1, i2, i3]
      simp [resultsOf, refinedOf, Container.setRefined, CellList.addPoint]

theorem create_eq_history (cs : CoordSys d) (rs : List (SRes d)) (g dc : ℝ) (ps : List (Vec d)) :
    create cs rs g dc ps
      = { history cs g dc (rs.map ContainerOp.addResult ++ ps.map ContainerOp.setRefined) with
          needsSaving := true } := by
  simp [create, history, List.foldl_append, List.foldl_map, applyOp, empty]

theorem history_contents (cs : CoordSys d) (g dc : ℝ) (ops : List (ContainerOp d)) :
    (history cs g dc ops).nodes.flat
        = ((resultsOf ops).filter fun r => decide (IsNode g r)).map (stored cs) ∧
      (history cs g dc ops).rejected
        = ((resultsOf ops).filter fun r => decide (¬ IsNode g r)).map (stored cs) ∧
      (history cs g dc ops).refined.flat = refinedOf ops := by
  have := foldl_contents (Inv.create (cs := cs) (g := g) (dc := dc) [] []) ops
  simpa [Spec.history, Container.create, Container.empty, CellList.mk'] using this

theorem resultsOf_append (a b : List (ContainerOp d)) : resultsOf (a ++ b) = resultsOf a ++ resultsOf b := by
  induction a with
  | nil => rfl
  | cons op a ih => cases op <;> simp [resultsOf, ih]

theorem refinedOf_append (a b : List (ContainerOp d)) : refinedOf (a ++ b) = refinedOf a ++ refinedOf b := by
  induction a with
  | nil => rfl
  | cons op a ih => cases op <;> simp [refinedOf, ih]

@[simp] theorem resultsOf_map_addResult (rs : List (SRes d)) : resultsOf (rs.map ContainerOp.addResult) = rs := by
  induction rs with
  | nil => rfl
  | cons r rs ih => simp [resultsOf, ih]

@[simp] theorem resultsOf_map_setRefined (ps : List (Vec d)) :
    resultsOf (ps.map ContainerOp.setRefined) = [] := by
  induction ps with
  | nil => rfl
  | cons r rs ih => simp [resultsOf, ih]

@[simp] theorem refinedOf_map_addResult (rs : List (SRes d)) :
    refinedOf (rs.map ContainerOp.addResult) = [] := by
  induction rs with
  | nil => rfl
  | cons r rs ih => simp [refinedOf, ih]

@[simp] theorem refinedOf_map_setRefined (ps : List (Vec d)) :
    refinedOf (ps.map ContainerOp.setRefined) = ps := by
  induction ps with
  | nil => rfl
  | cons r rs ih => simp [refinedOf, ih]

theorem create_contents (cs : CoordSys d) (rs : List (SRes d)) (g dc : ℝ) (ps : List (Vec d)) :
    (create cs rs g dc ps).nodes.flat = (rs.filter fun r => decide (IsNode g r)).map (stored cs) ∧
      (create cs rs g dc ps).rejected = (rs.filter fun r => decide (¬ IsNode g r)).map (stored cs) ∧
      (create cs rs g dc ps).refined.flat = ps := by
  rw [create_eq_history]
  have := history_contents cs g dc (rs.map ContainerOp.addResult ++ ps.map ContainerOp.setRefined)
  simpa [resultsOf_append, refinedOf_append] using this

/-! ## lookups under the invariant -/

theorem mem_neighbourIterator {c : Container d} {cs : CoordSys d} {g dc : ℝ} (h : Inv c cs g dc) (pos : Vec d)
    (r : SRes d) (hr : r ∈ c.neighbourIterator pos) : r ∈ c.nodes.flat ∧ r.pos ≠ pos := by
  simp only [neighbourIterator, List.mem_filter, decide_eq_true_eq, h.coord,
    CellList.mem_neighbourValues h.ninv] at hr
  exact ⟨hr.1.1, fun e => by obtain ⟨i, hi⟩ := hr.2; exact hi (by rw [e])⟩

theorem neighbourIterator_complete {c : Container d} {cs : CoordSys d} {g dc : ℝ} (h : Inv c cs g dc)
    (hb : ProperBox cs) (hdc : 0 < dc) (hsz : cs.periodic = true ∨ ∀ i, dc ≤ cs.size i) (pos : Vec d)
    (r : SRes d) (hr : r ∈ c.nodes.flat) (hne : r.pos ≠ pos) (hd : cs.distance pos r.pos < dc) :
    r ∈ c.neighbourIterator pos := by
  simp only [neighbourIterator, List.mem_filter, decide_eq_true_eq, h.coord,
    CellList.mem_neighbourValues h.ninv]
  exact ⟨⟨hr, CellList.near_mem_neighbours hb hdc hsz h.nper h.nnum _ _ hd⟩, Function.ne_iff.1 hne⟩

theorem refined_complete {c : Container d} {cs : CoordSys d} {g dc : ℝ} (h : Inv c cs g dc)
    (hb : ProperBox cs) (hdc : 0 < dc) (hsz : cs.periodic = true ∨ ∀ i, dc ≤ cs.size i) (pos : Vec d)
    (q : Vec d) (hr : q ∈ c.refined.flat) (hd : cs.distance pos q < dc) :
    q ∈ c.refined.neighbourValues (cs.getFrac pos) := by
  rw [CellList.mem_neighbourValues h.rinv]
  exact ⟨hr, CellList.near_mem_neighbours hb hdc hsz h.rper h.rnum _ _ hd⟩

theorem mem_refined_neighbours {c : Container d} {cs : CoordSys d} {g dc : ℝ} (h : Inv c cs g dc)
    (pos q : Vec d) (hr : q ∈ c.refined.neighbourValues (cs.getFrac pos)) : q ∈ c.refined.flat :=
  ((CellList.mem_neighbourValues h.rinv _ _).1 hr).1

theorem normalize_idem {cs : CoordSys d} (hb : ProperBox cs) (p : Vec d) :
    cs.normalizePosition (cs.normalizePosition p) = cs.normalizePosition p := by
  funext i
  simp only [CoordSys.normalizePosition]
  cases h : cs.periodic with
  | false => simp
  | true =>
    simp only [if_true, add_sub_cancel_right]
    rw [pmod_eq_self (pmod_nonneg (size_pos hb i) _) (pmod_lt (size_pos hb i) _)]

theorem stored_stored {cs : CoordSys d} (hb : ProperBox cs) (r : SRes d) :
    stored cs (stored cs r) = stored cs r := by
  simp [stored, normalize_idem hb]

theorem isNode_stored (cs : CoordSys d) (g : ℝ) (r : SRes d) : IsNode g (stored cs r) ↔ IsNode g r :=
  isNode_setPos g r _

end Container
end NF
