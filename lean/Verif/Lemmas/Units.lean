import Verif.Lemmas.Frame

/-! # Lemmas: a search in other units -/

noncomputable section
open Classical

namespace NF
open Spec
variable {d : ℕ}

theorem units_pos_eq (u : Units d) (x : Vec d) : u.frame.pos x = u.pos x := by
  funext k
  simp [Frame.pos, Units.frame, Units.pos]

theorem units_pos_inj (u : Units d) : Function.Injective u.pos := by
  intro x y h
  exact frame_pos_inj u.frame (by rw [units_pos_eq, units_pos_eq, h])

theorem units_simplex_inj (u : Units d) : Function.Injective u.simplex := List.map_injective_iff.2 (units_pos_inj u)

/-! ## Coordinates -/

theorem pmod_scale {a : ℝ} (ha : 0 < a) (x s : ℝ) : pmod (a * x) (a * s) = a * pmod x s := by
  unfold pmod
  rw [mul_div_mul_left _ _ ha.ne']
  ring

theorem units_size (u : Units d) (cs : CoordSys d) (i : Fin d) : (u.coord cs).size i = u.scale * cs.size i := by
  simp only [CoordSys.size, Units.coord, Units.pos]
  ring

theorem units_frac (u : Units d) (cs : CoordSys d) (x : Vec d) : (u.coord cs).getFrac (u.pos x) = cs.getFrac x := by
  funext i
  have h : (u.pos x i - (u.coord cs).lower i) / (u.coord cs).size i = (x i - cs.lower i) / cs.size i := by
    rw [units_size]
    have : u.pos x i - (u.coord cs).lower i = u.scale * (x i - cs.lower i) := by simp only [Units.coord, Units.pos]; ring
    rw [this, mul_div_mul_left _ _ u.scale_pos.ne']
  simp only [CoordSys.getFrac, h]
  rfl

theorem units_delta (u : Units d) (cs : CoordSys d) (x y : Vec d) (i : Fin d) : (u.coord cs).distDelta (u.pos x) (u.pos y) i = u.scale * cs.distDelta x y i := by
  have h : u.pos y i - u.pos x i = u.scale * (y i - x i) := by simp only [Units.pos]; ring
  have hp : (u.coord cs).periodic = cs.periodic := rfl
  simp only [CoordSys.distDelta, h, hp, units_size, pmod_scale u.scale_pos]
  split
  · rw [← mul_sub, ← mul_min_of_nonneg _ _ u.scale_pos.le]
  · rfl

theorem units_distance (u : Units d) (cs : CoordSys d) (x y : Vec d) : (u.coord cs).distance (u.pos x) (u.pos y) = u.scale * cs.distance x y := by
  unfold CoordSys.distance CoordSys.norm
  simp only [units_delta, mul_pow, ← Finset.mul_sum]
  rw [Real.sqrt_mul (sq_nonneg _), Real.sqrt_sq u.scale_pos.le]

theorem units_normalize (u : Units d) (cs : CoordSys d) (x : Vec d) : (u.coord cs).normalizePosition (u.pos x) = u.pos (cs.normalizePosition x) := by
  funext i
  have h : u.pos x i - (u.coord cs).lower i = u.scale * (x i - cs.lower i) := by simp only [Units.coord, Units.pos]; ring
  have hp : (u.coord cs).periodic = cs.periodic := rfl
  have hl : (u.coord cs).lower i = u.scale * cs.lower i + u.origin i := rfl
  have hq : ∀ y : Vec d, u.pos y i = u.scale * y i + u.origin i := fun _ => rfl
  unfold CoordSys.normalizePosition
  rw [h, hp, units_size, pmod_scale u.scale_pos, hl]
  rw [hq, hq]
  split
  · ring
  · rfl

/-! ## Results -/

theorem units_sres_pos (u : Units d) (r : SRes d) : (u.frame.sres r).pos = u.pos r.pos := by
  cases r with
  | plain r => exact units_pos_eq u r.pos
  | joined ch an pa =>
    cases pa with
    | none => exact units_pos_eq u ch.pos
    | some q => exact units_pos_eq u q

theorem units_sres_setPos (u : Units d) (r : SRes d) (q : Vec d) : (u.frame.sres r).setPos (u.pos q) = u.frame.sres (r.setPos q) := by
  cases r with
  | plain r => simp [Frame.sres, SRes.setPos, Frame.minRes, units_pos_eq]
  | joined ch an pa => simp [Frame.sres, SRes.setPos, units_pos_eq]

theorem units_sres_success (u : Frame d) (r : SRes d) : (u.sres r).success = r.success := by cases r <;> rfl
theorem units_sres_value (u : Frame d) (r : SRes d) : (u.sres r).value = u.val r.value := by cases r <;> rfl
theorem units_sres_reload (u : Frame d) (r : SRes d) : (u.sres r).reload = u.sres r.reload := by cases r <;> rfl

/-! ## Cells and containers -/

section cells
variable {α β : Type} (g : α → β)

theorem units_cell_add (c : CellList d α) (fr : Vec d) (v : α) : (Units.cellList g c).addPoint fr (g v) = Units.cellList g (c.addPoint fr v) := by
  have hi : (Units.cellList g c).getIndex fr = c.getIndex fr := rfl
  unfold CellList.addPoint
  simp only [hi]
  simp only [Units.cellList, List.map_append, List.map_cons, List.map_nil, CellList.mk.injEq, true_and, and_true]
  funext i
  by_cases h : i = c.getIndex fr
  · subst h; simp
  · simp [Function.update_of_ne h]

theorem units_cell_neighbours (c : CellList d α) (fr : Vec d) : (Units.cellList g c).neighbourValues fr = (c.neighbourValues fr).map g := by
  unfold CellList.neighbourValues
  rw [List.map_flatMap]
  rfl

theorem units_cell_values (c : CellList d α) : (Units.cellList g c).values = c.values.map g := rfl

theorem units_cell_mk (n : Fin d → ℕ) (b : Bool) : (CellList.mk' n b : CellList d β) = Units.cellList g (CellList.mk' n b : CellList d α) := rfl

end cells

theorem units_numCells (u : Units d) (cs : CoordSys d) (dc : ℝ) : numCellsFor (u.coord cs) (u.scale * dc) = numCellsFor cs dc := by
  funext i
  unfold numCellsFor
  rw [units_size, mul_div_mul_left _ _ u.scale_pos.ne']
  simp only [mul_eq_zero, u.scale_pos.ne', false_or]

theorem units_container_empty (u : Units d) (cs : CoordSys d) (g dc : ℝ) : Container.empty (u.coord cs) (u.energy * g) (u.scale * dc) = u.container (Container.empty cs g dc) := by
  unfold Container.empty Units.container
  simp only [units_numCells]
  rfl

theorem units_addResult (u : Units d) (c : Container d) (r : SRes d) :
    (u.container c).addResult (u.frame.sres r) = (u.container (c.addResult r).1, (c.addResult r).2) := by
  have h0 : (u.container c).coord.normalizePosition (u.frame.sres r).pos = u.pos (c.coord.normalizePosition r.pos) := by
    rw [units_sres_pos]
    exact units_normalize u c.coord r.pos
  unfold Container.addResult
  simp only [h0, units_sres_setPos, units_sres_success, units_sres_value]
  have hg : FVal.ofReal (u.container c).gapThreshold = u.frame.val (FVal.ofReal c.gapThreshold) := (frame_val_real u.frame _).symm
  simp only [hg, frame_gt]
  split_ifs with h
  · simp [Units.container]
  · have h1 : (u.container c).coord.getFrac (u.frame.sres (r.setPos (c.coord.normalizePosition r.pos))).pos = c.coord.getFrac (r.setPos (c.coord.normalizePosition r.pos)).pos := by
      rw [units_sres_pos]
      exact units_frac u c.coord _
    simp only [h1, Prod.mk.injEq, and_true]
    unfold Units.container
    simp only [units_cell_add]

theorem units_setRefined (u : Units d) (c : Container d) (x : Vec d) : (u.container c).setRefined (u.pos x) = u.container (c.setRefined x) := by
  have h : (u.container c).coord.getFrac (u.pos x) = c.coord.getFrac x := units_frac u c.coord x
  unfold Container.setRefined
  rw [h]
  unfold Units.container
  simp only [units_cell_add]

theorem units_create (u : Units d) (cs : CoordSys d) (rs : List (SRes d)) (g dc : ℝ) (ps : List (Vec d)) :
    Container.create (u.coord cs) (rs.map u.frame.sres) (u.energy * g) (u.scale * dc) (ps.map u.pos) = u.container (Container.create cs rs g dc ps) := by
  have h1 : ∀ (rs : List (SRes d)) (c : Container d), (rs.map u.frame.sres).foldl (fun c r => (c.addResult r).1) (u.container c) =
      u.container (rs.foldl (fun c r => (c.addResult r).1) c) := by
    intro rs
    induction rs with
    | nil => intro c; rfl
    | cons r rs ih => intro c; simp only [List.map_cons, List.foldl_cons, units_addResult]; exact ih _
  have h2 : ∀ (ps : List (Vec d)) (c : Container d), (ps.map u.pos).foldl (fun c p => c.setRefined p) (u.container c) =
      u.container (ps.foldl (fun c p => c.setRefined p) c) := by
    intro ps
    induction ps with
    | nil => intro c; rfl
    | cons r rs ih => intro c; simp only [List.map_cons, List.foldl_cons, units_setRefined]; exact ih _
  unfold Container.create
  simp only [units_container_empty, h1, h2]
  rfl

theorem units_results (u : Units d) (c : Container d) : (u.container c).minimizationResults = c.minimizationResults.map u.frame.sres := by
  simp [Container.minimizationResults, Units.container, units_cell_values]

theorem units_ne (u : Units d) (x y : Vec d) : (∃ i, u.pos x i ≠ u.pos y i) ↔ ∃ i, x i ≠ y i := by
  refine exists_congr fun i => not_congr ?_
  simp [Units.pos, u.scale_pos.ne']

theorem units_neighbourIterator (u : Units d) (c : Container d) (x : Vec d) : (u.container c).neighbourIterator (u.pos x) = (c.neighbourIterator x).map u.frame.sres := by
  have h : (u.container c).coord.getFrac (u.pos x) = c.coord.getFrac x := units_frac u c.coord x
  unfold Container.neighbourIterator
  rw [h]
  change List.filter _ ((Units.cellList u.frame.sres c.nodes).neighbourValues _) = _
  rw [units_cell_neighbours, List.filter_map]
  congr 2
  funext r
  simp only [Function.comp_apply, units_sres_pos, units_ne]

theorem units_neighbourDistances (u : Units d) (c : Container d) (x : Vec d) : (u.container c).neighbourDistances (u.pos x) = (c.neighbourDistances x).map fun t => u.scale * t := by
  unfold Container.neighbourDistances
  rw [units_neighbourIterator, List.map_map, List.map_map]
  congr 1
  funext r
  simp only [Function.comp_apply, units_sres_pos]
  exact units_distance u c.coord _ _

theorem units_refinedDistances (u : Units d) (c : Container d) (x : Vec d) :
    (u.container c).refinedNeighbourDistances (u.pos x) = (c.refinedNeighbourDistances x).map fun t => u.scale * t := by
  have h : (u.container c).coord.getFrac (u.pos x) = c.coord.getFrac x := units_frac u c.coord x
  unfold Container.refinedNeighbourDistances
  rw [h]
  change List.map _ ((Units.cellList u.pos c.refined).neighbourValues _) = _
  rw [units_cell_neighbours, List.map_map, List.map_map]
  congr 1
  funext r
  exact units_distance u c.coord _ _

theorem units_allDistances (u : Units d) (c : Container d) (x : Vec d) :
    (u.container c).allNeighbourDistances (u.pos x) = (c.allNeighbourDistances x).map fun t => u.scale * t := by
  unfold Container.allNeighbourDistances
  simp only [units_neighbourIterator, List.map_map, List.map_eq_nil_iff]
  split_ifs
  · rfl
  · rw [List.map_map]
    congr 1
    funext r
    simp only [Function.comp_apply, units_sres_pos]
    exact units_distance u c.coord _ _

/-- The fake potential in other units. -/
theorem units_fake (u : Units d) (c : Container d) (w : ℝ) (x : Vec d) : fakePotential (u.container c) (u.scale * w) (u.pos x) = u.frame.val (fakePotential c w x) := by
  unfold fakePotential
  rw [units_allDistances, List.any_map]
  have h : ((fun dist => decide (dist < u.scale * w)) ∘ fun t => u.scale * t) = fun dist => decide (dist < w) := by
    funext t
    simp only [Function.comp_apply, mul_lt_mul_iff_of_pos_left u.scale_pos]
  rw [h]
  split
  · rw [frame_val_inf]
  · rw [frame_val_real, mul_zero]

/-! ## Queues -/

section queues
variable {α β : Type} {g : α → β} (hg : Function.Injective g)

theorem units_queue_create (l : List α) : ObjQueue.create (l.map g) = Units.queue g (ObjQueue.create l) := by
  unfold ObjQueue.create Units.queue
  simp only [ObjQueue.mk.injEq, true_and, and_true]
  ext y
  simp

include hg in
theorem units_queue_add (q : ObjQueue α) (l : List α) : (Units.queue g q).addObjects (l.map g) = Units.queue g (q.addObjects l) := by
  have h : (l.map g).filter (fun o => decide (o ∉ (Units.queue g q).all)) = (l.filter fun o => decide (o ∉ q.all)).map g := by
    rw [List.filter_map]
    congr 2
    funext x
    simp only [Function.comp_apply, Units.queue, hg.mem_set_image]
  unfold ObjQueue.addObjects
  simp only [h, List.map_eq_nil_iff]
  split_ifs
  · rfl
  · simp only [Units.queue, List.map_append, ObjQueue.mk.injEq, true_and, and_true, Set.image_union]
    congr 1
    ext y
    simp

theorem units_queue_pop (q : ObjQueue α) : (Units.queue g q).popQueued = q.popQueued.map fun t => (g t.1, Units.queue g t.2) := by
  unfold ObjQueue.popQueued
  rcases h : q.queued with - | ⟨x, rest⟩ <;> simp [Units.queue, h]

theorem units_queue_has (q : ObjQueue α) : (Units.queue g q).hasQueued = q.hasQueued := by
  simp [ObjQueue.hasQueued, Units.queue]

theorem units_run_create (l : List α) : RunQueue.create (l.map g) = Units.runQueue g (RunQueue.create l) := by
  unfold RunQueue.create Units.runQueue
  simp only [units_queue_create, Finset.image_empty]

include hg in
theorem units_run_add (q : RunQueue α) (l : List α) : (Units.runQueue g q).addObjects (l.map g) = Units.runQueue g (q.addObjects l) := by
  unfold RunQueue.addObjects Units.runQueue
  simp only [units_queue_add hg]

theorem units_run_pop (q : RunQueue α) : (Units.runQueue g q).popQueued = q.popQueued.map fun t => (g t.1, Units.runQueue g t.2) := by
  unfold RunQueue.popQueued
  have h : (Units.runQueue g q).base.popQueued = q.base.popQueued.map fun t => (g t.1, Units.queue g t.2) := units_queue_pop _
  rw [h]
  rcases q.base.popQueued with - | ⟨x, b⟩
  · rfl
  · simp [Units.runQueue, Finset.image_insert]

include hg in
theorem units_run_finish (q : RunQueue α) (x : α) : (Units.runQueue g q).setFinished (g x) = (q.setFinished x).map (Units.runQueue g) := by
  unfold RunQueue.setFinished
  have h : g x ∈ (Units.runQueue g q).running ↔ x ∈ q.running := by
    change g x ∈ q.running.image g ↔ _
    rw [Finset.mem_image]
    exact ⟨fun ⟨y, hy, e⟩ => hg e ▸ hy, fun h => ⟨x, h, rfl⟩⟩
  simp only [h]
  split_ifs
  · simp only [Except.map, Units.runQueue, Except.ok.injEq, RunQueue.mk.injEq]
    refine ⟨rfl, ?_⟩
    rw [Finset.image_erase hg]
  · rfl

include hg in
theorem units_run_num (q : RunQueue α) : (Units.runQueue g q).numRunning = q.numRunning := Finset.card_image_of_injective _ hg

theorem units_run_mem (q : RunQueue α) (y : β) : y ∈ (Units.runQueue g q).running ↔ ∃ x ∈ q.running, g x = y := by
  unfold Units.runQueue
  exact Finset.mem_image

theorem units_run_finished (q : RunQueue α) : (Units.runQueue g q).finished ↔ q.finished := by
  simp [RunQueue.finished, Units.runQueue, Units.queue]

end queues

theorem units_lexLe (u : Units d) (x y : Vec d) : lexLe (u.pos x) (u.pos y) ↔ lexLe x y := by
  unfold lexLe
  rw [(units_pos_inj u).eq_iff]
  have h1 : ∀ j, u.pos x j = u.pos y j ↔ x j = y j := fun j => by simp [Units.pos, u.scale_pos.ne']
  have h2 : ∀ j, u.pos x j < u.pos y j ↔ x j < y j := fun j => by simp [Units.pos, u.scale_pos]
  simp only [h1, h2]

theorem units_normalizeSimplex (u : Units d) (s : Simplex d) : normalizeSimplex (u.simplex s) = u.simplex (normalizeSimplex s) := by
  unfold normalizeSimplex Units.simplex
  rw [List.map_mergeSort]
  intro a _ b _
  simp only [units_lexLe]

theorem units_normalizeSimplices (u : Units d) (l : List (Simplex d)) : normalizeSimplices (l.map u.simplex) = (normalizeSimplices l).map u.simplex := by
  unfold normalizeSimplices
  rw [List.map_map, List.map_map]
  congr 1
  funext s
  exact units_normalizeSimplex u s

theorem units_translate (u : Units d) (x : Vec d) (st : List (Simplex d)) :
    translateStencil (u.pos x) (st.map fun s => s.map fun v k => u.scale * v k) = (translateStencil x st).map u.simplex := by
  unfold translateStencil Units.simplex
  simp only [List.map_map]
  congr 1
  funext s
  simp only [Function.comp_apply, List.map_map]
  congr 1
  funext v
  funext k
  simp only [Function.comp_apply, Units.pos]
  ring

/-! ## The controller -/

theorem units_distCutoff (u : Units d) (p : CtlParams d) : (u.params p).distCutoff = u.scale * p.distCutoff := by
  simp only [CtlParams.distCutoff, Units.params]
  ring

theorem units_createState (u : Units d) (p : CtlParams d) (i : Option (Saved d)) : createStateFrom (u.params p) (i.map u.saved) = u.state (createStateFrom p i) := by
  have hf : (u.params p).forceInitialMesh = p.forceInitialMesh := rfl
  have hm : normalizeSimplices (u.params p).mesh = (normalizeSimplices p.mesh).map u.simplex := units_normalizeSimplices u p.mesh
  cases i with
  | none =>
    unfold createStateFrom Units.state
    simp only [Option.map_none, units_distCutoff, hm, units_run_create]
    congr 1
    · exact units_create u p.coord [] p.gapThreshold p.distCutoff []
    · exact units_queue_create []
  | some sv =>
    unfold createStateFrom Units.state
    simp only [Option.map_some, units_distCutoff, hm, hf, Units.saved, units_normalizeSimplices, units_run_create, units_queue_create]
    congr 1
    · exact units_create u p.coord sv.results p.gapThreshold p.distCutoff sv.refined
    · split_ifs
      · exact units_run_add (units_simplex_inj u) _ _
      · rfl

theorem units_startFrom (u : Units d) (p : CtlParams d) (dk i : Option (Saved d)) : startFrom (u.params p) (dk.map u.saved) (i.map u.saved) = u.ctl (startFrom p dk i) := by
  unfold startFrom Units.ctl
  simp only [units_createState, Ctl.mk.injEq, List.map_nil, true_and]
  exact units_results u _

theorem units_startFresh (u : Units d) (p : CtlParams d) : startFresh (u.params p) = u.ctl (startFresh p) := units_startFrom u p none none

theorem units_restart (u : Units d) (p : CtlParams d) (c : Ctl d) : restart (u.params p) (u.ctl c) = u.ctl (restart p c) := units_startFrom u p c.disk c.disk

theorem units_posLoop {a : ℝ} (ha : 0 < a) (dc : ℝ) (k : ℤ) : ∀ (n : ℤ) (l : List ℝ), checkPosLoop (a * dc) k n (l.map fun t => a * t) = checkPosLoop dc k n l
  | _, [] => rfl
  | n, t :: l => by
    simp only [List.map_cons, checkPosLoop, mul_lt_mul_iff_of_pos_left ha, units_posLoop ha dc k _ l]

theorem units_checkPos (u : Units d) (p : CtlParams d) (c : Container d) (x : Vec d) (k : ℤ) :
    checkPosRefinement (u.params p) (u.container c) (u.pos x) k = checkPosRefinement p c x k := by
  unfold checkPosRefinement
  rw [units_distCutoff, units_refinedDistances, units_posLoop u.scale_pos]

theorem units_simplexLoop (u : Units d) (p : CtlParams d) (c : Container d) : ∀ (n : ℤ) (l : List (Vec d)),
    checkSimplexLoop (u.params p) (u.container c) n (l.map u.pos) = checkSimplexLoop p c n l
  | _, [] => rfl
  | n, x :: l => by
    have h : ((u.container c).neighbourDistances (u.pos x)).any (fun dist => decide (dist < (u.params p).distCutoff)) =
        (c.neighbourDistances x).any fun dist => decide (dist < p.distCutoff) := by
      rw [units_neighbourDistances, List.any_map, units_distCutoff]
      congr 1
      funext t
      simp only [Function.comp_apply, mul_lt_mul_iff_of_pos_left u.scale_pos]
    have hc : (u.params p).simplexCheckCutoff = p.simplexCheckCutoff := rfl
    simp only [List.map_cons, checkSimplexLoop, h, hc, units_simplexLoop u p c _ l]

theorem units_checkSimplex (u : Units d) (p : CtlParams d) (c : Container d) (s : Simplex d) :
    checkSimplex (u.params p) (u.container c) (u.simplex s) = checkSimplex p c s := units_simplexLoop u p c 0 s

/-- an outcome in other units -/
def fillStepMap (u : Units d) : FillStep d → FillStep d
  | .stop => .stop
  | .next c => .next (u.ctl c)
  | .raise e c => .raise e (u.ctl c)

theorem units_fillStep (u : Units d) (p : CtlParams d) (c : Ctl d) : fillStep (u.params p) (u.ctl c) = fillStepMap u (fillStep p c) := by
  have h1 : (u.ctl c).state.simplexQueue = Units.runQueue u.simplex c.state.simplexQueue := rfl
  have h2 : (u.ctl c).state.positionQueue = Units.queue u.pos c.state.positionQueue := rfl
  have h3 : (u.ctl c).state.result = u.container c.state.result := rfl
  have h4 : (u.params p).numMinimizeParallel = p.numMinimizeParallel := rfl
  have h5 : (u.params p).recheckPosDist = p.recheckPosDist := rfl
  have h6 : (u.params p).recheckCountCutoff = p.recheckCountCutoff := rfl
  have h7 : (u.params p).stencil = p.stencil.map fun st => st.map fun s => s.map fun v k => u.scale * v k := rfl
  unfold fillStep
  rw [h1, units_run_num (units_simplex_inj u), h4]
  split
  · rfl
  · rw [units_run_pop]
    rcases c.state.simplexQueue.popQueued with - | ⟨s, sq⟩
    · simp only [Option.map_none]
      rw [h2, units_queue_pop]
      rcases c.state.positionQueue.popQueued with - | ⟨x, pq⟩
      · rfl
      · simp only [Option.map_some, h3, h5, h6, h7, units_checkPos]
        split
        · rcases p.stencil with - | st
          · simp only [Option.map_none, fillStepMap, FillStep.raise.injEq, true_and]
            simp [Units.ctl, Units.state]
          · simp only [Option.map_some, fillStepMap, FillStep.next.injEq]
            simp [Units.ctl, Units.state, units_setRefined, units_translate, units_normalizeSimplices, units_run_add (units_simplex_inj u), Units.logEntry]
        · simp only [fillStepMap, FillStep.next.injEq]
          simp [Units.ctl, Units.state, Units.logEntry]
    · simp only [Option.map_some, h3, units_checkSimplex, units_run_finish (units_simplex_inj u)]
      split
      · simp only [fillStepMap, FillStep.next.injEq]
        simp [Units.ctl, Units.state, Units.logEntry]
      · rcases sq.setFinished s with e | sq'
        · simp only [Except.map, fillStepMap, FillStep.raise.injEq, true_and]
          simp [Units.ctl, Units.state]
        · simp only [Except.map, fillStepMap, FillStep.next.injEq]
          simp [Units.ctl, Units.state, Units.logEntry]

theorem units_fill (u : Units d) (p : CtlParams d) (c : Ctl d) : fill (u.params p) (u.ctl c) = ((fill p c).1, u.ctl (fill p c).2) := by
  induction hn : fillMeasure c using WellFoundedLT.induction generalizing c with
  | _ n ih =>
    have hs := units_fillStep u p c
    rw [fill, fill.eq_1 p c]
    rcases h : fillStep p c with - | c' | ⟨e, c'⟩ <;> rw [h] at hs <;> simp only [fillStepMap] at hs
    · split <;> simp_all
    · split
      · simp_all
      · simp_all
      · rename_i c2 h2
        rw [hs] at h2
        cases h2
        exact ih _ (by rw [← hn]; exact fillStep_decreases h) _ rfl
    · split <;> simp_all

theorem units_doSave (u : Units d) (p : CtlParams d) (c : Ctl d) (enum : List (Simplex d)) : doSave (u.params p) (u.ctl c) (enum.map u.simplex) = u.ctl (doSave p c enum) := by
  have h1 : (u.params p).saveFile = p.saveFile := rfl
  have h2 : (u.ctl c).state.needsSaving = c.state.needsSaving := rfl
  unfold doSave
  rw [h1, h2]
  split_ifs
  · simp only [Units.ctl, Ctl.mk.injEq, Option.map_some, Option.some.injEq, and_true, true_and]
    constructor
    · rfl
    · unfold CtlState.snapshot Units.saved
      simp only [Saved.mk.injEq]
      refine ⟨?_, rfl, ?_, rfl⟩
      · change List.map _ (u.container c.state.result).minimizationResults = _
        rw [units_results, List.map_map, List.map_map]
        congr 1
        funext r
        exact units_sres_reload _ r
      · simp [RunQueue.objects, Units.state, Units.runQueue, Units.queue]
  · rfl

theorem units_processResult (u : Units d) (p : CtlParams d) (s : CtlState d) (r : SRes d) :
    processResult (u.params p) (u.state s) (u.frame.sres r) = u.state (processResult p s r) := by
  have h1 : (u.params p).coord.normalizePosition (u.frame.sres r).pos = u.pos (p.coord.normalizePosition r.pos) := by
    rw [units_sres_pos]
    exact units_normalize u p.coord _
  have h2 : (u.state s).result.addResult (u.frame.sres r) = (u.container (s.result.addResult r).1, (s.result.addResult r).2) := units_addResult u s.result r
  have h3 : (u.params p).stencil.isSome = p.stencil.isSome := by simp [Units.params]
  unfold processResult
  simp only [h1, h2, h3, units_checkPos]
  split_ifs
  · simp only [Units.state, CtlState.mk.injEq, true_and]
    exact units_queue_add (units_pos_inj u) s.positionQueue [_]
  · rfl
  · rfl

theorem units_erase (u : Units d) (l : List (Simplex d)) (s : Simplex d) : (l.map u.simplex).erase (u.simplex s) = (l.erase s).map u.simplex :=
  (List.map_erase (units_simplex_inj u) l).symm

theorem units_taskDone (u : Units d) (p : CtlParams d) (c : Ctl d) (s : Simplex d) (r : SRes d) :
    taskDone (u.params p) (u.ctl c) (u.simplex s) (u.frame.sres r) = u.ctl (taskDone p c s r) := by
  have h1 : processResult (u.params p) (u.ctl c).state (u.frame.sres r) = u.state (processResult p c.state r) := units_processResult u p c.state r
  unfold taskDone
  simp only [h1]
  have h2 : (u.state (processResult p c.state r)).simplexQueue.setFinished (u.simplex s) = ((processResult p c.state r).simplexQueue.setFinished s).map (Units.runQueue u.simplex) :=
    units_run_finish (units_simplex_inj u) _ _
  rw [h2]
  rcases (processResult p c.state r).simplexQueue.setFinished s with e | sq
  · simp only [Except.map, Units.ctl, Ctl.mk.injEq, List.map_append, units_erase, true_and, and_true]
    exact ⟨rfl, rfl⟩
  · simp only [Except.map, Units.ctl, Ctl.mk.injEq, List.map_append, units_erase, true_and, and_true]
    exact ⟨rfl, rfl⟩

theorem units_taskFail (u : Units d) (c : Ctl d) (s : Simplex d) (e : Err) : taskFail (u.ctl c) (u.simplex s) e = u.ctl (taskFail c s e) := by
  simp only [taskFail, Units.ctl, Ctl.mk.injEq, List.map_append, units_erase, true_and, and_true]
  exact ⟨rfl, rfl⟩

theorem units_loop (u : Units d) (c : Ctl d) : loopCondition (u.ctl c) ↔ loopCondition c := by
  unfold loopCondition
  have h1 : (u.ctl c).state.simplexQueue.finished ↔ c.state.simplexQueue.finished := units_run_finished _
  have h2 : (u.ctl c).state.positionQueue.hasQueued = c.state.positionQueue.hasQueued := units_queue_has _
  rw [h1, h2]

theorem units_enum (u : Units d) (c : Ctl d) {enum : List (Simplex d)} (h : enum.Nodup ∧ ∀ x, x ∈ enum ↔ x ∈ c.state.simplexQueue.running) :
    (enum.map u.simplex).Nodup ∧ ∀ x, x ∈ enum.map u.simplex ↔ x ∈ (u.ctl c).state.simplexQueue.running := by
  refine ⟨h.1.map (units_simplex_inj u), fun x => ?_⟩
  change _ ↔ x ∈ (Units.runQueue u.simplex c.state.simplexQueue).running
  rw [List.mem_map, units_run_mem]
  simp only [h.2]

theorem units_sres_none (u : Frame d) {r : SRes d} (h : ∀ ch an pa, r = .joined ch an pa → pa = none) : ∀ ch an pa, u.sres r = .joined ch an pa → pa = none := by
  intro ch an pa e
  cases r with
  | plain r => cases e
  | joined ch' an' pa' =>
    cases e
    rw [h ch' an' pa' rfl]
    rfl

/-! ## The arguments -/

theorem productList_map {d : ℕ} (g : Fin d → ℝ → ℝ) (ls : Fin d → List ℝ) : productList (fun i => (ls i).map (g i)) = (productList ls).map fun v i => g i (v i) := by
  induction d with
  | zero =>
    simp only [productList, List.map_cons, List.map_nil, List.cons.injEq, and_true]
    funext i
    exact i.elim0
  | succ d ih =>
    simp only [productList, List.flatMap_map, List.map_flatMap, List.map_map]
    congr 1
    funext x
    rw [ih (fun i => g i.succ) (fun i => ls i.succ), List.map_map]
    congr 1
    funext v
    funext i
    refine Fin.cases ?_ (fun j => ?_) i <;> simp

theorem linspace_map (a t l r : ℝ) (m : ℕ) (b : Bool) : linspace (a * l + t) (a * r + t) m b = (linspace l r m b).map fun x => a * x + t := by
  unfold linspace
  rw [List.map_map]
  congr 1
  funext k
  simp only [Function.comp_apply]
  ring

theorem units_mesh (u : Units d) (cs : CoordSys d) (m : Fin d → ℕ) : initialSimplices (u.coord cs) m = (initialSimplices cs m).map u.simplex := by
  unfold initialSimplices generateMeshSimplices
  have h1 : meshVertices (u.coord cs).lower (u.coord cs).upper m (u.coord cs).periodic false = (meshVertices cs.lower cs.upper m cs.periodic false).map u.pos := by
    unfold meshVertices
    simp only [Bool.false_eq_true, if_false]
    have : (fun i => linspace ((u.coord cs).lower i) ((u.coord cs).upper i) (m i) (!(u.coord cs).periodic)) =
        fun i => (linspace (cs.lower i) (cs.upper i) (m i) (!cs.periodic)).map fun x => u.scale * x + u.origin i := by
      funext i
      exact linspace_map _ _ _ _ _ _
    rw [this, productList_map fun i x => u.scale * x + u.origin i]
    rfl
  rw [h1, List.map_map, List.map_map]
  congr 1
  funext v
  simp only [Function.comp_apply, meshSimplex, Units.simplex, List.map_ofFn]
  congr 1
  funext j
  funext k
  have h2 : simplexStencil (u.coord cs).lower (u.coord cs).upper m j k = u.scale * simplexStencil cs.lower cs.upper m j k := by
    unfold simplexStencil
    refine Fin.cases ?_ (fun i => ?_) j
    · simp
    · simp only [Fin.cons_succ, Pi.single_apply]
      split
      · simp only [Units.coord, Units.pos]
        ring
      · simp
  rw [h2]
  simp only [Function.comp_apply, Units.pos]
  ring

theorem units_ofLimits (u : Units d) (l : Fin d → ℝ × ℝ) (b : Bool) :
    CoordSys.ofLimits (fun i => (u.scale * (l i).1 + u.origin i, u.scale * (l i).2 + u.origin i)) b = u.coord (CoordSys.ofLimits l b) := by
  have h : ∀ i, u.scale * (l i).1 + u.origin i ≤ u.scale * (l i).2 + u.origin i ↔ (l i).1 ≤ (l i).2 := fun i => by
    rw [add_le_add_iff_right, mul_le_mul_iff_of_pos_left u.scale_pos]
  simp only [CoordSys.ofLimits, Units.coord, CoordSys.mk.injEq, and_true, h]
  constructor <;> funext i <;> simp only [Units.pos] <;> split <;> rfl

theorem units_nmParams (u : Units d) (kw : NMKwargs) (g dc : ℝ) :
    nmParamsOf { kw with
      xtol := kw.xtol.map fun x => u.scale * x
      ftol := kw.ftol.map u.frame.val
      fprimeCutoff := kw.fprimeCutoff.map fun o => o.map fun c => u.energy / u.scale * c } (u.energy * g) (u.scale * dc) = u.frame.nm (nmParamsOf kw g dc) := by
  unfold nmParamsOf Frame.nm
  simp only [NMParams.mk.injEq, true_and, and_true]
  refine ⟨?_, ?_, ?_⟩
  · cases kw.xtol
    · simp only [Option.map_none, Option.getD_none]
      change _ = u.scale * _
      ring
    · rfl
  · cases kw.ftol
    · simp only [Option.map_none, Option.getD_none]
      rw [frame_val_real]
      congr 1
      change _ = u.energy * _
      ring
    · rfl
  · cases kw.fprimeCutoff <;> rfl

theorem units_stencil (u : Units d) (dc : ℝ) (s : StencilArg d) :
    stencilOf (u.scale * dc) s = (stencilOf dc s).map fun st => st.map fun s => s.map fun v k => u.scale * v k := by
  have h : ∀ st : List (Simplex d), scaleStencil st (u.scale * dc) = (scaleStencil st dc).map fun s => s.map fun v k => u.scale * v k := by
    intro st
    unfold scaleStencil
    simp only [List.map_map]
    congr 1
    funext s
    simp only [Function.comp_apply, List.map_map]
    congr 1
    funext v
    funext k
    simp only [Function.comp_apply]
    ring
  cases s <;> simp [stencilOf, h]

theorem units_setup (u : Units d) (a : SearchArgs d) : setup (u.args a) = (setup a).map fun t => (u.params t.1, u.frame.nm t.2) := by
  have hl : checkDimensions (List.ofFn (u.args a).limits) (u.args a).initialMeshSize = checkDimensions (List.ofFn a.limits) a.initialMeshSize := by
    unfold checkDimensions
    simp only [List.length_ofFn]
    rfl
  have hc : CoordSys.ofLimits (u.args a).limits (u.args a).periodic = u.coord (CoordSys.ofLimits a.limits a.periodic) := units_ofLimits u a.limits a.periodic
  have hd : (u.args a).featureSize / 3 = u.scale * (a.featureSize / 3) := by
    simp only [Units.args]
    ring
  unfold setup
  simp only [hl, hc, hd]
  rcases checkDimensions (List.ofFn a.limits) a.initialMeshSize with e | ⟨n, m⟩
  · rfl
  · simp only
    split_ifs
    · rfl
    · simp only [Except.map, Except.ok.injEq, Prod.mk.injEq]
      constructor
      · simp only [Units.params, units_mesh, units_stencil, CtlParams.mk.injEq]
        exact ⟨trivial, rfl, rfl, rfl, rfl, rfl, rfl, rfl, rfl, trivial, rfl⟩
      · exact units_nmParams u a.nelderMead _ _

end NF
