import Verif.Lemmas.FloatUnits
import Verif.Lemmas.UnitsInv

/-! # Lemmas: a search in double precision, in units that differ by powers of two -/

noncomputable section
open Classical

namespace NF
open Spec
variable {d : ℕ}

/-! ## Positions -/

section positions
variable {rnd : ℝ → ℝ} (hr : BinaryRounding rnd) (k j : ℤ)
include hr

theorem bin_size (cs : CoordSys d) (i : Fin d) : FL.size rnd (binaryCoord k cs) i = 2 ^ k * FL.size rnd cs i := bin_rnd_sub k hr _ _

omit hr in
theorem bin_fmod (a b : ℝ) : FL.fmod (2 ^ k * a) (2 ^ k * b) = 2 ^ k * FL.fmod a b := by
  unfold FL.fmod
  rw [mul_div_mul_left _ _ (two_zpow_pos k).ne']
  ring

theorem bin_npMod (a b : ℝ) : FL.npMod rnd (2 ^ k * a) (2 ^ k * b) = 2 ^ k * FL.npMod rnd a b := by
  have hk := two_zpow_pos k
  have hneg : ∀ y : ℝ, (2 : ℝ) ^ k * y < 0 ↔ y < 0 := fun y => by constructor <;> intro h <;> nlinarith
  unfold FL.npMod
  simp only [bin_fmod, hneg, ne_eq, mul_eq_zero, hk.ne', false_or]
  split
  · rw [bin_rnd_add k hr]
  · rfl

theorem bin_normalize (cs : CoordSys d) (x : Vec d) :
    (FL.normalizePosition rnd (binaryCoord k cs) fun i => 2 ^ k * x i) = (fun i => 2 ^ k * FL.normalizePosition rnd cs x i) := by
  funext i
  unfold FL.normalizePosition
  rw [bin_size hr k]
  simp only [binaryCoord]
  rw [bin_rnd_sub k hr, bin_npMod hr k, bin_rnd_add k hr]
  by_cases hp : cs.periodic = true <;> simp [hp]

theorem bin_frac (cs : CoordSys d) (x : Vec d) : FL.getFrac rnd (binaryCoord k cs) (fun i => 2 ^ k * x i) = FL.getFrac rnd cs x := by
  funext i
  unfold FL.getFrac
  rw [bin_size hr k]
  simp only [binaryCoord]
  rw [bin_rnd_sub k hr, mul_div_mul_left _ _ (two_zpow_pos k).ne']
  by_cases hp : cs.periodic = true <;> simp [hp]

omit hr in
theorem su_pos (x : Vec d) : (searchUnits k j : Units d).pos x = fun i => 2 ^ k * x i := by
  funext i
  simp [searchUnits, Units.pos]

omit hr in
theorem su_coord (cs : CoordSys d) : (searchUnits k j : Units d).coord cs = binaryCoord k cs := by
  unfold Units.coord binaryCoord
  simp only [su_pos]

omit hr in
theorem su_frame : (searchUnits k j : Units d).frame = binaryUnits k j := rfl

omit hr in
theorem su_inv : (searchUnits k j : Units d).inv = searchUnits (-k) (-j) := by
  simp only [searchUnits, Spec.Units.inv, Spec.Units.mk.injEq, zpow_neg, true_and]
  funext i
  simp

theorem su_frac (cs : CoordSys d) (x : Vec d) : FL.getFrac rnd ((searchUnits k j : Units d).coord cs) ((searchUnits k j : Units d).pos x) = FL.getFrac rnd cs x := by
  rw [su_coord, su_pos, bin_frac hr]

theorem su_normalize (cs : CoordSys d) (x : Vec d) :
    FL.normalizePosition rnd ((searchUnits k j : Units d).coord cs) ((searchUnits k j : Units d).pos x) = (searchUnits k j : Units d).pos (FL.normalizePosition rnd cs x) := by
  rw [su_coord, su_pos, su_pos, bin_normalize hr]

theorem su_numCells (cs : CoordSys d) (dc : ℝ) : FL.numCellsFor rnd ((searchUnits k j : Units d).coord cs) ((searchUnits k j : Units d).scale * dc) = FL.numCellsFor rnd cs dc := by
  funext i
  unfold FL.numCellsFor
  have h : (searchUnits k j : Units d).scale = 2 ^ k := rfl
  rw [su_coord, bin_size hr, h, mul_div_mul_left _ _ (two_zpow_pos k).ne']
  simp only [mul_eq_zero, (two_zpow_pos k).ne', false_or]

end positions

/-! ## Cells and containers -/

section cells
variable {α β : Type} (g : α → β)

theorem su_addPoint (rnd : ℝ → ℝ) (c : CellList d α) (fr : Vec d) (v : α) :
    FL.addPointChecked rnd (Units.cellList g c) fr (g v) = (FL.addPointChecked rnd c fr v).map (Units.cellList g) := by
  have hi : FL.getIndex rnd (Units.cellList g c) fr = FL.getIndex rnd c fr := rfl
  have ht : (Units.cellList g c).total = c.total := rfl
  unfold FL.addPointChecked
  simp only [hi, ht]
  split
  · simp only [Except.map, Units.cellList, List.map_append, List.map_cons, List.map_nil, Except.ok.injEq, CellList.mk.injEq, true_and, and_true]
    funext i
    by_cases h : i = fun j => if FL.getIndex rnd c fr j < 0 then FL.getIndex rnd c fr j + c.total j else FL.getIndex rnd c fr j
    · subst h; simp
    · simp [Function.update_of_ne h]
  · rfl

theorem su_neighbours (A : FL.CtlArith d) (c : CellList d α) (fr : Vec d) : FL.neighbourValues A (Units.cellList g c) fr = (FL.neighbourValues A c fr).map g := by
  unfold FL.neighbourValues
  rw [List.map_flatMap]
  rfl

end cells

variable {A : FL.CtlArith d} (hA : BinaryCtlArith A) (k j : ℤ)

local notation "𝓊" => (searchUnits k j : Units d)

include hA

theorem su_dist (cs : CoordSys d) (x y : Vec d) : A.dist ((𝓊).coord cs) ((𝓊).pos x) ((𝓊).pos y) = (𝓊).scale * A.dist cs x y := by
  rw [su_coord, su_pos, su_pos]
  exact hA.dist k cs x y

theorem su_empty (cs : CoordSys d) (g dc : ℝ) : FL.emptyContainer A ((𝓊).coord cs) ((𝓊).energy * g) ((𝓊).scale * dc) = (𝓊).container (FL.emptyContainer A cs g dc) := by
  unfold FL.emptyContainer Units.container
  simp only [su_numCells hA.rnd]
  rfl

theorem su_addResult (c : Container d) (r : SRes d) :
    FL.addResult A ((𝓊).container c) ((𝓊).frame.sres r) = (FL.addResult A c r).map fun t => ((𝓊).container t.1, t.2) := by
  have h0 : FL.normalizePosition A.rnd ((𝓊).container c).coord ((𝓊).frame.sres r).pos = (𝓊).pos (FL.normalizePosition A.rnd c.coord r.pos) := by
    rw [units_sres_pos]
    exact su_normalize hA.rnd k j c.coord r.pos
  unfold FL.addResult
  simp only [h0, units_sres_setPos, units_sres_success, units_sres_value]
  have hg : FVal.ofReal ((𝓊).container c).gapThreshold = (𝓊).frame.val (FVal.ofReal c.gapThreshold) := (frame_val_real (𝓊).frame _).symm
  simp only [hg, frame_gt]
  by_cases h : (r.setPos (FL.normalizePosition A.rnd c.coord r.pos)).success = false ∨
      FVal.gt (r.setPos (FL.normalizePosition A.rnd c.coord r.pos)).value (FVal.ofReal c.gapThreshold)
  · rw [if_pos h, if_pos h]
    simp [Units.container, Except.map]
  · rw [if_neg h, if_neg h]
    have h1 : FL.getFrac A.rnd ((𝓊).container c).coord ((𝓊).frame.sres (r.setPos (FL.normalizePosition A.rnd c.coord r.pos))).pos =
        FL.getFrac A.rnd c.coord (r.setPos (FL.normalizePosition A.rnd c.coord r.pos)).pos := by
      rw [units_sres_pos]
      exact su_frac hA.rnd k j c.coord _
    rw [h1]
    have h2 : ((𝓊).container c).nodes = Units.cellList (𝓊).frame.sres c.nodes := rfl
    rw [h2, su_addPoint]
    rcases FL.addPointChecked A.rnd c.nodes (FL.getFrac A.rnd c.coord (r.setPos (FL.normalizePosition A.rnd c.coord r.pos)).pos)
      (r.setPos (FL.normalizePosition A.rnd c.coord r.pos)) with e | nodes <;> rfl

theorem su_setRefined (c : Container d) (x : Vec d) : FL.setRefined A ((𝓊).container c) ((𝓊).pos x) = (FL.setRefined A c x).map (𝓊).container := by
  have h : FL.getFrac A.rnd ((𝓊).container c).coord ((𝓊).pos x) = FL.getFrac A.rnd c.coord x := su_frac hA.rnd k j c.coord x
  have h2 : ((𝓊).container c).refined = Units.cellList (𝓊).pos c.refined := rfl
  unfold FL.setRefined
  rw [h, h2, su_addPoint]
  rcases FL.addPointChecked A.rnd c.refined (FL.getFrac A.rnd c.coord x) x with e | refined <;> rfl

theorem su_addResults : ∀ (rs : List (SRes d)) (c : Container d), FL.addResults A ((𝓊).container c) (rs.map (𝓊).frame.sres) = (FL.addResults A c rs).map (𝓊).container
  | [], _ => rfl
  | r :: rs, c => by
    rw [List.map_cons, FL.addResults, FL.addResults, su_addResult hA]
    rcases FL.addResult A c r with e | c'
    · rfl
    · exact su_addResults rs c'.1

theorem su_setRefineds : ∀ (xs : List (Vec d)) (c : Container d), FL.setRefineds A ((𝓊).container c) (xs.map (𝓊).pos) = (FL.setRefineds A c xs).map (𝓊).container
  | [], _ => rfl
  | x :: xs, c => by
    rw [List.map_cons, FL.setRefineds, FL.setRefineds, su_setRefined hA]
    rcases FL.setRefined A c x with e | c'
    · rfl
    · exact su_setRefineds xs c'

theorem su_create (cs : CoordSys d) (rs : List (SRes d)) (g dc : ℝ) (ps : List (Vec d)) :
    FL.createContainer A ((𝓊).coord cs) (rs.map (𝓊).frame.sres) ((𝓊).energy * g) ((𝓊).scale * dc) (ps.map (𝓊).pos) = (FL.createContainer A cs rs g dc ps).map (𝓊).container := by
  unfold FL.createContainer
  rw [su_empty hA, su_addResults hA]
  rcases FL.addResults A (FL.emptyContainer A cs g dc) rs with e | c
  · rfl
  · simp only [Except.map]
    rw [su_setRefineds hA]
    rcases FL.setRefineds A c ps with e | c' <;> rfl

theorem su_neighbourDistances (c : Container d) (x : Vec d) :
    FL.neighbourDistances A ((𝓊).container c) ((𝓊).pos x) = (FL.neighbourDistances A c x).map fun t => (𝓊).scale * t := by
  have h : FL.getFrac A.rnd ((𝓊).container c).coord ((𝓊).pos x) = FL.getFrac A.rnd c.coord x := su_frac hA.rnd k j c.coord x
  have h2 : ((𝓊).container c).nodes = Units.cellList (𝓊).frame.sres c.nodes := rfl
  unfold FL.neighbourDistances
  rw [h, h2, su_neighbours, List.filter_map, List.map_map, List.map_map]
  have h3 : (fun r : SRes d => decide (∃ i, r.pos i ≠ (𝓊).pos x i)) ∘ (𝓊).frame.sres = fun r => decide (∃ i, r.pos i ≠ x i) := by
    funext r
    simp only [Function.comp_apply, units_sres_pos, units_ne]
  rw [h3]
  congr 1
  funext r
  simp only [Function.comp_apply, units_sres_pos]
  exact su_dist hA k j c.coord _ _

theorem su_refinedDistances (c : Container d) (x : Vec d) :
    FL.refinedNeighbourDistances A ((𝓊).container c) ((𝓊).pos x) = (FL.refinedNeighbourDistances A c x).map fun t => (𝓊).scale * t := by
  have h : FL.getFrac A.rnd ((𝓊).container c).coord ((𝓊).pos x) = FL.getFrac A.rnd c.coord x := su_frac hA.rnd k j c.coord x
  have h2 : ((𝓊).container c).refined = Units.cellList (𝓊).pos c.refined := rfl
  unfold FL.refinedNeighbourDistances
  rw [h, h2, su_neighbours, List.map_map, List.map_map]
  congr 1
  funext r
  exact su_dist hA k j c.coord _ _

/-! ## The controller -/

theorem su_distCutoff (p : CtlParams d) : FL.distCutoff A ((𝓊).params p) = (𝓊).scale * FL.distCutoff A p := by
  change A.rnd (2 ^ k * p.featureSize / 3) = 2 ^ k * A.rnd (p.featureSize / 3)
  exact bin_rnd_div k hA.rnd _ _

theorem su_translate (x : Vec d) (st : List (Simplex d)) :
    FL.translateStencil A ((𝓊).pos x) (st.map fun s => s.map fun v l => (𝓊).scale * v l) = (FL.translateStencil A x st).map (𝓊).simplex := by
  unfold FL.translateStencil Units.simplex
  simp only [List.map_map]
  congr 1
  funext s
  simp only [Function.comp_apply, List.map_map]
  congr 1
  funext v
  simp only [Function.comp_apply, su_pos]
  funext l
  exact bin_rnd_add k hA.rnd _ _

theorem su_createState (p : CtlParams d) (i : Option (Saved d)) : FL.createStateFrom A ((𝓊).params p) (i.map (𝓊).saved) = (FL.createStateFrom A p i).map (𝓊).state := by
  have hf : ((𝓊).params p).forceInitialMesh = p.forceInitialMesh := rfl
  have hm : normalizeSimplices ((𝓊).params p).mesh = (normalizeSimplices p.mesh).map (𝓊).simplex := units_normalizeSimplices (𝓊) p.mesh
  cases i with
  | none =>
    unfold FL.createStateFrom
    simp only [Option.map_none, su_distCutoff hA, hm, units_run_create, Except.map, Except.ok.injEq]
    unfold Units.state
    congr 1
    · exact su_empty hA k j p.coord p.gapThreshold _
    · exact units_queue_create []
  | some sv =>
    have h1 : FL.createContainer A ((𝓊).params p).coord ((𝓊).saved sv).results ((𝓊).params p).gapThreshold ((𝓊).scale * FL.distCutoff A p) ((𝓊).saved sv).refined =
        (FL.createContainer A p.coord sv.results p.gapThreshold (FL.distCutoff A p) sv.refined).map (𝓊).container := su_create hA k j p.coord sv.results p.gapThreshold _ sv.refined
    unfold FL.createStateFrom
    simp only [Option.map_some, su_distCutoff hA, h1]
    rcases FL.createContainer A p.coord sv.results p.gapThreshold (FL.distCutoff A p) sv.refined with e | c
    · rfl
    · simp only [hm, hf, Units.saved, units_normalizeSimplices, units_run_create, units_queue_create, Except.map, Except.ok.injEq]
      unfold Units.state
      congr 1
      split_ifs
      · exact units_run_add (units_simplex_inj (𝓊)) _ _
      · rfl

theorem su_startFrom (p : CtlParams d) (dk i : Option (Saved d)) : FL.startFrom A ((𝓊).params p) (dk.map (𝓊).saved) (i.map (𝓊).saved) = (FL.startFrom A p dk i).map (𝓊).ctl := by
  unfold FL.startFrom
  rw [su_createState hA]
  rcases FL.createStateFrom A p i with e | st
  · rfl
  · simp only [Except.map, Except.ok.injEq]
    unfold Units.ctl
    simp only [Ctl.mk.injEq, List.map_nil, true_and]
    exact units_results (𝓊) _

theorem su_checkPos (p : CtlParams d) (c : Container d) (x : Vec d) (n : ℤ) :
    FL.checkPosRefinement A ((𝓊).params p) ((𝓊).container c) ((𝓊).pos x) n = FL.checkPosRefinement A p c x n := by
  unfold FL.checkPosRefinement
  rw [su_distCutoff hA, su_refinedDistances hA, units_posLoop (𝓊).scale_pos]

theorem su_simplexLoop (p : CtlParams d) (c : Container d) : ∀ (n : ℤ) (l : List (Vec d)),
    FL.checkSimplexLoop A ((𝓊).params p) ((𝓊).container c) n (l.map (𝓊).pos) = FL.checkSimplexLoop A p c n l
  | _, [] => rfl
  | n, x :: l => by
    have h : (FL.neighbourDistances A ((𝓊).container c) ((𝓊).pos x)).any (fun dist => decide (dist < FL.distCutoff A ((𝓊).params p))) =
        (FL.neighbourDistances A c x).any fun dist => decide (dist < FL.distCutoff A p) := by
      rw [su_neighbourDistances hA, List.any_map, su_distCutoff hA]
      congr 1
      funext t
      simp only [Function.comp_apply, mul_lt_mul_iff_of_pos_left (𝓊).scale_pos]
    have hc : ((𝓊).params p).simplexCheckCutoff = p.simplexCheckCutoff := rfl
    simp only [List.map_cons, FL.checkSimplexLoop, h, hc, su_simplexLoop p c _ l]

theorem su_checkSimplex (p : CtlParams d) (c : Container d) (s : Simplex d) :
    FL.checkSimplex A ((𝓊).params p) ((𝓊).container c) ((𝓊).simplex s) = FL.checkSimplex A p c s := su_simplexLoop hA k j p c 0 s

theorem su_fillStep (p : CtlParams d) (c : Ctl d) : FL.fillStep A ((𝓊).params p) ((𝓊).ctl c) = fillStepMap (𝓊) (FL.fillStep A p c) := by
  have h1 : ((𝓊).ctl c).state.simplexQueue = Units.runQueue (𝓊).simplex c.state.simplexQueue := rfl
  have h2 : ((𝓊).ctl c).state.positionQueue = Units.queue (𝓊).pos c.state.positionQueue := rfl
  have h3 : ((𝓊).ctl c).state.result = (𝓊).container c.state.result := rfl
  have h4 : ((𝓊).params p).numMinimizeParallel = p.numMinimizeParallel := rfl
  have h5 : ((𝓊).params p).recheckPosDist = p.recheckPosDist := rfl
  have h6 : ((𝓊).params p).recheckCountCutoff = p.recheckCountCutoff := rfl
  have h7 : ((𝓊).params p).stencil = p.stencil.map fun st => st.map fun s => s.map fun v l => (𝓊).scale * v l := rfl
  unfold FL.fillStep
  rw [h1, units_run_num (units_simplex_inj (𝓊)), h4]
  split
  · rfl
  · rw [units_run_pop]
    rcases c.state.simplexQueue.popQueued with - | ⟨s, sq⟩
    · simp only [Option.map_none]
      rw [h2, units_queue_pop]
      rcases c.state.positionQueue.popQueued with - | ⟨x, pq⟩
      · rfl
      · simp only [Option.map_some, h3, h5, h6, h7, su_checkPos hA]
        split
        · rcases p.stencil with - | st
          · simp only [Option.map_none, fillStepMap, FillStep.raise.injEq, true_and]
            simp [Units.ctl, Units.state]
          · simp only [Option.map_some, su_setRefined hA]
            rcases FL.setRefined A c.state.result x with e | result
            · simp only [Except.map, fillStepMap, FillStep.raise.injEq, true_and]
              simp [Units.ctl, Units.state, su_translate hA, units_normalizeSimplices, units_run_add (units_simplex_inj (𝓊))]
            · simp only [Except.map, fillStepMap, FillStep.next.injEq]
              simp [Units.ctl, Units.state, su_translate hA, units_normalizeSimplices, units_run_add (units_simplex_inj (𝓊)), Units.logEntry]
        · simp only [fillStepMap, FillStep.next.injEq]
          simp [Units.ctl, Units.state, Units.logEntry]
    · simp only [Option.map_some, h3, su_checkSimplex hA, units_run_finish (units_simplex_inj (𝓊))]
      split
      · simp only [fillStepMap, FillStep.next.injEq]
        simp [Units.ctl, Units.state, Units.logEntry]
      · rcases sq.setFinished s with e | sq'
        · simp only [Except.map, fillStepMap, FillStep.raise.injEq, true_and]
          simp [Units.ctl, Units.state]
        · simp only [Except.map, fillStepMap, FillStep.next.injEq]
          simp [Units.ctl, Units.state, Units.logEntry]

theorem su_fill (p : CtlParams d) (c : Ctl d) : FL.fill A ((𝓊).params p) ((𝓊).ctl c) = ((FL.fill A p c).1, (𝓊).ctl (FL.fill A p c).2) := by
  induction hn : fillMeasure c using WellFoundedLT.induction generalizing c with
  | _ n ih =>
    have hs := su_fillStep hA k j p c
    rw [FL.fill, FL.fill.eq_1 A p c]
    rcases h : FL.fillStep A p c with - | c' | ⟨e, c'⟩ <;> rw [h] at hs <;> simp only [fillStepMap] at hs
    · split <;> simp_all
    · split
      · simp_all
      · simp_all
      · rename_i c2 h2
        rw [hs] at h2
        cases h2
        exact ih _ (by rw [← hn]; exact FL.fillStep_decreases h) _ rfl
    · split <;> simp_all

theorem su_processResult (p : CtlParams d) (s : CtlState d) (r : SRes d) :
    FL.processResult A ((𝓊).params p) ((𝓊).state s) ((𝓊).frame.sres r) = (FL.processResult A p s r).map (𝓊).state := by
  have h1 : FL.normalizePosition A.rnd ((𝓊).params p).coord ((𝓊).frame.sres r).pos = (𝓊).pos (FL.normalizePosition A.rnd p.coord r.pos) := by
    rw [units_sres_pos]
    exact su_normalize hA.rnd k j p.coord _
  have h2 : FL.addResult A ((𝓊).state s).result ((𝓊).frame.sres r) = (FL.addResult A s.result r).map fun t => ((𝓊).container t.1, t.2) := su_addResult hA k j s.result r
  have h3 : ((𝓊).params p).stencil.isSome = p.stencil.isSome := by simp [Units.params]
  unfold FL.processResult
  rw [h2]
  rcases FL.addResult A s.result r with e | added
  · rfl
  · simp only [Except.map, h1, h3, su_checkPos hA]
    split_ifs
    · simp only [Units.state, Except.ok.injEq, CtlState.mk.injEq, true_and]
      exact units_queue_add (units_pos_inj (𝓊)) s.positionQueue [_]
    · rfl
    · rfl

theorem su_taskDone (p : CtlParams d) (c : Ctl d) (s : Simplex d) (r : SRes d) :
    FL.taskDone A ((𝓊).params p) ((𝓊).ctl c) ((𝓊).simplex s) ((𝓊).frame.sres r) = (𝓊).ctl (FL.taskDone A p c s r) := by
  have h1 : FL.processResult A ((𝓊).params p) ((𝓊).ctl c).state ((𝓊).frame.sres r) = (FL.processResult A p c.state r).map (𝓊).state := su_processResult hA k j p c.state r
  unfold FL.taskDone
  rw [h1]
  rcases FL.processResult A p c.state r with e | st
  · exact units_taskFail (𝓊) c s e
  · simp only [Except.map]
    have h2 : ((𝓊).state st).simplexQueue.setFinished ((𝓊).simplex s) = (st.simplexQueue.setFinished s).map (Units.runQueue (𝓊).simplex) :=
      units_run_finish (units_simplex_inj (𝓊)) _ _
    rw [h2]
    rcases st.simplexQueue.setFinished s with e | sq
    · simp only [Except.map, Units.ctl, Ctl.mk.injEq, List.map_append, units_erase, true_and, and_true]
      exact ⟨rfl, rfl⟩
    · simp only [Except.map, Units.ctl, Ctl.mk.injEq, List.map_append, units_erase, true_and, and_true]
      exact ⟨rfl, rfl⟩

end NF
