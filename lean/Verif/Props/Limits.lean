import Verif.Props.Refinement

/-! # Limits of C21 and C27: their hypotheses are needed -/

noncomputable section
open Classical
namespace NF
open Spec CoordSys Container

namespace Limits
open Demo

theorem refined5 : c4.state.result.refined.values = [pt (1/2)] := by
  rw [c4_eq]
  change ((c3.state.result.addResult bad).1).refined.values = _
  rw [(addResult_refined _ _).1]
  change (c2.state.result.setRefined (pt (1/2))).refined.values = _
  rw [c2_eq]
  change (Container.setRefined (c1.state.result.addResult node).1 (pt (1/2))).refined.flat = _
  simp [Container.setRefined, CellList.addPoint, refined_empty]

theorem bad_mem : bad ∈ c4.state.result.minimizationResults := by
  rw [c4_eq]
  change bad ∈ ((c3.state.result.addResult bad).1).minimizationResults
  rw [addResult_def, if_neg (by rw [(good_reach distinct reach3).1.cont.gap]; exact bad_not_node (by norm_num [params]))]
  have hs : stored c3.state.result.coord bad = bad := by
    rw [(good_reach distinct reach3).1.cont.coord]
    unfold stored
    have : params.coord.normalizePosition bad.pos = bad.pos := by
      funext i; simp [normalizePosition, params]
    rw [this]
    rfl
  rw [hs]
  simp [minimizationResults]

/-- what the finished search has saved -/
def saved : Saved 1 := c4.state.snapshot []

theorem disk5 : c5.disk = some saved := by
  have hn : c4.state.needsSaving = true := by
    rw [c4_eq]; simp [CtlState.needsSaving]
  change (doSave params c4 []).disk = _
  unfold doSave
  rw [if_pos ⟨rfl, hn⟩]
  rfl

theorem saved_simplices : saved.simplices = [] := by
  have h := finished4
  unfold loopCondition at h
  push Not at h
  change [] ++ c4.state.simplexQueue.base.queued = []
  rw [h.1.2]; rfl

theorem saved_positions : saved.positions = [] := by
  have h := finished4
  unfold loopCondition at h
  push Not at h
  have h2 := h.2
  change c4.state.positionQueue.queued = []
  unfold ObjQueue.hasQueued at h2
  cases hq : c4.state.positionQueue.queued with
  | nil => rfl
  | cons a l => rw [hq] at h2; simp at h2

/-- A state without queued simplices and positions: the search returns at once. -/
theorem start_returns {d : ℕ} {p : CtlParams d} (disk : Option (Saved d)) {sv : Saved d} (h1 : sv.simplices = []) (h2 : sv.positions = [])
    (h3 : p.forceInitialMesh = false) :
    ReachFrom p (startFrom p disk (some sv)) { doSave p (startFrom p disk (some sv)) [] with phase := .returned } := by
  have e1 : (startFrom p disk (some sv)).state.simplexQueue = RunQueue.create [] := by
    simp [startFrom, createStateFrom, h1, h3, normalizeSimplices]
  have e2 : (startFrom p disk (some sv)).state.positionQueue = ObjQueue.create [] := by
    simp [startFrom, createStateFrom, h2]
  refine .tail .refl (.tickReturn _ [] rfl rfl ?_ ?_)
  · unfold loopCondition
    rw [e1, e2]
    simp [RunQueue.finished, RunQueue.create, ObjQueue.create, ObjQueue.hasQueued]
  · rw [e1]
    simp [RunQueue.create]

end Limits

open Demo Limits in
/-- C27 needs the same settings after a restart: if a completed search is restarted with a larger `gap_threshold` (and nothing else changed), a minimization
that was rejected before becomes a node; no refinement is performed around it, and the search returns. -/
theorem C27_raised_threshold : ∃ (p : CtlParams 1) (g : ℝ) (c : Ctl 1) (sv : Saved 1) (c' : Ctl 1),
    DistinctInput p ∧ GoodGeometry p ∧ p.stencil ≠ none ∧ 0 ≤ p.recheckCountCutoff ∧ p.gapThreshold < g ∧
    Reach p c ∧ c.phase = .returned ∧ c.disk = some sv ∧
    ReachFrom { p with gapThreshold := g } (startFrom { p with gapThreshold := g } (some sv) (some sv)) c' ∧ c'.phase = .returned ∧
    ∃ r ∈ c'.state.result.nodes.values, ∀ q ∈ c'.state.result.refined.values, p.featureSize / 3 < p.coord.distance r.pos q := by
  refine ⟨params, 10, c5, saved, _, distinct, geometry, by simp [params], by simp [params], by norm_num [params], reach5, rfl, disk5,
    start_returns _ saved_simplices saved_positions rfl, rfl, bad, ?_, ?_⟩
  · change bad ∈ (doSave _ _ _).state.result.nodes.flat
    rw [(doSave_same _ _ _).2.2.2.2.2.2.2.2.1]
    change bad ∈ (Container.create params.coord saved.results 10 params.distCutoff saved.refined).nodes.flat
    rw [(create_contents _ _ _ _ _).1, List.mem_map]
    refine ⟨bad, ?_, ?_⟩
    · rw [List.mem_filter]
      exact ⟨List.mem_map.2 ⟨bad, bad_mem, rfl⟩, decide_eq_true (bad_node (by norm_num))⟩
    · unfold stored
      have : params.coord.normalizePosition bad.pos = bad.pos := by
        funext i; simp [normalizePosition, params]
      rw [this]; rfl
  · intro q hq
    have hq : q ∈ (doSave { params with gapThreshold := 10 } _ _).state.result.refined.flat := hq
    rw [(doSave_same _ _ _).2.2.2.2.2.2.2.1] at hq
    have hq : q ∈ (Container.create params.coord saved.results 10 params.distCutoff saved.refined).refined.flat := hq
    rw [(create_contents _ _ _ _ _).2.2] at hq
    have hr : saved.refined = [pt (1/2)] := refined5
    rw [hr, List.mem_singleton] at hq
    subst hq
    rw [distance_eucl (by rfl)]
    have : Spec.eucl bad.pos (pt (1/2)) = 1/5 := by
      simp [Spec.eucl, bad, pt, SRes.pos]
      rw [Real.sqrt_sq_eq_abs]
      norm_num [abs_of_nonneg, abs_of_nonpos]
    rw [this]
    norm_num [params]

namespace Limits
open Demo

/-- parameters with a negative `recheck_count_cutoff`; `dist_cutoff` is 1, the box is `[0, 1]` -/
def negParams : CtlParams 1 := { params with featureSize := 3, recheckCountCutoff := -1, mesh := [] }

theorem neg_geometry : GoodGeometry negParams :=
  ⟨fun i => by simp [negParams, params, pt], by norm_num [negParams], Or.inr fun i => by norm_num [negParams, params, pt]⟩

theorem neg_distinct : DistinctInput negParams := ⟨by simp [DistinctSimplices, negParams], distinct.2⟩

/-- a node at 1 -/
def edge : SRes 1 := .plain ⟨pt 1, FVal.ofReal 0, 1, 1, 0, true, "", [], none⟩

/-- a node at 1 waiting for its refinement; a refinement around 0 has been performed -/
def negSaved : Saved 1 := ⟨[edge], [pt 0], [], [pt 1]⟩

/-- the search with this initial state -/
def n0 : Ctl 1 := startFrom negParams none (some negSaved)
/-- the position has been discarded -/
def n1 : Ctl 1 := { n0 with state := { n0.state with positionQueue := n0.state.positionQueue.popTo [] }, log := [.discarded (pt 1)] }

theorem n0_inv : n0.state.result.Inv negParams.coord 1 1 := by
  have h : n0.state.result = Container.create negParams.coord [edge] 1 (3 / 3) [pt 0] := rfl
  rw [h]
  have := Inv.create (cs := negParams.coord) (g := 1) (dc := 3 / 3) [edge] [pt 0]
  rwa [show (3 : ℝ) / 3 = 1 by norm_num] at this ⊢

theorem n0_refined : n0.state.result.refined.flat = [pt 0] := by
  have h : n0.state.result = Container.create negParams.coord [edge] 1 (3 / 3) [pt 0] := rfl
  rw [h, (create_contents _ _ _ _ _).2.2]

theorem edge_node : IsNode 1 edge := by
  refine ⟨rfl, ?_⟩
  simp [edge, SRes.value, SRes.main, FVal.gt, FVal.lt, FVal.ofReal]

theorem n0_nodes : n0.state.result.nodes.flat = [edge] := by
  have h : n0.state.result = Container.create negParams.coord [edge] 1 (3 / 3) [pt 0] := rfl
  rw [h, (create_contents _ _ _ _ _).1]
  simp only [List.filter_cons, edge_node, decide_true, if_true, List.filter_nil, List.map_cons, List.map_nil, List.cons.injEq, and_true]
  unfold stored
  have : negParams.coord.normalizePosition edge.pos = edge.pos := by
    funext i; simp [normalizePosition, negParams, params]
  rw [this]; rfl

theorem ncells : numCellsFor negParams.coord 1 = fun _ => 1 := by
  funext i
  simp [numCellsFor, size, negParams, params, pt, truncInt]

theorem neg_neighbour : pt 0 ∈ n0.state.result.refined.neighbourValues (negParams.coord.getFrac (pt 1)) := by
  rw [CellList.mem_neighbourValues n0_inv.rinv, n0_refined, CellList.mem_calculateNeighbourIndices_nonperiodic (by rw [n0_inv.rper]; rfl)]
  refine ⟨by simp, fun i => ?_, fun i => CellList.getIndex_range_nonperiodic (by rw [n0_inv.rper]; rfl) _ i⟩
  simp only [CellList.getIndex, n0_inv.rper, n0_inv.rnum, ncells, CellList.total]
  simp [negParams, params, pt, getFrac, size, truncInt]

theorem neg_check : checkPosRefinement negParams n0.state.result (pt 1) (-1) = false := by
  rw [checkPos_eq_false_iff]
  constructor
  · apply List.ne_nil_of_mem (a := n0.state.result.coord.distance (pt 1) (pt 0))
    unfold refinedNeighbourDistances
    refine List.mem_map.2 ⟨pt 0, ?_, rfl⟩
    rw [n0_inv.coord]
    exact neg_neighbour
  · have : (0 : ℤ) ≤ ((n0.state.result.refinedNeighbourDistances (pt 1)).filter fun x => decide (x < negParams.distCutoff)).length := by
      positivity
    omega

theorem n0_step : fillStep negParams n0 = .next n1 := by
  unfold fillStep
  rw [if_neg (by simp [n0, startFrom, createStateFrom, negSaved, negParams, params, RunQueue.create, RunQueue.numRunning])]
  rw [RunQueue.popQueued_nil (by rfl)]
  simp only
  rw [ObjQueue.popQueued_cons (show n0.state.positionQueue.queued = [pt 1] from rfl)]
  simp only
  rw [if_neg]
  · rfl
  · rintro (h | h)
    · simp [negParams, params] at h
    · have : checkPosRefinement negParams n0.state.result (pt 1) (-1) = true := h
      rw [neg_check] at this; cases this

theorem n1_stop : fillStep negParams n1 = .stop := by
  unfold fillStep
  rw [if_neg (by simp [n1, n0, startFrom, createStateFrom, negSaved, negParams, params, RunQueue.create, RunQueue.numRunning])]
  rw [RunQueue.popQueued_nil (by rfl)]
  simp only
  rw [ObjQueue.popQueued_nil (by rfl)]

theorem n1_end : ¬ loopCondition n1 := by
  rintro (h | h)
  · exact h ⟨rfl, rfl⟩
  · simp [n1, ObjQueue.hasQueued] at h

end Limits

open Demo Limits in
/-- C27 needs `recheck_count_cutoff ≥ 0` (with rechecking): with -1, a search that starts where every node is covered or waiting for its refinement
discards the waiting position and returns, and its node is not covered. -/
theorem C27_negative_cutoff : ∃ (p : CtlParams 1) (sv : Saved 1) (c : Ctl 1),
    DistinctInput p ∧ GoodGeometry p ∧ p.stencil ≠ none ∧ p.recheckPosDist = true ∧ p.recheckCountCutoff = -1 ∧
    WellFormedSaved sv ∧ (∀ r ∈ sv.results, r.pos ∈ sv.positions) ∧
    ReachFrom p (startFrom p none (some sv)) c ∧ c.phase = .returned ∧
    ∃ r ∈ c.state.result.nodes.values, ∀ q ∈ c.state.result.refined.values, p.featureSize / 3 ≤ p.coord.distance r.pos q := by
  refine ⟨negParams, negSaved, { doSave negParams n1 [] with phase := .returned }, neg_distinct, neg_geometry, by simp [negParams, params],
    rfl, rfl, ⟨by simp [negSaved], by simp [negSaved]⟩, by simp [negSaved, edge, SRes.pos], ?_, rfl, edge, ?_, ?_⟩
  · refine .tail (.tail .refl (.tickFill n0 n1 rfl rfl (Or.inr rfl) ?_)) (.tickReturn n1 [] rfl rfl n1_end ?_)
    · rw [fill_next n0_step, fill_stop n1_stop]
    · simp [n1, n0, startFrom, createStateFrom, negSaved, RunQueue.create, negParams, params]
  · change edge ∈ (doSave negParams n1 []).state.result.nodes.flat
    rw [(doSave_same _ _ _).2.2.2.2.2.2.2.2.1]
    change edge ∈ n0.state.result.nodes.flat
    rw [n0_nodes]; simp
  · intro q hq
    have hq : q ∈ (doSave negParams n1 []).state.result.refined.flat := hq
    rw [(doSave_same _ _ _).2.2.2.2.2.2.2.1] at hq
    have hq : q ∈ n0.state.result.refined.flat := hq
    rw [n0_refined, List.mem_singleton] at hq
    subst hq
    rw [distance_eucl (by rfl)]
    simp [Spec.eucl, edge, pt, SRes.pos, negParams]

namespace Limits
open Demo

/-- the same simplex three times in the initial mesh, two parallel minimizations allowed -/
def dupParams : CtlParams 1 := { params with numMinimizeParallel := 2, mesh := [[pt 0, pt (1/4)], [pt 0, pt (1/4)], [pt 0, pt (1/4)]] }

theorem dup_check (res : Container 1) : checkSimplex dupParams res s = true := by
  by_contra hc
  have hc : checkSimplexLoop dupParams res 0 s = false := by simpa [checkSimplex] using hc
  rw [checkSimplexLoop_eq_false_iff _ _ _ _ (Or.inl (by simp [dupParams, params]))] at hc
  have h1 := hc.2
  have h2 := List.length_filter_le (fun v => (res.neighbourDistances v).any fun x => decide (x < dupParams.distCutoff)) s
  have h3 : s.length = 2 := by simp [s, normalizeSimplex]
  simp only [dupParams, params] at h1 h2
  omega

/-- the state after `n` of the three copies have been started -/
def dup (n : ℕ) (rest : List (Simplex 1)) (run : Finset (Simplex 1)) : Ctl 1 :=
  let c := startFresh dupParams
  { c with
    state := { c.state with simplexQueue := ⟨{ c.state.simplexQueue.base with queued := rest }, run⟩ }
    tasks := List.replicate n s
    log := List.replicate n (.scheduled s) }

theorem dup_step {n : ℕ} {rest : List (Simplex 1)} {run : Finset (Simplex 1)} (h : run.card ≤ 1) :
    fillStep dupParams (dup n (s :: rest) run) = .next (dup (n + 1) rest (insert s run)) := by
  unfold fillStep
  rw [if_neg (by
    have : (dup n (s :: rest) run).state.simplexQueue.numRunning = run.card := rfl
    rw [this]; simp [dupParams]; omega)]
  rw [RunQueue.popQueued_cons (show (dup n (s :: rest) run).state.simplexQueue.base.queued = s :: rest from rfl)]
  simp only
  rw [if_pos (dup_check _)]
  simp only [dup, RunQueue.popTo, List.replicate_succ']
  congr!

theorem dup_stop {n : ℕ} {run : Finset (Simplex 1)} (h : run.card ≤ 1) : fillStep dupParams (dup n [] run) = .stop := by
  unfold fillStep
  rw [if_neg (by
    have : (dup n [] run).state.simplexQueue.numRunning = run.card := rfl
    rw [this]; simp [dupParams]; omega)]
  rw [RunQueue.popQueued_nil (by rfl)]
  simp only
  rw [ObjQueue.popQueued_nil (by rfl)]

end Limits

open Demo Limits in
/-- C21 needs different simplices: if the same simplex is three times in the initial mesh, all three minimizations are started although only two
are allowed. -/
theorem C21_duplicates_exceed : ∃ (p : CtlParams 1) (c : Ctl 1), Reach p c ∧ p.numMinimizeParallel = 2 ∧ c.tasks.length = 3 := by
  have h0 : (∅ : Finset (Simplex 1)).card ≤ 1 := by simp
  have h1 : (insert s (∅ : Finset (Simplex 1))).card ≤ 1 := by
    refine (Finset.card_insert_le _ _).trans ?_; simp
  have h2 : (insert s (insert s (∅ : Finset (Simplex 1)))).card ≤ 1 := by rwa [Finset.insert_idem]
  have h3 : (insert s (insert s (insert s (∅ : Finset (Simplex 1))))).card ≤ 1 := by rwa [Finset.insert_idem]
  refine ⟨dupParams, dup 3 [] (insert s (insert s (insert s ∅))), .tail .start (.step (.tickFill _ _ rfl rfl (Or.inl ?_) ?_)), rfl, rfl⟩
  · rintro ⟨-, h⟩
    have h : [s, s, s] = [] := h
    cases h
  · have e : startFresh dupParams = dup 0 [s, s, s] ∅ := rfl
    rw [e, fill_next (dup_step h0), fill_next (dup_step h1), fill_next (dup_step h2), fill_stop (dup_stop h3)]

end NF
