import Verif.Lemmas.SimilarSP
import Verif.Lemmas.FloatUnits
import Verif.Model.FloatShortestPath

/-! # Lemmas: the shortest-path method with rounding, in a unit that differs by a power of two -/

noncomputable section
open Classical

namespace NF
open Spec
variable {V : Type}

theorem fl_spStep_to {L : FL.SPLib V} {rnd : ℝ → ℝ} {s t t' : SPState V} (h : FL.SPStep L rnd s t) (e : t = t') : FL.SPStep L rnd s t' := e ▸ h

section
variable {rnd : ℝ → ℝ} (hr : BinaryRounding rnd) (k : ℤ) {f : V → V} (hf : Function.Injective f)
  {L : FL.SPLib V} (hL : ∀ {g s t p}, L.dijkstra g s t p → L.dijkstra (g.map f (spAttr (2 ^ k))) (f s) (f t) (p.map f))
include hr hf

theorem fl_updateNeighbourWeights_map (g : NxGraph V (ℝ × ℝ)) (x : V) (m : ℝ) : FL.updateNeighbourWeights rnd (f x) m (g.map f (spAttr (2 ^ k))) = (FL.updateNeighbourWeights rnd x m g).map f (spAttr (2 ^ k)) := by
  unfold FL.updateNeighbourWeights
  rw [NxGraph.neighbors_map hf]
  generalize g.neighbors x = l
  induction l generalizing g with
  | nil => rfl
  | cons y l ih =>
    rw [List.map_cons, List.foldl_cons, List.foldl_cons, NxGraph.updateEdge_map hf (spAttr (2 ^ k)) g x y (upd := fun b => (b.1, rnd (b.2 * m)))]
    · exact ih _
    · intro b; simp only [spAttr]; rw [mul_assoc, hr]

theorem fl_updateHighDegree_map (rg : NxGraph V Unit) (g : NxGraph V (ℝ × ℝ)) (l : List V) :
    FL.updateHighDegree rnd (rg.map f id) (g.map f (spAttr (2 ^ k)), l.map f) = ((FL.updateHighDegree rnd rg (g, l)).1.map f (spAttr (2 ^ k)), (FL.updateHighDegree rnd rg (g, l)).2.map f) := by
  unfold FL.updateHighDegree
  have : ∀ (nodes : List V) (g : NxGraph V (ℝ × ℝ)) (l : List V),
      (nodes.map f).foldl (fun gh node => if (rg.map f id).degree node > 2 ∧ node ∉ gh.2 then (FL.updateNeighbourWeights rnd node 0.5 gh.1, gh.2 ++ [node]) else gh) (g.map f (spAttr (2 ^ k)), l.map f) =
      ((nodes.foldl (fun gh node => if rg.degree node > 2 ∧ node ∉ gh.2 then (FL.updateNeighbourWeights rnd node 0.5 gh.1, gh.2 ++ [node]) else gh) (g, l)).1.map f (spAttr (2 ^ k)),
       (nodes.foldl (fun gh node => if rg.degree node > 2 ∧ node ∉ gh.2 then (FL.updateNeighbourWeights rnd node 0.5 gh.1, gh.2 ++ [node]) else gh) (g, l)).2.map f) := by
    intro nodes
    induction nodes with
    | nil => intro g l; rfl
    | cons x nodes ih =>
      intro g l
      rw [List.map_cons, List.foldl_cons, List.foldl_cons]
      have hx : ((rg.map f id).degree (f x) > 2 ∧ f x ∉ l.map f) ↔ (rg.degree x > 2 ∧ x ∉ l) := by rw [NxGraph.degree_map hf, NxGraph.mem_map_iff hf]
      by_cases h : rg.degree x > 2 ∧ x ∉ l
      · rw [if_pos h, if_pos (hx.2 h)]
        have := ih (FL.updateNeighbourWeights rnd x 0.5 g) (l ++ [x])
        rw [List.map_append, ← fl_updateNeighbourWeights_map hr k hf] at this
        exact this
      · rw [if_neg h, if_neg fun h' => h (hx.1 h')]
        exact ih _ _
  exact this rg.nodes g l

theorem fl_updateDegreeOne_map (rg : NxGraph V Unit) (g : NxGraph V (ℝ × ℝ)) (l : List V) :
    FL.updateDegreeOne rnd (rg.map f id) (g.map f (spAttr (2 ^ k))) (l.map f) = ((FL.updateDegreeOne rnd rg g l).1.map f (spAttr (2 ^ k)), (FL.updateDegreeOne rnd rg g l).2.map f) := by
  have hfold : ∀ (m : ℝ) (nodes : List V) (g : NxGraph V (ℝ × ℝ)), (nodes.map f).foldl (fun h node => FL.updateNeighbourWeights rnd node m h) (g.map f (spAttr (2 ^ k))) =
      (nodes.foldl (fun h node => FL.updateNeighbourWeights rnd node m h) g).map f (spAttr (2 ^ k)) := by
    intro m nodes
    induction nodes with
    | nil => intro g; rfl
    | cons x nodes ih =>
      intro g
      rw [List.map_cons, List.foldl_cons, List.foldl_cons, fl_updateNeighbourWeights_map hr k hf]
      exact ih _
  have h1 : (rg.map f id).nodes.filter (fun node => decide ((rg.map f id).degree node = 1)) = (rg.nodes.filter fun node => decide (rg.degree node = 1)).map f :=
    filter_map_congr f fun x _ => by rw [NxGraph.degree_map hf]
  unfold FL.updateDegreeOne
  simp only [h1]
  have h2 : ∀ p q : List V, (p.map f).filter (fun x => decide (x ∉ q.map f)) = (p.filter fun x => decide (x ∉ q)).map f := fun p q =>
    filter_map_congr f fun x _ => by rw [NxGraph.mem_map_iff hf]
  simp only [h2, hfold]

theorem fl_updateWeights_map (v : SPVars V) : FL.updateWeights rnd (v.map f (2 ^ k)) = (FL.updateWeights rnd v).map f (2 ^ k) := by
  unfold FL.updateWeights
  have h1 := fl_updateHighDegree_map hr k hf v.rg v.work v.high 
  have h2 := fl_updateDegreeOne_map hr k hf v.rg (FL.updateHighDegree rnd v.rg (v.work, v.high)).1 v.one 
  simp only [SPVars.map, h1, h2]

include hL in
theorem fl_spStep_map {s s' : SPState V} (h : FL.SPStep L rnd s s') : FL.SPStep L rnd (s.map f (2 ^ k)) (s'.map f (2 ^ k)) := by
  cases h with
  | @finish v h => exact .finish (v := v.map f (2 ^ k)) (by simp [SPVars.map, h])
  | @newEnd v e todo h1 h2 =>
    have := FL.SPStep.newEnd (L := L) (rnd := rnd) (v := v.map f (2 ^ k)) (List.mem_map.2 ⟨e, h1, rfl⟩) (h2.map f)
    refine fl_spStep_to this ?_
    simp only [SPState.map, SPVars.map, SPState.forStart.injEq, SPVars.mk.injEq, true_and, and_true]
    exact removeAll_map (fun x => closedNeighbors_map hf _ _ _) _
  | @lastStart v e =>
    have := FL.SPStep.lastStart (L := L) (rnd := rnd) (v := v.map f (2 ^ k)) (endPos := f e)
    exact fl_spStep_to this (by simp [SPState.map, SPVars.map])
  | @start v e s todo h =>
    have hw := fl_updateWeights_map hr k hf v
    have := FL.SPStep.start (L := L) (rnd := rnd) (v := v.map f (2 ^ k)) (endPos := f e) (s := f s) (todo := todo.map f)
    rw [hw] at this
    have h' := this ((NxGraph.exists_path_map hf _).2 h)
    refine fl_spStep_to h' ?_
    simp only [SPState.map, SPState.forPath.injEq, true_and, and_true]
    refine ⟨rfl, ?_⟩
    rw [decide_eq_decide]
    exact NxGraph.exists_isPath_map hf _ (fun p => by rw [List.length_map])
  | @noPath v e s todo h =>
    refine FL.SPStep.noPath (v := v.map f (2 ^ k)) (endPos := f e) (s := f s) (todo := todo.map f) ?_
    rw [fl_updateWeights_map hr k hf v]
    exact fun h' => h ((NxGraph.exists_path_map hf _).1 h')
  | @lastPath v e todo s tmp single n h =>
    refine FL.SPStep.lastPath ?_
    rcases h with h | h | h
    · exact .inl h
    · exact .inr (.inl h)
    · exact .inr (.inr fun h' => h ((NxGraph.exists_path_map hf _).1 h'))
  | @assertion v e todo s tmp single n path h1 h2 h0 h3 h4 h5 =>
    exact FL.SPStep.assertion h1 h2 ((NxGraph.exists_path_map hf _).2 h0) (hL h3) (fun h => h4 ((exists_nodesToRemove_map hf _ _ _ _ _).1 h)) h5
  | @path v e todo s tmp single n path h1 h2 h0 h3 h4 =>
    have := FL.SPStep.path (L := L) (rnd := rnd) (v := v.map f (2 ^ k)) (todo := todo.map f) h1 h2 ((NxGraph.exists_path_map hf _).2 h0) (hL h3) (h4.imp_left (exists_nodesToRemove_map hf v.work tmp s e path).2)
    refine fl_spStep_to this ?_
    simp only [SPState.map, SPVars.map, SPState.forPath.injEq, SPVars.mk.injEq, true_and, and_true]
    refine ⟨⟨zeroWeights_map hf _ _, removeAll_map (fun x => newNeighbours_map hf _ _ _) _, ?_⟩, ?_⟩
    · rw [pathEdges_map]
      exact addEdges_map hf _ _
    · rw [zeroWeights_map hf]
      exact NxGraph.removeNodes_map _ _ fun x => nodesToRemove_map hf _ _ _ _ _ _


omit hf in
theorem fl_initialWeights_map (fs : ℝ) (g : NxGraph V ℝ) : FL.initialWeights L rnd (2 ^ k * fs) (g.map f (2 ^ k * ·)) = (FL.initialWeights L rnd fs g).map f (spAttr (2 ^ k)) := by
  unfold FL.initialWeights NxGraph.map
  simp only [List.map_map, NxGraph.mk.injEq, true_and]
  refine List.map_congr_left fun e _ => ?_
  simp only [Function.comp_apply, spAttr, mul_div_mul_left _ _ (two_zpow_pos k).ne', mul_assoc, hr k]

include hL in
theorem fl_spRun_map {fs : ℝ} {g : NxGraph V ℝ} {n : ℕ} {s : SPState V} (h : FL.SPRun L rnd fs g n s) : FL.SPRun L rnd (2 ^ k * fs) (g.map f (2 ^ k * ·)) n (s.map f (2 ^ k)) := by
  induction h with
  | init h =>
    refine .init ?_
    cases h with
    | empty h => exact .empty (by simp [NxGraph.map, h])
    | @first x hx =>
      have := FL.SPInit.first (L := L) (rnd := rnd) (fs := 2 ^ k * fs) (g := g.map f (2 ^ k * ·)) (List.mem_map.2 ⟨x, hx, rfl⟩)
      rw [fl_initialWeights_map hr k] at this
      have hc : removeAll (g.map f (2 ^ k * ·)).nodes (closedNeighbors ((FL.initialWeights L rnd fs g).map f (spAttr (2 ^ k))) (f x)) =
          (removeAll g.nodes (closedNeighbors (FL.initialWeights L rnd fs g) x)).map f := removeAll_map (fun x => closedNeighbors_map hf _ _ _) _
      rw [hc] at this
      exact this
  | step _ hs ih => exact .step ih (fl_spStep_map hr k hf hL hs)

end

end NF
