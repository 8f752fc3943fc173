import Verif.Lemmas.GraphMap

/-! # Lemmas: the shortest-path method, with renamed nodes and another unit of length -/

noncomputable section
open Classical

namespace NF
variable {V W : Type}

/-- The attributes of an edge in the unit `1 / a`. -/
def spAttr (a : ℝ) (p : ℝ × ℝ) : ℝ × ℝ := (a * p.1, a * p.2)

def SPVars.map (f : V → W) (a : ℝ) (v : SPVars V) : SPVars W :=
  ⟨v.work.map f (spAttr a), v.cand.map f, v.starts.map f, v.rg.map f id, v.high.map f, v.one.map f⟩

def SPState.map (f : V → W) (a : ℝ) : SPState V → SPState W
  | .head v => .head (v.map f a)
  | .forStart v e todo => .forStart (v.map f a) (f e) (todo.map f)
  | .forPath v e todo s tmp single n => .forPath (v.map f a) (f e) (todo.map f) (f s) (tmp.map f (spAttr a)) single n
  | .done rg => .done (rg.map f id)
  | .error e => .error e

theorem spStep_to {s t t' : SPState V} (h : SPStep s t) (e : t = t') : SPStep s t' := e ▸ h

section
variable {f : V → W} (hf : Function.Injective f) {a : ℝ} (ha : 0 < a)
include hf

theorem edgeWeight_map (g : NxGraph V (ℝ × ℝ)) (x y : V) : edgeWeight (g.map f (spAttr a)) (f x) (f y) = a * edgeWeight g x y := by
  unfold edgeWeight
  rw [NxGraph.find_map hf]
  cases g.edges.find? fun e => decide (NxGraph.joins e x y) with
  | none => simp
  | some e => rfl

theorem pathWeight_map (g : NxGraph V (ℝ × ℝ)) (p : List V) : pathWeight (g.map f (spAttr a)) (p.map f) = a * pathWeight g p := by
  unfold pathWeight
  rw [pathEdges_map, List.map_map, ← List.sum_map_mul_left]
  congr 1
  exact List.map_congr_left fun e _ => edgeWeight_map hf g e.1 e.2

include ha in
theorem isShortestPath_map {g : NxGraph V (ℝ × ℝ)} {s t : V} {p : List V} (h : IsShortestPath g s t p) : IsShortestPath (g.map f (spAttr a)) (f s) (f t) (p.map f) := by
  refine ⟨(NxGraph.isPath_map hf _).2 h.1, fun q hq => ?_⟩
  obtain ⟨q, rfl⟩ := NxGraph.isPath_map_range _ hq
  rw [pathWeight_map hf, pathWeight_map hf]
  exact mul_le_mul_of_nonneg_left (h.2 q ((NxGraph.isPath_map hf _).1 hq)) ha.le

theorem closedNeighbors_map {A B : Type} {k : A → B} (g : NxGraph V A) (x y : V) : closedNeighbors (g.map f k) (f x) (f y) ↔ closedNeighbors g x y := by
  unfold closedNeighbors
  rw [NxGraph.neighbors_map hf, NxGraph.mem_map_iff hf, hf.eq_iff]

omit hf in
theorem removeAll_map {s : V → Prop} {s' : W → Prop} (h : ∀ x, s' (f x) ↔ s x) (l : List V) : removeAll (l.map f) s' = (removeAll l s).map f :=
  filter_map_congr f fun x _ => not_congr (h x)

theorem updateNeighbourWeights_map (g : NxGraph V (ℝ × ℝ)) (x : V) (m : ℝ) : updateNeighbourWeights (f x) m (g.map f (spAttr a)) = (updateNeighbourWeights x m g).map f (spAttr a) := by
  unfold updateNeighbourWeights
  rw [NxGraph.neighbors_map hf]
  generalize g.neighbors x = l
  induction l generalizing g with
  | nil => rfl
  | cons y l ih =>
    rw [List.map_cons, List.foldl_cons, List.foldl_cons, NxGraph.updateEdge_map hf (spAttr a) g x y (upd := fun b => (b.1, b.2 * m))]
    · exact ih _
    · intro b; simp [spAttr, mul_assoc]

theorem updateHighDegree_map (rg : NxGraph V Unit) (g : NxGraph V (ℝ × ℝ)) (l : List V) :
    updateHighDegree (rg.map f id) (g.map f (spAttr a), l.map f) = ((updateHighDegree rg (g, l)).1.map f (spAttr a), (updateHighDegree rg (g, l)).2.map f) := by
  unfold updateHighDegree
  have : ∀ (nodes : List V) (g : NxGraph V (ℝ × ℝ)) (l : List V),
      (nodes.map f).foldl (fun gh node => if (rg.map f id).degree node > 2 ∧ node ∉ gh.2 then (updateNeighbourWeights node 0.5 gh.1, gh.2 ++ [node]) else gh) (g.map f (spAttr a), l.map f) =
      ((nodes.foldl (fun gh node => if rg.degree node > 2 ∧ node ∉ gh.2 then (updateNeighbourWeights node 0.5 gh.1, gh.2 ++ [node]) else gh) (g, l)).1.map f (spAttr a),
       (nodes.foldl (fun gh node => if rg.degree node > 2 ∧ node ∉ gh.2 then (updateNeighbourWeights node 0.5 gh.1, gh.2 ++ [node]) else gh) (g, l)).2.map f) := by
    intro nodes
    induction nodes with
    | nil => intro g l; rfl
    | cons x nodes ih =>
      intro g l
      rw [List.map_cons, List.foldl_cons, List.foldl_cons]
      have hx : ((rg.map f id).degree (f x) > 2 ∧ f x ∉ l.map f) ↔ (rg.degree x > 2 ∧ x ∉ l) := by rw [NxGraph.degree_map hf, NxGraph.mem_map_iff hf]
      by_cases h : rg.degree x > 2 ∧ x ∉ l
      · rw [if_pos h, if_pos (hx.2 h)]
        have := ih (updateNeighbourWeights x 0.5 g) (l ++ [x])
        rw [List.map_append, ← updateNeighbourWeights_map hf] at this
        exact this
      · rw [if_neg h, if_neg fun h' => h (hx.1 h')]
        exact ih _ _
  exact this rg.nodes g l

theorem updateDegreeOne_map (rg : NxGraph V Unit) (g : NxGraph V (ℝ × ℝ)) (l : List V) :
    updateDegreeOne (rg.map f id) (g.map f (spAttr a)) (l.map f) = ((updateDegreeOne rg g l).1.map f (spAttr a), (updateDegreeOne rg g l).2.map f) := by
  have hfold : ∀ (m : ℝ) (nodes : List V) (g : NxGraph V (ℝ × ℝ)), (nodes.map f).foldl (fun h node => updateNeighbourWeights node m h) (g.map f (spAttr a)) =
      (nodes.foldl (fun h node => updateNeighbourWeights node m h) g).map f (spAttr a) := by
    intro m nodes
    induction nodes with
    | nil => intro g; rfl
    | cons x nodes ih =>
      intro g
      rw [List.map_cons, List.foldl_cons, List.foldl_cons, updateNeighbourWeights_map hf]
      exact ih _
  have h1 : (rg.map f id).nodes.filter (fun node => decide ((rg.map f id).degree node = 1)) = (rg.nodes.filter fun node => decide (rg.degree node = 1)).map f :=
    filter_map_congr f fun x _ => by rw [NxGraph.degree_map hf]
  unfold updateDegreeOne
  simp only [h1]
  have h2 : ∀ p q : List V, (p.map f).filter (fun x => decide (x ∉ q.map f)) = (p.filter fun x => decide (x ∉ q)).map f := fun p q =>
    filter_map_congr f fun x _ => by rw [NxGraph.mem_map_iff hf]
  simp only [h2, hfold]

theorem updateWeights_map (v : SPVars V) : updateWeights (v.map f a) = (updateWeights v).map f a := by
  unfold updateWeights
  have h1 := updateHighDegree_map hf v.rg v.work v.high (a := a)
  have h2 := updateDegreeOne_map hf v.rg (updateHighDegree v.rg (v.work, v.high)).1 v.one (a := a)
  simp only [SPVars.map, h1, h2]

theorem newNeighbours_map (tmp : NxGraph V (ℝ × ℝ)) (path : List V) (x : V) : newNeighbours (tmp.map f (spAttr a)) (path.map f) (f x) ↔ newNeighbours tmp path x := by
  unfold newNeighbours
  constructor
  · rintro ⟨y, hy, h⟩
    obtain ⟨z, hz, rfl⟩ := List.mem_map.1 hy
    exact ⟨z, hz, (closedNeighbors_map hf _ _ _).1 h⟩
  · rintro ⟨z, hz, h⟩
    exact ⟨f z, List.mem_map.2 ⟨z, hz, rfl⟩, (closedNeighbors_map hf _ _ _).2 h⟩

theorem nodesToRemove_map (work tmp : NxGraph V (ℝ × ℝ)) (s e : V) (path : List V) (x : V) :
    nodesToRemove (work.map f (spAttr a)) (tmp.map f (spAttr a)) (f s) (f e) (path.map f) (f x) ↔ nodesToRemove work tmp s e path x := by
  unfold nodesToRemove
  rw [newNeighbours_map hf, closedNeighbors_map hf, closedNeighbors_map hf]

omit hf in
theorem newNeighbours_range {tmp : NxGraph V (ℝ × ℝ)} {path : List V} {x : W} (h : newNeighbours (tmp.map f (spAttr a)) (path.map f) x) : ∃ y, x = f y := by
  obtain ⟨z, hz, h⟩ := h
  obtain ⟨z, hz, rfl⟩ := List.mem_map.1 hz
  rcases h with rfl | h
  · exact ⟨z, rfl⟩
  · unfold NxGraph.neighbors at h
    obtain ⟨e, he, h⟩ := List.mem_filterMap.1 h
    obtain ⟨e, -, rfl⟩ := List.mem_map.1 he
    dsimp only at h
    split_ifs at h
    · exact ⟨e.2.1, (Option.some.inj h).symm⟩
    · exact ⟨e.1, (Option.some.inj h).symm⟩

theorem exists_nodesToRemove_map (work tmp : NxGraph V (ℝ × ℝ)) (s e : V) (path : List V) :
    (∃ x, nodesToRemove (work.map f (spAttr a)) (tmp.map f (spAttr a)) (f s) (f e) (path.map f) x) ↔ ∃ x, nodesToRemove work tmp s e path x := by
  constructor
  · rintro ⟨x, h⟩
    obtain ⟨y, rfl⟩ := newNeighbours_range h.1
    exact ⟨y, (nodesToRemove_map hf _ _ _ _ _ _).1 h⟩
  · rintro ⟨x, h⟩
    exact ⟨f x, (nodesToRemove_map hf _ _ _ _ _ _).2 h⟩

theorem zeroWeights_map (g : NxGraph V (ℝ × ℝ)) (path : List V) : zeroWeights (g.map f (spAttr a)) (path.map f) = (zeroWeights g path).map f (spAttr a) := by
  unfold zeroWeights
  rw [pathEdges_map]
  generalize pathEdges path = l
  induction l generalizing g with
  | nil => rfl
  | cons e l ih =>
    rw [List.map_cons, List.foldl_cons, List.foldl_cons, NxGraph.updateEdge_map hf (spAttr a) g e.1 e.2 (upd := fun b => (b.1, 0))]
    · exact ih _
    · intro b; simp [spAttr]

theorem addEdges_map (rg : NxGraph V Unit) (l : List (V × V)) :
    (l.map fun e => (f e.1, f e.2)).foldl (fun h e => h.addEdge e.1 e.2 ()) (rg.map f id) = (l.foldl (fun h e => h.addEdge e.1 e.2 ()) rg).map f id := by
  induction l generalizing rg with
  | nil => rfl
  | cons e l ih =>
    rw [List.map_cons, List.foldl_cons, List.foldl_cons]
    have := NxGraph.addEdge_map hf (id : Unit → Unit) rg e.1 e.2 ()
    rw [show (rg.map f id).addEdge (f e.1) (f e.2) () = (rg.addEdge e.1 e.2 ()).map f id from this]
    exact ih _

include ha in
theorem spStep_map {s s' : SPState V} (h : SPStep s s') : SPStep (s.map f a) (s'.map f a) := by
  cases h with
  | @finish v h => exact .finish (v := v.map f a) (by simp [SPVars.map, h])
  | @newEnd v e todo h1 h2 =>
    have := SPStep.newEnd (v := v.map f a) (List.mem_map.2 ⟨e, h1, rfl⟩) (h2.map f)
    refine spStep_to this ?_
    simp only [SPState.map, SPVars.map, SPState.forStart.injEq, SPVars.mk.injEq, true_and, and_true]
    exact removeAll_map (fun x => closedNeighbors_map hf _ _ _) _
  | @lastStart v e =>
    have := SPStep.lastStart (v := v.map f a) (endPos := f e)
    exact spStep_to this (by simp [SPState.map, SPVars.map])
  | @start v e s todo h =>
    have hw := updateWeights_map hf v (a := a)
    have := SPStep.start (v := v.map f a) (endPos := f e) (s := f s) (todo := todo.map f)
    rw [hw] at this
    have h' := this ((NxGraph.exists_path_map hf _).2 h)
    refine spStep_to h' ?_
    simp only [SPState.map, SPState.forPath.injEq, true_and, and_true]
    refine ⟨rfl, ?_⟩
    rw [decide_eq_decide]
    exact NxGraph.exists_isPath_map hf _ (fun p => by rw [List.length_map])
  | @noPath v e s todo h =>
    refine SPStep.noPath (v := v.map f a) (endPos := f e) (s := f s) (todo := todo.map f) ?_
    rw [updateWeights_map hf v]
    exact fun h' => h ((NxGraph.exists_path_map hf _).1 h')
  | @lastPath v e todo s tmp single n h =>
    refine SPStep.lastPath ?_
    rcases h with h | h | h
    · exact .inl h
    · exact .inr (.inl h)
    · exact .inr (.inr fun h' => h ((NxGraph.exists_path_map hf _).1 h'))
  | @assertion v e todo s tmp single n path h1 h2 h3 h4 h5 =>
    exact SPStep.assertion h1 h2 (isShortestPath_map hf ha h3) (fun h => h4 ((exists_nodesToRemove_map hf _ _ _ _ _).1 h)) h5
  | @path v e todo s tmp single n path h1 h2 h3 h4 =>
    have := SPStep.path (v := v.map f a) (todo := todo.map f) h1 h2 (isShortestPath_map hf ha h3) (h4.imp_left (exists_nodesToRemove_map hf v.work tmp s e path).2)
    refine spStep_to this ?_
    simp only [SPState.map, SPVars.map, SPState.forPath.injEq, SPVars.mk.injEq, true_and, and_true]
    refine ⟨⟨zeroWeights_map hf _ _, removeAll_map (fun x => newNeighbours_map hf _ _ _) _, ?_⟩, ?_⟩
    · rw [pathEdges_map]
      exact addEdges_map hf _ _
    · rw [zeroWeights_map hf]
      exact NxGraph.removeNodes_map _ _ fun x => nodesToRemove_map hf _ _ _ _ _ _

omit hf in
include ha in
theorem initialWeights_map (fs : ℝ) (g : NxGraph V ℝ) : initialWeights (a * fs) (g.map f (a * ·)) = (initialWeights fs g).map f (spAttr a) := by
  unfold initialWeights NxGraph.map
  simp only [List.map_map, NxGraph.mk.injEq, true_and]
  refine List.map_congr_left fun e _ => ?_
  simp only [Function.comp_apply, spAttr, mul_div_mul_left _ _ ha.ne', mul_assoc]

include ha in
theorem spRun_map {fs : ℝ} {g : NxGraph V ℝ} {n : ℕ} {s : SPState V} (h : SPRun fs g n s) : SPRun (a * fs) (g.map f (a * ·)) n (s.map f a) := by
  induction h with
  | init h =>
    refine .init ?_
    cases h with
    | empty h => exact .empty (by simp [NxGraph.map, h])
    | @first x hx =>
      have := SPInit.first (fs := a * fs) (g := g.map f (a * ·)) (List.mem_map.2 ⟨x, hx, rfl⟩)
      rw [initialWeights_map ha] at this
      have hc : removeAll (g.map f (a * ·)).nodes (closedNeighbors ((initialWeights fs g).map f (spAttr a)) (f x)) =
          (removeAll g.nodes (closedNeighbors (initialWeights fs g) x)).map f := removeAll_map (fun x => closedNeighbors_map hf _ _ _) _
      rw [hc] at this
      exact this
  | step _ hs ih => exact .step ih (spStep_map hf ha hs)

end

end NF
