import Verif.Model.Identify
import Verif.Spec.Graph

/-! # Lemmas: graphs whose nodes are renamed by an injective function -/

noncomputable section
open Classical

namespace NF
variable {V W A B : Type}

/-- The graph with the nodes renamed by `f` and the attributes of the edges changed by `k`. -/
def NxGraph.map (f : V → W) (k : A → B) (g : NxGraph V A) : NxGraph W B := ⟨g.nodes.map f, g.edges.map fun e => (f e.1, f e.2.1, k e.2.2)⟩

theorem filter_map_congr {α β : Type} (f : α → β) {p : β → Prop} {q : α → Prop} {_ : DecidablePred p} {_ : DecidablePred q} {l : List α} (h : ∀ x ∈ l, p (f x) ↔ q x) :
    (l.map f).filter (fun y => decide (p y)) = (l.filter fun x => decide (q x)).map f := by
  rw [List.filter_map]
  congr 1
  refine List.filter_congr fun x hx => ?_
  simp only [Function.comp_apply, decide_eq_decide]
  exact h x hx

namespace NxGraph
variable {f : V → W} (hf : Function.Injective f) (k : A → B)
include hf

theorem joins_map {e : V × V × A} {x y : V} : joins (f e.1, f e.2.1, k e.2.2) (f x) (f y) ↔ joins e x y := by
  simp [joins, hf.eq_iff]

theorem hasEdge_map {g : NxGraph V A} {x y : V} : (g.map f k).hasEdge (f x) (f y) ↔ g.hasEdge x y := by
  constructor
  · rintro ⟨e, he, hj⟩
    obtain ⟨e', he', rfl⟩ := List.mem_map.1 he
    exact ⟨e', he', (joins_map hf k).1 hj⟩
  · rintro ⟨e, he, hj⟩
    exact ⟨_, List.mem_map.2 ⟨e, he, rfl⟩, (joins_map hf k).2 hj⟩

theorem mem_map_iff {x : V} {l : List V} : f x ∈ l.map f ↔ x ∈ l := by
  rw [List.mem_map]
  exact ⟨fun ⟨y, hy, e⟩ => hf e ▸ hy, fun h => ⟨x, h, rfl⟩⟩

omit hf in
theorem hasEdge_map_range {g : NxGraph V A} {x y : W} (h : (g.map f k).hasEdge x y) : ∃ a b, x = f a ∧ y = f b ∧ g.hasEdge a b := by
  obtain ⟨e, he, hj⟩ := h
  obtain ⟨e', he', rfl⟩ := List.mem_map.1 he
  rcases hj with ⟨rfl, rfl⟩ | ⟨rfl, rfl⟩
  · exact ⟨_, _, rfl, rfl, e', he', .inl ⟨rfl, rfl⟩⟩
  · exact ⟨_, _, rfl, rfl, e', he', .inr ⟨rfl, rfl⟩⟩

theorem neighbors_map (g : NxGraph V A) (x : V) : (g.map f k).neighbors (f x) = (g.neighbors x).map f := by
  unfold neighbors NxGraph.map
  simp only [List.filterMap_map, List.map_filterMap]
  congr 1
  funext e
  simp only [Function.comp_apply, hf.eq_iff]
  split_ifs <;> rfl

theorem degree_map (g : NxGraph V A) (x : V) : (g.map f k).degree (f x) = g.degree x := by
  simp [degree, neighbors_map hf k]

theorem addNode_map (g : NxGraph V A) (x : V) : (g.map f k).addNode (f x) = (g.addNode x).map f k := by
  unfold addNode
  have : f x ∈ (g.map f k).nodes ↔ x ∈ g.nodes := mem_map_iff hf
  rw [if_congr this rfl rfl]
  split_ifs
  · rfl
  · simp [NxGraph.map]

theorem updateEdge_map (g : NxGraph V A) (x y : V) {upd : A → A} {upd' : B → B} (hu : ∀ a, k (upd a) = upd' (k a)) :
    (g.map f k).updateEdge (f x) (f y) upd' = (g.updateEdge x y upd).map f k := by
  unfold updateEdge NxGraph.map
  simp only [List.map_map, mk.injEq, true_and]
  refine List.map_congr_left fun e _ => ?_
  have := joins_map hf k (e := e) (x := x) (y := y)
  simp only [Function.comp_apply]
  by_cases h : joins e x y
  · rw [if_pos h, if_pos (this.2 h), hu]
  · rw [if_neg h, if_neg fun h' => h (this.1 h')]

theorem addEdge_map (g : NxGraph V A) (x y : V) (a : A) : (g.map f k).addEdge (f x) (f y) (k a) = (g.addEdge x y a).map f k := by
  unfold addEdge
  simp only [addNode_map hf k, hasEdge_map hf k]
  split_ifs with h
  · exact updateEdge_map hf k _ x y (upd := fun _ => a) (upd' := fun _ => k a) fun _ => rfl
  · simp [NxGraph.map]

theorem removeEdge_map (g : NxGraph V A) (x y : V) : (g.map f k).removeEdge (f x) (f y) = (g.removeEdge x y).map f k := by
  unfold removeEdge NxGraph.map
  simp only [mk.injEq, true_and]
  exact filter_map_congr (fun e : V × V × A => (f e.1, f e.2.1, k e.2.2)) (p := fun e => ¬ joins e (f x) (f y)) (q := fun e => ¬ joins e x y) fun e _ => not_congr (joins_map hf k)

omit hf in
theorem subgraph_map (g : NxGraph V A) {s : V → Prop} {s' : W → Prop} (h : ∀ x, s' (f x) ↔ s x) : (g.map f k).subgraph s' = (g.subgraph s).map f k := by
  unfold subgraph NxGraph.map
  simp only [mk.injEq]
  exact ⟨filter_map_congr f (p := s') (q := s) fun x _ => h x,
    filter_map_congr (fun e : V × V × A => (f e.1, f e.2.1, k e.2.2)) (p := fun e => s' e.1 ∧ s' e.2.1) (q := fun e => s e.1 ∧ s e.2.1) fun e _ => and_congr (h _) (h _)⟩

omit hf in
theorem removeNodes_map (g : NxGraph V A) {s : V → Prop} {s' : W → Prop} (h : ∀ x, s' (f x) ↔ s x) : (g.map f k).removeNodes s' = (g.removeNodes s).map f k :=
  subgraph_map k g fun x => not_congr (h x)

theorem bfsPass_map (g : NxGraph V A) (seen level : List V) :
    (g.map f k).bfsPass (seen.map f) (level.map f) = ((g.bfsPass seen level).1.map f, (g.bfsPass seen level).2.map f) := by
  unfold bfsPass
  suffices h : ∀ s : List V × List V, (level.map f).foldl (fun s v => if v ∈ s.1 then s else (s.1 ++ [v], s.2 ++ (g.map f k).neighbors v)) (s.1.map f, s.2.map f) =
      ((level.foldl (fun s v => if v ∈ s.1 then s else (s.1 ++ [v], s.2 ++ g.neighbors v)) s).1.map f, (level.foldl (fun s v => if v ∈ s.1 then s else (s.1 ++ [v], s.2 ++ g.neighbors v)) s).2.map f) from
    h (seen, [])
  induction level with
  | nil => intro s; rfl
  | cons v level ih =>
    intro s
    rw [List.map_cons, List.foldl_cons, List.foldl_cons]
    have : (if f v ∈ s.1.map f then (s.1.map f, s.2.map f) else (s.1.map f ++ [f v], s.2.map f ++ (g.map f k).neighbors (f v))) =
        ((if v ∈ s.1 then s else (s.1 ++ [v], s.2 ++ g.neighbors v)).1.map f, (if v ∈ s.1 then s else (s.1 ++ [v], s.2 ++ g.neighbors v)).2.map f) := by
      rw [if_congr (mem_map_iff hf) rfl rfl, neighbors_map hf k]
      split_ifs <;> simp
    rw [this]
    exact ih _

theorem bfsLoop_map (g : NxGraph V A) (n : ℕ) (seen level : List V) : bfsLoop (g.map f k) n (seen.map f) (level.map f) = (bfsLoop g n seen level).map f := by
  induction n generalizing seen level with
  | zero => rfl
  | succ n ih =>
    cases level with
    | nil => rfl
    | cons v level =>
      rw [List.map_cons, bfsLoop, bfsLoop, ← List.map_cons, bfsPass_map hf k, ih]

theorem bfs_map (g : NxGraph V A) (x : V) : (g.map f k).bfs (f x) = (g.bfs x).map f := by
  unfold bfs
  have := bfsLoop_map hf k g (g.nodes.length + 2) [] [x]
  simpa [NxGraph.map] using this

theorem componentsLoop_map (g : NxGraph V A) (seen l : List V) : componentsLoop (g.map f k) (seen.map f) (l.map f) = (componentsLoop g seen l).map fun c => c.map f := by
  induction l generalizing seen with
  | nil => rfl
  | cons v l ih =>
    rw [List.map_cons, componentsLoop, componentsLoop, if_congr (mem_map_iff hf) rfl rfl, bfs_map hf k, ← List.map_append, ih, ih]
    split_ifs <;> rfl

theorem connectedComponents_map (g : NxGraph V A) : (g.map f k).connectedComponents = g.connectedComponents.map fun c => c.map f :=
  componentsLoop_map hf k g [] g.nodes

theorem isDominatingSet_map (g : NxGraph V A) {s : V → Prop} {s' : W → Prop} (h : ∀ x, s' (f x) ↔ s x) : (g.map f k).isDominatingSet s' ↔ g.isDominatingSet s := by
  unfold isDominatingSet
  constructor
  · intro hd x hx hs
    obtain ⟨y, hy, hsy⟩ := hd (f x) (List.mem_map.2 ⟨x, hx, rfl⟩) (fun h' => hs ((h x).1 h'))
    rw [neighbors_map hf k] at hy
    obtain ⟨z, hz, rfl⟩ := List.mem_map.1 hy
    exact ⟨z, hz, (h z).1 hsy⟩
  · intro hd x hx hs
    obtain ⟨y, hy, rfl⟩ := List.mem_map.1 hx
    obtain ⟨z, hz, hsz⟩ := hd y hy fun h' => hs ((h y).2 h')
    exact ⟨f z, by rw [neighbors_map hf k]; exact List.mem_map.2 ⟨z, hz, rfl⟩, (h z).2 hsz⟩

theorem find_map (g : NxGraph V A) (x y : V) : (g.map f k).edges.find? (fun e => decide (joins e (f x) (f y))) = (g.edges.find? fun e => decide (joins e x y)).map fun e => (f e.1, f e.2.1, k e.2.2) := by
  show (g.edges.map _).find? _ = _
  rw [List.find?_map]
  congr 2
  funext e
  simp only [Function.comp_apply, decide_eq_decide]
  exact joins_map hf k

omit hf in
theorem strip_map (g : NxGraph V A) : (g.map f k).strip = g.strip.map f id := by
  simp [strip, NxGraph.map, Function.comp_def]

omit hf in
theorem map_empty : (empty : NxGraph V A).map f k = empty := rfl

/-! ### Paths -/

theorem isPath_map {g : NxGraph V A} {s t : V} {p : List V} : (g.map f k).IsPath (f s) (f t) (p.map f) ↔ g.IsPath s t p := by
  constructor
  · rintro ⟨h1, h2, h3, h4⟩
    refine ⟨?_, ?_, ?_, ?_⟩
    · rw [List.head?_map] at h1
      exact Option.map_injective hf h1
    · rw [List.getLast?_map] at h2
      exact Option.map_injective hf h2
    · rw [List.isChain_map] at h3
      exact h3.imp fun a b h => (hasEdge_map hf k).1 h
    · exact (List.nodup_map_iff hf).1 h4
  · rintro ⟨h1, h2, h3, h4⟩
    refine ⟨by rw [List.head?_map, h1]; rfl, by rw [List.getLast?_map, h2]; rfl, ?_, (List.nodup_map_iff hf).2 h4⟩
    rw [List.isChain_map]
    exact h3.imp fun a b h => (hasEdge_map hf k).2 h

omit hf in
theorem isPath_map_range {g : NxGraph V A} {s : V} {t : W} {p : List W} (h : (g.map f k).IsPath (f s) t p) : ∃ q : List V, p = q.map f := by
  have key : ∀ (p : List W) (s : V), p.head? = some (f s) → p.IsChain (g.map f k).hasEdge → ∃ q : List V, p = q.map f := by
    intro p
    induction p with
    | nil => intro s h; cases h
    | cons x p ih =>
      intro s hx hc
      cases hx
      cases p with
      | nil => exact ⟨[s], rfl⟩
      | cons y p =>
        rw [List.isChain_cons_cons] at hc
        obtain ⟨_, b, -, rfl, -⟩ := hasEdge_map_range k hc.1
        obtain ⟨q, e⟩ := ih b rfl hc.2
        exact ⟨s :: q, by rw [List.map_cons, ← e]⟩
  exact key p s h.head h.chain

theorem exists_isPath_map {g : NxGraph V A} {s t : V} {P : List W → Prop} {Q : List V → Prop} (h : ∀ p, P (p.map f) ↔ Q p) : (∃ p, (g.map f k).IsPath (f s) (f t) p ∧ P p) ↔ ∃ p, g.IsPath s t p ∧ Q p := by
  constructor
  · rintro ⟨p, hp, hP⟩
    obtain ⟨q, rfl⟩ := isPath_map_range k hp
    exact ⟨q, (isPath_map hf k).1 hp, (h q).1 hP⟩
  · rintro ⟨p, hp, hQ⟩
    exact ⟨_, (isPath_map hf k).2 hp, (h p).2 hQ⟩

theorem exists_path_map {g : NxGraph V A} {s t : V} : (∃ p, (g.map f k).IsPath (f s) (f t) p) ↔ ∃ p, g.IsPath s t p := by
  have := exists_isPath_map hf k (g := g) (s := s) (t := t) (P := fun _ => True) (Q := fun _ => True) fun _ => Iff.rfl
  simpa using this

end NxGraph

theorem pathEdges_map (f : V → W) (p : List V) : pathEdges (p.map f) = (pathEdges p).map fun e => (f e.1, f e.2) := by
  unfold pathEdges
  rw [← List.map_tail, List.zip_map]
  rfl

theorem createDegreeCount_map {f : V → W} (hf : Function.Injective f) (k : A → B) (g : NxGraph V A) : createDegreeCount (g.map f k) = createDegreeCount g := by
  unfold createDegreeCount
  congr 2
  show (g.nodes.map f).map _ = _
  rw [List.map_map]
  exact List.map_congr_left fun x _ => by simp [NxGraph.degree_map hf k]

end NF
