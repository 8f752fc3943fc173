import Verif.Model.ShortestPath

/-!
# Model of `nodefinder/identify/_evaluate/_line/_dominating_set.py`

The positions are of any type `V`; `dist` is `coordinate_system.distance`.  Relations say which results are possible, as the order of sets and the choice between shortest paths of the same
length are arbitrary.
-/

noncomputable section
open Classical

namespace NF
variable {V A : Type}

/-- The attributes of an edge: the distance, and the weight, which an edge has only if `_weight` has been set. -/
structure DSAttr where
  dist : ℝ
  weight : Option ℝ

/-- `graph.edges[(x, y)]`; `none` if there is no such edge. -/
def NxGraph.attr? (g : NxGraph V A) (x y : V) : Option A := (g.edges.find? fun e => decide (NxGraph.joins e x y)).map fun e => e.2.2

/-- The total length of a path with the given length function of edges. -/
def pathLength (f : V → V → ℝ) (p : List V) : ℝ := ((pathEdges p).map fun e => f e.1 e.2).sum

/-- The length of an edge in `nx.algorithms.shortest_path(…, weight=_DISTANCE_KEY)` -/
def edgeDist (g : NxGraph V DSAttr) (x y : V) : ℝ := ((g.attr? x y).map DSAttr.dist).getD 0

/-- The length of an edge in `nx.algorithms.shortest_path(…, weight=_WEIGHT_KEY)`; networkx uses 1 if the attribute is missing. -/
def edgeW (g : NxGraph V DSAttr) (x y : V) : ℝ := ((g.attr? x y).bind DSAttr.weight).getD 1

/-- `nx.algorithms.shortest_path(g, s, t, weight=…)` can return `p`, with the given lengths of the edges. -/
def IsShortest (g : NxGraph V A) (f : V → V → ℝ) (s t : V) (p : List V) : Prop := g.IsPath s t p ∧ ∀ q, g.IsPath s t q → pathLength f p ≤ pathLength f q

/-- `nx.algorithms.shortest_path_length(g, s, t, weight=…)`; `none` models `NetworkXNoPath`. -/
def shortestLength (g : NxGraph V A) (f : V → V → ℝ) (s t : V) : Option ℝ := if h : ∃ p, IsShortest g f s t p then some (pathLength f h.choose) else none

/-- _dominating_set.py:27, 31-34: `graph_copy` with the weights. -/
def dsGraphCopy (g : NxGraph V ℝ) : NxGraph V DSAttr := ⟨g.nodes, g.edges.map fun e => (e.1, e.2.1, ⟨e.2.2, some (e.2.2 ^ 4)⟩)⟩

/-- _dominating_set.py:28-36: `graph_reduced_neighbours`.  `_DIST_CUTOFF_FACTOR` is 3 (search/_controller.py:29). -/
def dsReduced (fs : ℝ) (g : NxGraph V ℝ) : NxGraph V Unit :=
  ⟨g.nodes, (g.edges.filter fun e => decide (e.2.2 < fs / 3)).map fun e => (e.1, e.2.1, ())⟩

/-- `nx.algorithms.dominating_set(graph)`: the variables `dominating_set` and `remaining_nodes` in its loop. -/
inductive Greedy (g : NxGraph V Unit) : List V → List V → Prop
  | start {v} : v ∈ g.nodes → Greedy g [v] (g.nodes.filter fun x => decide (x ∉ g.neighbors v ∧ x ≠ v))
  | add {D rem v} : Greedy g D rem → v ∈ rem → Greedy g (D ++ [v]) (rem.filter fun x => decide (x ≠ v ∧ ¬ (x ∈ g.neighbors v ∧ x ∉ D)))

/-- _dominating_set.py:39: `graph.subgraph(dominating_set).copy()`, made from the original graph, whose edges have no weight. -/
def dsSubgraph (g : NxGraph V ℝ) (D : List V) : NxGraph V DSAttr :=
  let s := g.subgraph fun x => x ∈ D
  ⟨s.nodes, s.edges.map fun e => (e.1, e.2.1, ⟨e.2.2, none⟩)⟩

/-- `itertools.combinations(l, r=2)` -/
def pairs2 : List V → List (V × V)
  | [] => []
  | x :: l => l.map (fun y => (x, y)) ++ pairs2 l

/-- _dominating_set.py:75-91 for one pair of positions: the entry of `to_patch`, if any. -/
def patchEntry (sub graph : NxGraph V DSAttr) (dist : V → V → ℝ) (fs : ℝ) (a b : V) : Except Err (Option (V × V × ℝ)) :=
  if dist a b < 2 * fs then
    match shortestLength sub (edgeDist sub) a b with
    | none => .error .noPath
    | some distReduced =>
      if distReduced > max fs (1.001 * dist a b) then
        match shortestLength graph (edgeDist graph) a b with
        | none => .error .noPath
        | some distOriginal =>
          if distReduced > 1.001 * distOriginal ∧ distOriginal < 2 * fs then .ok (some (a, b, distOriginal)) else .ok none
      else .ok none
  else .ok none

/-- _dominating_set.py:70-91: `to_patch` -/
def toPatch (sub graph : NxGraph V DSAttr) (dist : V → V → ℝ) (fs : ℝ) : List (V × V) → Except Err (List (V × V × ℝ))
  | [] => .ok []
  | (a, b) :: rest => match patchEntry sub graph dist fs a b with
    | .error e => .error e
    | .ok o => match toPatch sub graph dist fs rest with
      | .error e => .error e
      | .ok l => .ok (o.toList ++ l)

/-- _dominating_set.py:109-119, `_patch_subgraph_hole`, with the shortest path `p`.  (The nodes of the path are also added by `add_edge`.) -/
def patchHole (sub graph : NxGraph V DSAttr) (p : List V) : NxGraph V DSAttr :=
  (pathEdges p).foldl (fun s e => match graph.attr? e.1 e.2 with
    | some a => s.addEdge e.1 e.2 a
    | none => s) (p.tail.dropLast.foldl (fun s x => s.addNode x) sub)

/-- _dominating_set.py:94-106: the loop over the sorted `to_patch`. -/
inductive PatchLoop (graph : NxGraph V DSAttr) : List (V × V × ℝ) → NxGraph V DSAttr → Except Err (NxGraph V DSAttr) → Prop
  | nil {sub} : PatchLoop graph [] sub (.ok sub)
  | noPath {sub a b o rest} : shortestLength sub (edgeDist sub) a b = none → PatchLoop graph ((a, b, o) :: rest) sub (.error .noPath)
  | skip {sub a b o rest r x} : shortestLength sub (edgeDist sub) a b = some x → ¬ x > 2 * o → PatchLoop graph rest sub r → PatchLoop graph ((a, b, o) :: rest) sub r
  | patch {sub a b o rest r x p} : shortestLength sub (edgeDist sub) a b = some x → x > 2 * o → IsShortest graph (edgeDist graph) a b p →
      PatchLoop graph rest (patchHole sub graph p) r → PatchLoop graph ((a, b, o) :: rest) sub r

/-- _dominating_set.py:129-133: the loop over the sorted edges. -/
inductive RemoveLoop : List (V × V) → NxGraph V DSAttr → NxGraph V DSAttr → Prop
  | nil {sub} : RemoveLoop [] sub sub
  | cons {sub x y rest p r} : IsShortest sub (edgeW sub) x y p → RemoveLoop rest (if p.length > 2 then sub.removeEdge x y else sub) r → RemoveLoop ((x, y) :: rest) sub r

/-- _dominating_set.py:122-133, `_remove_duplicate_paths`: `-e[2]` raises a `TypeError` if the edge has no weight. -/
inductive RemoveDuplicates (sub : NxGraph V DSAttr) : Except Err (NxGraph V DSAttr) → Prop
  | noWeight {e} : e ∈ sub.edges → e.2.2.weight = none → RemoveDuplicates sub (.error .type)
  | ok {sorted r} : (∀ e ∈ sub.edges, e.2.2.weight ≠ none) → List.Perm sorted sub.edges →
      sorted.Pairwise (fun e f => f.2.2.weight.getD 0 ≤ e.2.2.weight.getD 0) → RemoveLoop (sorted.map fun e => (e.1, e.2.1)) sub r → RemoveDuplicates sub (.ok r)

/-- _dominating_set.py:23-49, `_evaluate_line_dominating_set`, for a graph with at least one node: `r` is a possible result.  In line 93 the list is sorted by the original distance. -/
inductive EvalDominating (g : NxGraph V ℝ) (dist : V → V → ℝ) (fs : ℝ) : Except Err (NxGraph V DSAttr) → Prop
  | collect {D e} : Greedy (dsReduced fs g) D [] → toPatch (dsSubgraph g D) (dsGraphCopy g) dist fs (pairs2 (dsSubgraph g D).nodes) = .error e → EvalDominating g dist fs (.error e)
  | patch {D l sorted e} : Greedy (dsReduced fs g) D [] → toPatch (dsSubgraph g D) (dsGraphCopy g) dist fs (pairs2 (dsSubgraph g D).nodes) = .ok l →
      List.Perm sorted l → sorted.Pairwise (fun a b => a.2.2 ≤ b.2.2) → PatchLoop (dsGraphCopy g) sorted (dsSubgraph g D) (.error e) → EvalDominating g dist fs (.error e)
  | remove {D l sorted sub r} : Greedy (dsReduced fs g) D [] → toPatch (dsSubgraph g D) (dsGraphCopy g) dist fs (pairs2 (dsSubgraph g D).nodes) = .ok l →
      List.Perm sorted l → sorted.Pairwise (fun a b => a.2.2 ≤ b.2.2) → PatchLoop (dsGraphCopy g) sorted (dsSubgraph g D) (.ok sub) → RemoveDuplicates sub r → EvalDominating g dist fs r

end NF
