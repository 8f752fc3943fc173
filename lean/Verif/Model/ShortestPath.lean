import Verif.Model.Graph
import Mathlib.Data.List.Chain

/-!
# Model of `nodefinder/identify/_evaluate/_line/_shortest_path.py`

A transition system: one state is a point at the head of one of the three nested loops.  `set.pop` and the order in which sets are iterated over are arbitrary, and any path of
minimal weight can be found, so the successor state is not unique.  An edge of `work_graph` carries the pair of its distance and its weight.
-/

noncomputable section
open Classical

namespace NF
variable {V A : Type}

/-- `p` is a path from `s` to `t` in the graph: the list of its nodes, all different. -/
structure NxGraph.IsPath (g : NxGraph V A) (s t : V) (p : List V) : Prop where
  head : p.head? = some s
  last : p.getLast? = some t
  chain : p.IsChain g.hasEdge
  nodup : p.Nodup

/-- The edges of a path: `zip(path, path[1:])` -/
def pathEdges (p : List V) : List (V × V) := p.zip p.tail

/-- `graph.edges[(x, y)]` of an existing edge, changed by `upd`. -/
def NxGraph.updateEdge (g : NxGraph V A) (x y : V) (upd : A → A) : NxGraph V A :=
  { g with edges := g.edges.map fun e => if NxGraph.joins e x y then (e.1, e.2.1, upd e.2.2) else e }

/-- The weight of the edge between `x` and `y`.  (Used for existing edges only.) -/
def edgeWeight (g : NxGraph V (ℝ × ℝ)) (x y : V) : ℝ :=
  match g.edges.find? (fun e => decide (NxGraph.joins e x y)) with
  | some e => e.2.2.2
  | none => 0

/-- The total weight of a path. -/
def pathWeight (g : NxGraph V (ℝ × ℝ)) (p : List V) : ℝ := ((pathEdges p).map fun e => edgeWeight g e.1 e.2).sum

/-- `nx.algorithms.shortest_path(graph, source=s, target=t, weight='_weight')` can return `p`.  (All weights are non-negative.) -/
def IsShortestPath (g : NxGraph V (ℝ × ℝ)) (s t : V) (p : List V) : Prop :=
  g.IsPath s t p ∧ ∀ q, g.IsPath s t q → pathWeight g p ≤ pathWeight g q

/-- _shortest_path.py:26-33: `work_graph` with the initial weights. -/
def initialWeights (fs : ℝ) (g : NxGraph V ℝ) : NxGraph V (ℝ × ℝ) :=
  ⟨g.nodes, g.edges.map fun e => (e.1, e.2.1, e.2.2, fs * (e.2.2 / fs + (e.2.2 / fs) ^ 2))⟩

/-- _shortest_path.py:159-161, `_update_neighbour_weights` -/
def updateNeighbourWeights (node : V) (multiplier : ℝ) (g : NxGraph V (ℝ × ℝ)) : NxGraph V (ℝ × ℝ) :=
  (g.neighbors node).foldl (fun h nbr => h.updateEdge node nbr fun a => (a.1, a.2 * multiplier)) g

/-- _shortest_path.py:129-137, `_update_high_degree_nodes`: the new graph and `high_degree_nodes`. -/
def updateHighDegree (rg : NxGraph V Unit) (gh : NxGraph V (ℝ × ℝ) × List V) : NxGraph V (ℝ × ℝ) × List V :=
  rg.nodes.foldl (fun gh node => if rg.degree node > 2 ∧ node ∉ gh.2 then (updateNeighbourWeights node 0.5 gh.1, gh.2 ++ [node]) else gh) gh

/-- _shortest_path.py:140-156, `_update_degree_one_nodes`: the new graph and `degree_one_nodes`.  (The order of the multiplications does not matter.) -/
def updateDegreeOne (rg : NxGraph V Unit) (g : NxGraph V (ℝ × ℝ)) (one : List V) : NxGraph V (ℝ × ℝ) × List V :=
  let current := rg.nodes.filter fun node => decide (rg.degree node = 1)
  let newNodes := current.filter fun x => decide (x ∉ one)
  let outdated := one.filter fun x => decide (x ∉ current)
  let g1 := newNodes.foldl (fun h node => updateNeighbourWeights node 0.1 h) g
  (outdated.foldl (fun h node => updateNeighbourWeights node 10 h) g1, current)

/-- The variables of `_evaluate_line_shortest_path` which live through all loops. -/
structure SPVars (V : Type) where
  work : NxGraph V (ℝ × ℝ)
  cand : List V
  starts : List V
  rg : NxGraph V Unit
  high : List V
  one : List V

/-- A point in the execution of `_evaluate_line_shortest_path`. -/
inductive SPState (V : Type)
  /-- line 48 -/
  | head (v : SPVars V)
  /-- line 54, where the start positions `todo` remain -/
  | forStart (v : SPVars V) (endPos : V) (todo : List V)
  /-- line 82, with `num_paths` -/
  | forPath (v : SPVars V) (endPos : V) (todo : List V) (startPos : V) (tmp : NxGraph V (ℝ × ℝ)) (single : Bool) (numPaths : ℕ)
  /-- line 126 -/
  | done (rg : NxGraph V Unit)
  | error (e : Err)

/-- `set(work_graph.neighbors(x)) | {x}` -/
def closedNeighbors (g : NxGraph V A) (x y : V) : Prop := y = x ∨ y ∈ g.neighbors x

/-- `candidate_positions -= s` -/
def removeAll (cand : List V) (s : V → Prop) : List V := cand.filter fun x => decide (¬ s x)

/-- _shortest_path.py:97-100: `new_neighbours` -/
def newNeighbours (tmp : NxGraph V (ℝ × ℝ)) (path : List V) (x : V) : Prop := ∃ node ∈ path, closedNeighbors tmp node x

/-- _shortest_path.py:103: `nodes_to_remove` -/
def nodesToRemove (work tmp : NxGraph V (ℝ × ℝ)) (startPos endPos : V) (path : List V) (x : V) : Prop :=
  newNeighbours tmp path x ∧ ¬ (closedNeighbors work startPos x ∨ closedNeighbors work endPos x)

/-- _shortest_path.py:109, 110: the weights of all edges of the path become zero. -/
def zeroWeights (g : NxGraph V (ℝ × ℝ)) (path : List V) : NxGraph V (ℝ × ℝ) :=
  (pathEdges path).foldl (fun h e => h.updateEdge e.1 e.2 fun a => (a.1, 0)) g

/-- `_MAX_NUM_PATHS`, line 15 -/
def maxNumPaths : ℕ := 20

/-- _shortest_path.py:56-63: the variables after `_update_high_degree_nodes` and `_update_degree_one_nodes`. -/
def updateWeights (v : SPVars V) : SPVars V :=
  let h := updateHighDegree v.rg (v.work, v.high)
  let o := updateDegreeOne v.rg h.1 v.one
  { v with work := o.1, high := h.2, one := o.2 }

/-- One step. -/
inductive SPStep : SPState V → SPState V → Prop
  /-- lines 48 and 126 -/
  | finish {v} : v.cand = [] → SPStep (.head v) (.done v.rg)
  /-- lines 50-54 -/
  | newEnd {v endPos todo} : endPos ∈ v.cand → todo.Perm v.starts →
      SPStep (.head v) (.forStart { v with cand := removeAll v.cand (closedNeighbors v.work endPos) } endPos todo)
  /-- line 124 -/
  | lastStart {v endPos} : SPStep (.forStart v endPos []) (.head { v with starts := v.starts ++ [endPos] })
  /-- lines 56-82 -/
  | start {v endPos s todo} : (∃ p, (updateWeights v).work.IsPath s endPos p) →
      SPStep (.forStart v endPos (s :: todo)) (.forPath (updateWeights v) endPos todo s (updateWeights v).work (decide (∃ p, (updateWeights v).work.IsPath s endPos p ∧ p.length ≤ 5)) 0)
  /-- line 69 -/
  | noPath {v endPos s todo} : (¬ ∃ p, (updateWeights v).work.IsPath s endPos p) → SPStep (.forStart v endPos (s :: todo)) (.error .noPath)
  /-- lines 82-84 and 92-93 -/
  | lastPath {v endPos todo s tmp single n} : n = maxNumPaths ∨ (single = true ∧ n = 1) ∨ (¬ ∃ p, tmp.IsPath s endPos p) →
      SPStep (.forPath v endPos todo s tmp single n) (.forStart v endPos todo)
  /-- line 104 -/
  | assertion {v endPos todo s tmp single n path} : n < maxNumPaths → ¬ (single = true ∧ n = 1) → IsShortestPath tmp s endPos path →
      (¬ ∃ x, nodesToRemove v.work tmp s endPos path x) → single = false →
      SPStep (.forPath v endPos todo s tmp single n) (.error .assertion)
  /-- lines 86-112 -/
  | path {v endPos todo s tmp single n path} : n < maxNumPaths → ¬ (single = true ∧ n = 1) → IsShortestPath tmp s endPos path →
      ((∃ x, nodesToRemove v.work tmp s endPos path x) ∨ single = true) →
      SPStep (.forPath v endPos todo s tmp single n)
        (.forPath { v with
            cand := removeAll v.cand (newNeighbours tmp path)
            rg := (pathEdges path).foldl (fun h e => h.addEdge e.1 e.2 ()) v.rg
            work := zeroWeights v.work path }
          endPos todo s ((zeroWeights tmp path).removeNodes (nodesToRemove v.work tmp s endPos path)) single (n + 1))

/-- _shortest_path.py:26-46: the state before the first loop. -/
inductive SPInit (fs : ℝ) (g : NxGraph V ℝ) : SPState V → Prop
  | empty : g.nodes = [] → SPInit fs g (.error .key)
  | first {firstPos} : firstPos ∈ g.nodes →
      SPInit fs g (.head ⟨initialWeights fs g, removeAll g.nodes (closedNeighbors (initialWeights fs g) firstPos), [firstPos], NxGraph.empty.addNode firstPos, [], []⟩)

/-- Executions with the number of steps. -/
inductive SPRun (fs : ℝ) (g : NxGraph V ℝ) : ℕ → SPState V → Prop
  | init {s} : SPInit fs g s → SPRun fs g 0 s
  | step {n s s'} : SPRun fs g n s → SPStep s s' → SPRun fs g (n + 1) s'

end NF
