import Verif.Model.ShortestPath

/-!
# Model of `nodefinder/identify/_evaluate/_line/_shortest_path.py` in floating-point arithmetic

As `Model/ShortestPath`, with every arithmetic operation followed by a rounding `rnd`.  The shortest paths are found by networkx (`bidirectional_dijkstra`), which adds the weights of the edges in floating-point arithmetic; it
is not modelled, and neither is the power `x**2` of the C library: `SPLib` says which results are possible.
-/

noncomputable section
open Classical

namespace NF.FL
variable {V A : Type}

/-- The libraries: `sq x` is what `x**2` gives (line 27), and `dijkstra g s t p` says that `nx.algorithms.shortest_path(g, source=s, target=t, weight='_weight')` can return `p` (lines 86-91). -/
structure SPLib (V : Type) where
  sq : ℝ → ℝ
  dijkstra : NxGraph V (ℝ × ℝ) → V → V → List V → Prop

variable (L : SPLib V) (rnd : ℝ → ℝ)

/-- _shortest_path.py:26-33: `work_graph` with the initial weights, `feature_size * (x + x**2)` where `x = dist / feature_size`; as `NF.initialWeights`. -/
def initialWeights (fs : ℝ) (g : NxGraph V ℝ) : NxGraph V (ℝ × ℝ) :=
  ⟨g.nodes, g.edges.map fun e => (e.1, e.2.1, e.2.2, rnd (fs * rnd (rnd (e.2.2 / fs) + L.sq (rnd (e.2.2 / fs)))))⟩

/-- _shortest_path.py:159-161, `_update_neighbour_weights`; as `NF.updateNeighbourWeights`. -/
def updateNeighbourWeights (node : V) (multiplier : ℝ) (g : NxGraph V (ℝ × ℝ)) : NxGraph V (ℝ × ℝ) :=
  (g.neighbors node).foldl (fun h nbr => h.updateEdge node nbr fun a => (a.1, rnd (a.2 * multiplier))) g

/-- _shortest_path.py:129-137, `_update_high_degree_nodes`, as `NF.updateHighDegree`. -/
def updateHighDegree (rg : NxGraph V Unit) (gh : NxGraph V (ℝ × ℝ) × List V) : NxGraph V (ℝ × ℝ) × List V :=
  rg.nodes.foldl (fun gh node => if rg.degree node > 2 ∧ node ∉ gh.2 then (updateNeighbourWeights rnd node 0.5 gh.1, gh.2 ++ [node]) else gh) gh

/-- _shortest_path.py:140-156, `_update_degree_one_nodes`, as `NF.updateDegreeOne`.  (The order in which the nodes are visited does not matter here either: in each of the two loops all multipliers are the same.) -/
def updateDegreeOne (rg : NxGraph V Unit) (g : NxGraph V (ℝ × ℝ)) (one : List V) : NxGraph V (ℝ × ℝ) × List V :=
  let current := rg.nodes.filter fun node => decide (rg.degree node = 1)
  let newNodes := current.filter fun x => decide (x ∉ one)
  let outdated := one.filter fun x => decide (x ∉ current)
  let g1 := newNodes.foldl (fun h node => updateNeighbourWeights rnd node (rnd 0.1) h) g
  (outdated.foldl (fun h node => updateNeighbourWeights rnd node 10 h) g1, current)

/-- _shortest_path.py:56-63: the variables after `_update_high_degree_nodes` and `_update_degree_one_nodes`. -/
def updateWeights (v : SPVars V) : SPVars V :=
  let h := updateHighDegree rnd v.rg (v.work, v.high)
  let o := updateDegreeOne rnd v.rg h.1 v.one
  { v with work := o.1, high := h.2, one := o.2 }

/-- One step (_shortest_path.py:48-126), as `NF.SPStep`. -/
inductive SPStep : SPState V → SPState V → Prop
  /-- lines 48 and 126 -/
  | finish {v} : v.cand = [] → SPStep (.head v) (.done v.rg)
  /-- lines 50-54 -/
  | newEnd {v endPos todo} : endPos ∈ v.cand → todo.Perm v.starts →
      SPStep (.head v) (.forStart { v with cand := removeAll v.cand (closedNeighbors v.work endPos) } endPos todo)
  /-- line 124 -/
  | lastStart {v endPos} : SPStep (.forStart v endPos []) (.head { v with starts := v.starts ++ [endPos] })
  /-- lines 56-82 -/
  | start {v endPos s todo} : (∃ p, (updateWeights rnd v).work.IsPath s endPos p) →
      SPStep (.forStart v endPos (s :: todo))
        (.forPath (updateWeights rnd v) endPos todo s (updateWeights rnd v).work (decide (∃ p, (updateWeights rnd v).work.IsPath s endPos p ∧ p.length ≤ 5)) 0)
  /-- line 69 -/
  | noPath {v endPos s todo} : (¬ ∃ p, (updateWeights rnd v).work.IsPath s endPos p) → SPStep (.forStart v endPos (s :: todo)) (.error .noPath)
  /-- lines 82-84 and 92-93 -/
  | lastPath {v endPos todo s tmp single n} : n = maxNumPaths ∨ (single = true ∧ n = 1) ∨ (¬ ∃ p, tmp.IsPath s endPos p) →
      SPStep (.forPath v endPos todo s tmp single n) (.forStart v endPos todo)
  /-- line 104 -/
  | assertion {v endPos todo s tmp single n path} : n < maxNumPaths → ¬ (single = true ∧ n = 1) → (∃ p, tmp.IsPath s endPos p) → L.dijkstra tmp s endPos path →
      (¬ ∃ x, nodesToRemove v.work tmp s endPos path x) → single = false →
      SPStep (.forPath v endPos todo s tmp single n) (.error .assertion)
  /-- lines 86-112 -/
  | path {v endPos todo s tmp single n path} : n < maxNumPaths → ¬ (single = true ∧ n = 1) → (∃ p, tmp.IsPath s endPos p) → L.dijkstra tmp s endPos path →
      ((∃ x, nodesToRemove v.work tmp s endPos path x) ∨ single = true) →
      SPStep (.forPath v endPos todo s tmp single n)
        (.forPath { v with
            cand := removeAll v.cand (newNeighbours tmp path)
            rg := (pathEdges path).foldl (fun h e => h.addEdge e.1 e.2 ()) v.rg
            work := zeroWeights v.work path }
          endPos todo s ((zeroWeights tmp path).removeNodes (nodesToRemove v.work tmp s endPos path)) single (n + 1))

/-- _shortest_path.py:26-46: the state before the first loop, as `NF.SPInit`. -/
inductive SPInit (fs : ℝ) (g : NxGraph V ℝ) : SPState V → Prop
  | empty : g.nodes = [] → SPInit fs g (.error .key)
  | first {firstPos} : firstPos ∈ g.nodes →
      SPInit fs g (.head ⟨initialWeights L rnd fs g, removeAll g.nodes (closedNeighbors (initialWeights L rnd fs g) firstPos), [firstPos], NxGraph.empty.addNode firstPos, [], []⟩)

/-- Executions with the number of steps (_shortest_path.py:18-126), as `NF.SPRun`. -/
inductive SPRun (fs : ℝ) (g : NxGraph V ℝ) : ℕ → SPState V → Prop
  | init {s} : SPInit L rnd fs g s → SPRun fs g 0 s
  | step {n s s'} : SPRun fs g n s → SPStep L rnd s s' → SPRun fs g (n + 1) s'

end NF.FL
