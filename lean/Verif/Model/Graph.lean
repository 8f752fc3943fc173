import Verif.Model.Coord

/-!
# Model of the parts of `networkx` that `nodefinder/identify` uses

`networkx` is a dependency; the functions are modelled after its documentation and its source (networkx 2.x).
An `nx.Graph` is a list of nodes and a list of undirected edges with their attributes, both in order of insertion.  (The real adjacency dictionaries can
iterate in another order after a `copy`; code whose behaviour depends on such an order is modelled by relations which allow any order.)
-/

noncomputable section
open Classical

namespace NF

/-- `networkx.Graph` with nodes in `V` and edge attributes in `A`. -/
structure NxGraph (V A : Type) where
  nodes : List V
  edges : List (V × V × A)

namespace NxGraph
variable {V A : Type}

/-- `nx.Graph()` -/
def empty : NxGraph V A := ⟨[], []⟩

/-- The edge `(u, v, a)` joins `x` and `y`, in one of the two directions. -/
def joins (e : V × V × A) (x y : V) : Prop := (e.1 = x ∧ e.2.1 = y) ∨ (e.1 = y ∧ e.2.1 = x)

/-- `graph.has_edge(x, y)`, `(x, y) in graph.edges` -/
def hasEdge (g : NxGraph V A) (x y : V) : Prop := ∃ e ∈ g.edges, joins e x y

/-- `graph.neighbors(x)` -/
def neighbors (g : NxGraph V A) (x : V) : List V :=
  g.edges.filterMap fun e => if e.1 = x then some e.2.1 else if e.2.1 = x then some e.1 else none

/-- `graph.degree[x]` (for graphs without loops) -/
def degree (g : NxGraph V A) (x : V) : ℕ := (g.neighbors x).length

/-- `graph.add_node(x)` -/
def addNode (g : NxGraph V A) (x : V) : NxGraph V A := if x ∈ g.nodes then g else { g with nodes := g.nodes ++ [x] }

/-- `graph.add_edge(x, y, **a)`: adds the nodes if needed.  If the edge exists, its attributes are updated by `upd`. -/
def addEdge (g : NxGraph V A) (x y : V) (a : A) (upd : A → A := fun _ => a) : NxGraph V A :=
  let g' := (g.addNode x).addNode y
  if g.hasEdge x y then { g' with edges := g'.edges.map fun e => if joins e x y then (e.1, e.2.1, upd e.2.2) else e }
  else { g' with edges := g'.edges ++ [(x, y, a)] }

/-- `graph.remove_edge(x, y)` (of an existing edge) -/
def removeEdge (g : NxGraph V A) (x y : V) : NxGraph V A := { g with edges := g.edges.filter fun e => decide (¬ joins e x y) }

/-- `graph.subgraph(nodes).copy()` -/
def subgraph (g : NxGraph V A) (s : V → Prop) : NxGraph V A where
  nodes := g.nodes.filter fun x => decide (s x)
  edges := g.edges.filter fun e => decide (s e.1 ∧ s e.2.1)

/-- `graph.remove_nodes_from(nodes)` -/
def removeNodes (g : NxGraph V A) (s : V → Prop) : NxGraph V A := g.subgraph fun x => ¬ s x

/-- `networkx.algorithms.components.connected._plain_bfs`, one pass of the outer loop over `thislevel`: the new `seen` and `nextlevel`. -/
def bfsPass (g : NxGraph V A) (seen level : List V) : List V × List V :=
  level.foldl (fun s v => if v ∈ s.1 then s else (s.1 ++ [v], s.2 ++ g.neighbors v)) (seen, [])

/-- `_plain_bfs`, the outer loop `while nextlevel`.  The number of passes is limited; `bfs` uses a limit which is never reached (`bfs_limit`). -/
def bfsLoop (g : NxGraph V A) : ℕ → List V → List V → List V
  | 0, seen, _ => seen
  | _ + 1, seen, [] => seen
  | n + 1, seen, v :: level => bfsLoop g n (g.bfsPass seen (v :: level)).1 (g.bfsPass seen (v :: level)).2

/-- `_plain_bfs(graph, source)` -/
def bfs (g : NxGraph V A) (source : V) : List V := bfsLoop g (g.nodes.length + 2) [] [source]

/-- `nx.connected_components(graph)`, the loop over the nodes. -/
def componentsLoop (g : NxGraph V A) : List V → List V → List (List V)
  | _, [] => []
  | seen, v :: rest => if v ∈ seen then componentsLoop g seen rest else g.bfs v :: componentsLoop g (seen ++ g.bfs v) rest

/-- `nx.connected_components(graph)` -/
def connectedComponents (g : NxGraph V A) : List (List V) := componentsLoop g [] g.nodes

/-- `nx.is_dominating_set(graph, s)`: all nodes that are not in `s` have a neighbour in `s`. -/
def isDominatingSet (g : NxGraph V A) (s : V → Prop) : Prop := ∀ x ∈ g.nodes, ¬ s x → ∃ y ∈ g.neighbors x, s y

end NxGraph

end NF
