import Verif.Model.Cluster

/-!
# Model of `nodefinder/identify/_evaluate/_line/_ballistic.py`

A transition system: one state is a point in the execution of `run` (at the head of the `while` loop of line 59) or of `find_loop` (at the head of the `while` loop of line 102).
`set.pop` and the order of neighbours are arbitrary, so the successor state is not unique.
-/

noncomputable section
open Classical

namespace NF
variable {d : ℕ}

/-- `u @ v` -/
def dot (u v : Vec d) : ℝ := ∑ i, u i * v i

/-- _ballistic.py:147, `delta / delta_norm`, also line 73 -/
def unitVec (cs : CoordSys d) (a b : Vec d) : Vec d := fun i => cs.connectingVector a b i / CoordSys.norm (cs.connectingVector a b)

/-- `graph.edges[(x, y)][_DISTANCE_KEY]` for an existing edge.  (For an edge that does not exist networkx raises a `KeyError` and the model gives 0; it is used for existing edges only.) -/
def NxGraph.edgeAttr (g : NxGraph (Vec d) ℝ) (x y : Vec d) : ℝ :=
  match g.edges.find? (fun e => decide (NxGraph.joins e x y)) with
  | some e => e.2.2
  | none => 0

/-- _ballistic.py:140-148: the `neighbors` at a positive distance. -/
def usableNeighbors (g : NxGraph (Vec d) ℝ) (cs : CoordSys d) (node : Vec d) : List (Vec d) :=
  (g.neighbors node).filter fun n => decide (0 < CoordSys.norm (cs.connectingVector node n))

/-- _ballistic.py:150-153: the entry of `direction_angles` for one neighbour. -/
def directionAngle (cs : CoordSys d) (node : Vec d) (prev : Option (Vec d)) (n : Vec d) : ℝ :=
  match prev with
  | some p => dot (unitVec cs node n) p
  | none => 1

/-- _ballistic.py:154, 157: `candidate_nodes` -/
def candidateNodes (g : NxGraph (Vec d) ℝ) (cs : CoordSys d) (node : Vec d) (prev : Option (Vec d)) : List (Vec d) :=
  (usableNeighbors g cs node).filter fun n => decide (0 < directionAngle cs node prev n)

/-- _ballistic.py:184-187: the entry of `distances_normalized` for one candidate. -/
def distanceNormalized (g : NxGraph (Vec d) ℝ) (fs : ℝ) (node n : Vec d) : ℝ := g.edgeAttr node n / fs

/-- _ballistic.py:159-192 with the constants of lines 22-25: the entry of `weights` for one candidate. -/
def ballisticWeight (g : NxGraph (Vec d) ℝ) (cs : CoordSys d) (fs : ℝ) (rg : NxGraph (Vec d) Unit) (node : Vec d) (prev : Option (Vec d)) (n : Vec d) : ℝ :=
  ((candidateNodes g cs node prev).map fun m => max (dot (unitVec cs node n) (unitVec cs node m)) 0).sum
    * directionAngle cs node prev n
    * (1 + 0.2 * (if n ∈ rg.nodes then 1 else 0))
    * (1 + 1 * (if n ∈ rg.nodes ∧ rg.degree n > 2 then 1 else 0))
    * (1 + 1 * (if n ∈ rg.nodes ∧ rg.degree n = 1 then 1 else 0))
    / (1 + 5 * distanceNormalized g fs node n)
    * (1 - (if distanceNormalized g fs node n < 1e-3 then 1 else 0))

/-- _ballistic.py:128-197, `get_next_pos`: `r` is a possible result.  `np.argmax` gives the first position with the largest weight; as the order of neighbours is arbitrary, any of
them can be chosen.  Without neighbours, line 135 (for `d = 1`, line 142) raises because of the shape of `np.array([])`; if all neighbours are at distance zero, line 151 raises for the same reason. -/
inductive NextPos (g : NxGraph (Vec d) ℝ) (cs : CoordSys d) (fs : ℝ) (rg : NxGraph (Vec d) Unit) (node : Vec d) (prev : Option (Vec d)) :
    Except Err (Option (Vec d × Vec d)) → Prop
  | noNeighbors : g.neighbors node = [] → NextPos g cs fs rg node prev (.error (if d = 1 then .type else .value))
  | allCoincide : g.neighbors node ≠ [] → usableNeighbors g cs node = [] → prev ≠ none → NextPos g cs fs rg node prev (.error .value)
  | nothing : g.neighbors node ≠ [] → (usableNeighbors g cs node ≠ [] ∨ prev = none) → candidateNodes g cs node prev = [] → NextPos g cs fs rg node prev (.ok none)
  | chosen {n} : n ∈ candidateNodes g cs node prev →
      (∀ m ∈ candidateNodes g cs node prev, ballisticWeight g cs fs rg node prev m ≤ ballisticWeight g cs fs rg node prev n) →
      NextPos g cs fs rg node prev (.ok (some (n, unitVec cs node n)))

/-- A point in the execution of `_BallisticLineImpl.run`. -/
inductive BState (d : ℕ)
  /-- line 59, with `result_graph` and `evaluated_end_nodes` -/
  | outer (rg : NxGraph (Vec d) Unit) (ev : List (Vec d))
  /-- line 102.  `pending` is the end node which line 77 will add to `evaluated_end_nodes`, or `none` if `find_loop` was called from line 86. -/
  | loop (rg : NxGraph (Vec d) Unit) (ev : List (Vec d)) (pending : Option (Vec d)) (node : Vec d) (prev : Option (Vec d)) (onGraph : Bool)
  /-- line 38 -/
  | done (rg : NxGraph (Vec d) Unit)
  | error (e : Err)

/-- `find_loop` has ended: line 77, and back to line 59. -/
def exitLoop (rg : NxGraph (Vec d) Unit) (ev : List (Vec d)) (pending : Option (Vec d)) : BState d :=
  .outer rg (ev ++ pending.toList)

/-- _ballistic.py:107-126: what `find_loop` does with the result of `get_next_pos`. -/
def afterNext (rg : NxGraph (Vec d) Unit) (ev : List (Vec d)) (pending : Option (Vec d)) (node : Vec d) (prev : Option (Vec d)) (onGraph : Bool) :
    Except Err (Option (Vec d × Vec d)) → BState d
  | .error e => .error e
  | .ok none => match prev with
    | none => .error .assertion
    | some _ => exitLoop rg (ev ++ [node]) pending
  | .ok (some (newNode, newDirection)) =>
    if newNode ∈ rg.nodes then
      if onGraph then exitLoop rg ev pending
      else .loop (rg.addEdge node newNode ()) ev pending newNode (some newDirection) true
    else .loop (rg.addEdge node newNode ()) ev pending newNode (some newDirection) false

/-- _ballistic.py:61-65: `new_end_nodes` -/
def newEndNodes (rg : NxGraph (Vec d) Unit) (ev : List (Vec d)) : List (Vec d) :=
  rg.nodes.filter fun x => decide (rg.degree x = 1 ∧ x ∉ ev)

/-- _ballistic.py:80-84: `candidate_nodes`, the nodes of the graph which are not in the subgraph made of the edges at the nodes of the result. -/
def startCandidates (g : NxGraph (Vec d) ℝ) (rg : NxGraph (Vec d) Unit) : List (Vec d) :=
  g.nodes.filter fun x => decide (¬ ∃ e ∈ g.edges, (e.1 ∈ rg.nodes ∨ e.2.1 ∈ rg.nodes) ∧ (x = e.1 ∨ x = e.2.1))

/-- One step of `run` / `find_loop`. -/
inductive BStep (g : NxGraph (Vec d) ℝ) (cs : CoordSys d) (fs : ℝ) : BState d → BState d → Prop
  /-- line 59 -/
  | finish {rg ev} : g.isDominatingSet (fun x => x ∈ rg.nodes) → BStep g cs fs (.outer rg ev) (.done rg)
  /-- lines 66-76 and 98-101 -/
  | endNode {rg ev node nbr} : ¬ g.isDominatingSet (fun x => x ∈ rg.nodes) → node ∈ newEndNodes rg ev → (rg.neighbors node).head? = some nbr →
      BStep g cs fs (.outer rg ev) (.loop (rg.addNode node) ev (some node) node (some fun i => -(unitVec cs node nbr i)) false)
  /-- lines 80-86 and 98-101 -/
  | newStart {rg ev node} : ¬ g.isDominatingSet (fun x => x ∈ rg.nodes) → newEndNodes rg ev = [] → node ∈ startCandidates g rg →
      BStep g cs fs (.outer rg ev) (.loop (rg.addNode node) ev none node none false)
  /-- line 85, `pop` from an empty set -/
  | noStart {rg ev} : ¬ g.isDominatingSet (fun x => x ∈ rg.nodes) → newEndNodes rg ev = [] → startCandidates g rg = [] →
      BStep g cs fs (.outer rg ev) (.error .key)
  /-- lines 103-126 -/
  | next {rg ev pending node prev onGraph r} : NextPos g cs fs rg node prev r →
      BStep g cs fs (.loop rg ev pending node prev onGraph) (afterNext rg ev pending node prev onGraph r)

/-- _ballistic.py:45-50: the state after `__init__`. -/
def BState.init : BState d := .outer NxGraph.empty []

/-- Executions with the number of steps. -/
inductive BRun (g : NxGraph (Vec d) ℝ) (cs : CoordSys d) (fs : ℝ) : ℕ → BState d → Prop
  | init : BRun g cs fs 0 .init
  | step {n s s'} : BRun g cs fs n s → BStep g cs fs s s' → BRun g cs fs (n + 1) s'

end NF
