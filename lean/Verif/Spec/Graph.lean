import Verif.Model.Cluster
import Mathlib.Logic.Relation

/-! # Specification vocabulary for clusters and graphs -/

noncomputable section
open Classical

namespace NF.Spec
variable {V A B : Type} {d : ℕ}

/-- `y` can be reached from `x` along edges of the graph. -/
def Reach (g : NxGraph V A) (x y : V) : Prop := Relation.ReflTransGen g.hasEdge x y

/-- A simple undirected graph: no node twice, edges between different nodes of the graph, at most one between two nodes. -/
structure GoodGraph (g : NxGraph V A) : Prop where
  nodup : g.nodes.Nodup
  left : ∀ e ∈ g.edges, e.1 ∈ g.nodes
  right : ∀ e ∈ g.edges, e.2.1 ∈ g.nodes
  noLoop : ∀ e ∈ g.edges, e.1 ≠ e.2.1
  single : g.edges.Pairwise fun e f => ¬ NxGraph.joins f e.1 e.2.1

/-- Any two nodes are connected by a path. -/
def Connected (g : NxGraph V A) : Prop := ∀ x ∈ g.nodes, ∀ y ∈ g.nodes, Reach g x y

/-- All nodes and edges of `h` are also in `g` (whatever the attributes). -/
def SubgraphOf (h : NxGraph V A) (g : NxGraph V B) : Prop :=
  (∀ x ∈ h.nodes, x ∈ g.nodes) ∧ ∀ x y, h.hasEdge x y → g.hasEdge x y

/-- Every node of `g` is a node of `h`, or adjacent (in `g`) to a node of `h`. -/
def Dominates (h : NxGraph V A) (g : NxGraph V B) : Prop :=
  ∀ x ∈ g.nodes, x ∈ h.nodes ∨ ∃ y ∈ h.nodes, g.hasEdge x y

/-- `a` and `b` are connected by a chain of positions from the list, each at most `fs` away from the one before. -/
def Chain (cs : CoordSys d) (fs : ℝ) (positions : List (Vec d)) (a b : Vec d) : Prop :=
  Relation.ReflTransGen (fun x y => x ∈ positions ∧ y ∈ positions ∧ cs.distance x y ≤ fs) a b

/-- The number of nodes which are joined to `x`. -/
def nbrCount (g : NxGraph V A) (x : V) : ℕ := (g.nodes.filter fun y => decide (g.hasEdge x y)).length

/-- `x` and `y` follow each other in the list. -/
def Consecutive (p : List V) (x y : V) : Prop := ∃ a b, p = a ++ x :: y :: b

/-- The graph is one open line: its nodes can be listed such that exactly those which follow each other are joined. -/
def IsOpenLine (g : NxGraph V A) : Prop :=
  ∃ p : List V, 2 ≤ p.length ∧ p.Nodup ∧ (∀ x, x ∈ p ↔ x ∈ g.nodes) ∧ ∀ x y, g.hasEdge x y ↔ Consecutive p x y ∨ Consecutive p y x

/-- The graph is one closed loop: its nodes can be listed in a circle such that exactly those which follow each other are joined. -/
def IsClosedLoop (g : NxGraph V A) : Prop :=
  ∃ (s : V) (p : List V), 3 ≤ (s :: p).length ∧ (s :: p).Nodup ∧ (∀ x, x ∈ s :: p ↔ x ∈ g.nodes) ∧ ∀ x y, g.hasEdge x y ↔ Consecutive (s :: p ++ [s]) x y ∨ Consecutive (s :: p ++ [s]) y x

end NF.Spec
