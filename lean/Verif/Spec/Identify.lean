import Verif.Model.Identify
import Verif.Spec.Graph
import Verif.Spec.Lattice

/-! # Specification vocabulary for `identify.run_from_positions` -/

noncomputable section
open Classical

namespace NF.Spec
variable {d : ℕ}

/-- A line which describes the given positions: a simple graph made of some of the positions, whose edges are not longer than `fs`, which comes within `fs` of all the positions. -/
structure LineThrough (cs : CoordSys d) (fs : ℝ) (positions : List (Vec d)) (l : NodalLine (Vec d)) : Prop where
  simple : GoodGraph l.graph
  nodes : ∀ x ∈ l.graph.nodes, x ∈ positions
  edges : ∀ x y, l.graph.hasEdge x y → cs.distance x y ≤ fs
  covers : ∀ x ∈ positions, x ∈ l.graph.nodes ∨ ∃ y ∈ l.graph.nodes, cs.distance x y ≤ fs
  /-- How many nodes have how many neighbours, except two. -/
  degrees : ∀ k n, (k, n) ∈ l.degreeCount ↔ ∃ j : ℕ, k = j ∧ j ≠ 2 ∧ 0 < n ∧ n = (l.graph.nodes.filter fun x => decide (nbrCount l.graph x = j)).length

/-- What the result of the identification says about the positions. -/
structure IdentifiedFrom (positions : List (Vec d)) (cs : CoordSys d) (fs : ℝ) (out : IdContainer d) : Prop where
  coord : out.coord = cs
  featureSize : out.featureSize = fs
  /-- Every position is in exactly one of the results. -/
  once : ∀ x ∈ positions, ∃! i : Fin out.results.length, x ∈ (out.results.get i).positions
  /-- No result lists a position twice, or one which was not given; no result is empty. -/
  given : ∀ r ∈ out.results, r.positions ≠ [] ∧ r.positions.Nodup ∧ ∀ x ∈ r.positions, x ∈ positions
  /-- Two positions are in the same result exactly if there is a chain between them. -/
  chains : ∀ x ∈ positions, ∀ y ∈ positions, (∃ r ∈ out.results, x ∈ r.positions ∧ y ∈ r.positions) ↔ Chain cs fs positions x y
  dimension : ∀ r ∈ out.results, ∀ k, r.dimension = some k → 0 ≤ k ∧ k ≤ 3 ∧ k ≤ d
  /-- Clusters of dimension zero become a point, at the average of the positions. -/
  point : ∀ r ∈ out.results, r.dimension = some 0 → ∃ p, r.shape = some (.point p) ∧ cs.average r.positions = .ok p
  /-- A shape of a cluster of dimension one is a line through its positions. -/
  line : ∀ r ∈ out.results, r.dimension = some 1 → ∀ s, r.shape = some s → ∃ l, s = .line l ∧ LineThrough cs fs r.positions l
  /-- Other clusters have no shape. -/
  other : ∀ r ∈ out.results, r.dimension ≠ some 0 → r.dimension ≠ some 1 → r.shape = none

end NF.Spec
