import Verif.Spec.OpenLines

/-! # Specification vocabulary: a line that may consist of one node -/

noncomputable section
open Classical
namespace NF.Spec
variable {d : ℕ}

/-- The line is drawn through the positions, in the direction `u`: its nodes are positions, and they can be listed in this direction such that the edges go from one to the next; no edge is longer than
`fs`, and every position is within `fs` of a node of the line.  It is called an open line if it has at least two nodes, and otherwise its shape is unknown. -/
def LineAlong (cs : CoordSys d) (fs : ℝ) (u : Vec d) (positions : List (Vec d)) (l : NodalLine (Vec d)) : Prop :=
  ∃ p : List (Vec d), p ≠ [] ∧ PathGraph l.graph p ∧ OrderedAlong u p ∧ (∀ x ∈ p, x ∈ positions) ∧ (∀ x y, Consecutive p x y → cs.distance x y ≤ fs) ∧
    (∀ x ∈ positions, ∃ y ∈ p, cs.distance x y ≤ fs) ∧ shapeName l.degreeCount = if 2 ≤ p.length then .openLine else .unknown

/-- The result consists of a point for every single position, and of a line in the direction `u` for every chain of at least two. -/
def PointsAndLines (cs : CoordSys d) (fs : ℝ) (u : Vec d) (out : IdContainer d) : Prop :=
  ∀ r ∈ out.results, (∃ x q, r.positions = [x] ∧ r.dimension = some 0 ∧ r.shape = some (.point q) ∧ cs.distance q x = 0) ∨
    (2 ≤ r.positions.length ∧ r.dimension = some 1 ∧ ∃ l, r.shape = some (.line l) ∧ LineAlong cs fs u r.positions l)

end NF.Spec
