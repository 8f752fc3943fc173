import Verif.Spec.Curve
import Verif.Spec.Identify

/-! # Specification vocabulary: a result that consists of points and open lines -/

noncomputable section
open Classical
namespace NF.Spec
variable {d : ℕ}

/-- The line is drawn through the positions from one end to the other: it is an open line, and its nodes are positions; they can be listed in the direction `u` such that the edges go from one to the next;
no edge is longer than `fs`, and every position is within `fs` of a node of the line. -/
structure OpenLineAlong (cs : CoordSys d) (fs : ℝ) (u : Vec d) (positions : List (Vec d)) (l : NodalLine (Vec d)) : Prop where
  name : shapeName l.degreeCount = .openLine
  path : ∃ p : List (Vec d), 2 ≤ p.length ∧ PathGraph l.graph p ∧ OrderedAlong u p ∧ (∀ x ∈ p, x ∈ positions) ∧ (∀ x y, Consecutive p x y → cs.distance x y ≤ fs) ∧
    ∀ x ∈ positions, ∃ y ∈ p, cs.distance x y ≤ fs

/-- The result consists of a point for every single position, and of an open line in the direction `u` for every chain of at least two. -/
def PointsAndOpenLines (cs : CoordSys d) (fs : ℝ) (u : Vec d) (out : IdContainer d) : Prop :=
  ∀ r ∈ out.results, (∃ x q, r.positions = [x] ∧ r.dimension = some 0 ∧ r.shape = some (.point q) ∧ cs.distance q x = 0) ∨
    (2 ≤ r.positions.length ∧ r.dimension = some 1 ∧ ∃ l, r.shape = some (.line l) ∧ OpenLineAlong cs fs u r.positions l)

/-- All positions are within `w` of the straight line through `o` in the direction of the unit vector `u`. -/
def InTube (o u : Vec d) (w : ℝ) (positions : List (Vec d)) : Prop :=
  ∑ i, u i ^ 2 = 1 ∧ ∀ x ∈ positions, ∃ t : ℝ, eucl x (fun i => o i + t * u i) ≤ w

end NF.Spec
