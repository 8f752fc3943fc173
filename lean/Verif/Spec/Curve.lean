import Verif.Spec.Graph

/-! # Specification vocabulary: lines that go in one direction -/

noncomputable section
open Classical
namespace NF.Spec
variable {V A : Type} {d : ℕ}

/-- The graph is the line through the nodes of the list, in this order. -/
def PathGraph (g : NxGraph V A) (p : List V) : Prop :=
  p.Nodup ∧ (∀ x, x ∈ p ↔ x ∈ g.nodes) ∧ ∀ x y, g.hasEdge x y ↔ Consecutive p x y ∨ Consecutive p y x

/-- How far the point is along the direction `u`. -/
def progress (u x : Vec d) : ℝ := ∑ i, u i * x i

/-- The points are on a curve of slope at most `s` against the direction `u`: of the step from one to the other, the part perpendicular to the unit vector `u` is
at most `s` times as long as the part along `u` (so that the square of its length is at most `1 + s²` times the square of the part along `u`). -/
def NearlyStraight (u : Vec d) (s : ℝ) (positions : List (Vec d)) : Prop :=
  ∑ i, u i ^ 2 = 1 ∧ ∀ x ∈ positions, ∀ y ∈ positions, ∑ i, (y i - x i) ^ 2 ≤ (1 + s ^ 2) * (progress u y - progress u x) ^ 2

/-- The shortest way between two positions at most `fs` apart does not cross the boundary of the box (always so in a non-periodic space). -/
def NotWrapped (cs : CoordSys d) (fs : ℝ) (positions : List (Vec d)) : Prop :=
  ∀ x ∈ positions, ∀ y ∈ positions, cs.distance x y ≤ fs → cs.connectingVector x y = fun i => y i - x i

/-- The list goes in the direction `u`. -/
def OrderedAlong (u : Vec d) (p : List (Vec d)) : Prop := p.Pairwise fun x y => progress u x < progress u y

end NF.Spec
