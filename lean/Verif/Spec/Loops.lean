import Verif.Spec.Curve
import Verif.Spec.Circle
import Verif.Spec.Identify

/-! # Specification vocabulary: a result that is one closed loop -/

noncomputable section
open Classical
namespace NF.Spec
variable {d : ℕ}

/-- The list goes round once: `At x t` says that `x` is at `t` of a closed line of length `L`; from each of the list to the next it goes forward, and the way back to the first completes the round. -/
def OnceRound (At : Vec d → ℝ → Prop) (L : ℝ) (p : List (Vec d)) : Prop :=
  ∃ (t : ℝ) (ts : List ℝ), List.Forall₂ At p (t :: ts) ∧ (t :: ts ++ [t + L]).Pairwise (· < ·)

/-- The line is a closed loop through positions which goes round once; no edge is longer than `fs`, and every position is within `fs` of a node of the loop. -/
structure LoopRound (cs : CoordSys d) (fs : ℝ) (At : Vec d → ℝ → Prop) (L : ℝ) (positions : List (Vec d)) (l : NodalLine (Vec d)) : Prop where
  name : shapeName l.degreeCount = .closedLoop
  circle : ∃ (s : Vec d) (p : List (Vec d)), CircleGraph l.graph s p ∧ OnceRound At L (s :: p) ∧ (∀ x ∈ s :: p, x ∈ positions) ∧
    (∀ x y, Consecutive (s :: p ++ [s]) x y → cs.distance x y ≤ fs) ∧ ∀ x ∈ positions, ∃ y ∈ s :: p, cs.distance x y ≤ fs

/-- The result consists of one object, a closed loop which goes round once, from all the positions. -/
def OneClosedLoop (cs : CoordSys d) (fs : ℝ) (At : Vec d → ℝ → Prop) (L : ℝ) (positions : List (Vec d)) (out : IdContainer d) : Prop :=
  ∃ r, out.results = [r] ∧ (∀ x, x ∈ r.positions ↔ x ∈ positions) ∧ r.dimension = some 1 ∧ ∃ l, r.shape = some (.line l) ∧ LoopRound cs fs At L positions l

/-! ## A line which goes through the periodic box -/

/-- The point is at height `t` along the axis `j` of the box, up to the period. -/
def AtHeight (cs : CoordSys d) (j : Fin d) (x : Vec d) (t : ℝ) : Prop := ∃ k : ℤ, x j = t + k * (cs.upper j - cs.lower j)

/-- The positions are on a line along the axis `j` of the periodic box, of slope at most `s`: of the shortest way from one to the other, the part perpendicular to the axis is at most `s` times as long as the
part along it (so that the square of its length is at most `1 + s²` times the square of the part along the axis). -/
def AlongAxis (cs : CoordSys d) (j : Fin d) (s : ℝ) (positions : List (Vec d)) : Prop :=
  ∀ x ∈ positions, ∀ y ∈ positions, ∑ i, cs.connectingVector x y i ^ 2 ≤ (1 + s ^ 2) * cs.connectingVector x y j ^ 2

/-- There are no gaps in the line: at every height there is a position within `h`. -/
def NoGapAlong (cs : CoordSys d) (j : Fin d) (h : ℝ) (positions : List (Vec d)) : Prop :=
  ∀ t : ℝ, ∃ x ∈ positions, ∃ t', AtHeight cs j x t' ∧ |t' - t| ≤ h

/-! ## A ring -/

/-- The point at the angle `t` of the circle of radius `R` round `o`, in the plane of `a` and `b`. -/
def ringPoint (o a b : Vec d) (R t : ℝ) : Vec d := fun i => o i + R * (Real.cos t * a i + Real.sin t * b i)

/-- `a` and `b` are perpendicular unit vectors. -/
def Orthonormal2 (a b : Vec d) : Prop := ∑ i, a i ^ 2 = 1 ∧ ∑ i, b i ^ 2 = 1 ∧ ∑ i, a i * b i = 0

/-- The point is within `w` of the point of the circle at the angle `t`. -/
def AtAngle (o a b : Vec d) (R w : ℝ) (x : Vec d) (t : ℝ) : Prop := eucl x (ringPoint o a b R t) ≤ w

/-- All positions are within `w` of the circle. -/
def OnRing (o a b : Vec d) (R w : ℝ) (positions : List (Vec d)) : Prop := Orthonormal2 a b ∧ ∀ x ∈ positions, ∃ t, AtAngle o a b R w x t

/-- There are no gaps in the ring: within `h` of every point of the circle there is a position. -/
def NoGapRound (o a b : Vec d) (R h : ℝ) (positions : List (Vec d)) : Prop := ∀ t, ∃ x ∈ positions, AtAngle o a b R h x t

end NF.Spec
