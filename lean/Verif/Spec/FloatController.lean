import Verif.Model.FloatController
import Verif.Spec.Controller
import Verif.Spec.Float

/-! # Specification vocabulary for searches in floating-point arithmetic (C103) -/

noncomputable section
open Classical
namespace NF.Spec
variable {d : ℕ}

/-- The hypotheses about a search in floating-point arithmetic: operations are rounded to nearest; the distances are possible results of `CoordinateSystem.distance`; the limits of the box are floats, the lower ones below the
upper ones; and no two simplices of the mesh are the same, nor two simplices of the stencil after it has been moved (with rounding) to the position of a result. -/
structure FloatSearch (A : FL.CtlArith d) (p : CtlParams d) (Res : Simplex d → SRes d → Prop) : Prop where
  nearest : IsNearest A.rnd
  distances : ∀ cs x y, FL.Distance A.rnd cs x y (A.dist cs x y)
  box : ProperBox p.coord
  floats : ∀ i, IsFloat (p.coord.lower i) ∧ IsFloat (p.coord.upper i)
  mesh : DistinctSimplices p.mesh
  stencil : ∀ st, p.stencil = some st → ∀ s r, Res s r →
    DistinctSimplices (FL.translateStencil A (FL.normalizePosition A.rnd p.coord r.pos) st)

/-- The bound of the error of a distance between stored positions: `8 (dim + 10) / 2 ^ 53` times the length of the diagonal of the box. -/
def distanceError (cs : CoordSys d) : ℝ := 8 * (d + 10) / 2 ^ 53 * Real.sqrt (∑ i, (cs.upper i - cs.lower i) ^ 2)

/-- By how much reading a stored position from the save file and normalizing it again can move it (modulo the periods). -/
def driftError (cs : CoordSys d) : ℝ := Real.sqrt (∑ i, ((6 * (cs.upper i - cs.lower i) + |cs.lower i|) / 2 ^ 53) ^ 2)

/-- All stored positions are near the box: always, for a periodic one; for a non-periodic one if the minimizations end there. -/
def NearBox (p : CtlParams d) (Res : Simplex d → SRes d → Prop) : Prop :=
  p.coord.periodic = true ∨ ∀ s r, Res s r → ∀ i, |r.pos i - p.coord.lower i| ≤ 2 * (p.coord.upper i - p.coord.lower i)

/-- As `GoodGeometry`, for floats: the cutoff is positive, a non-periodic box is at least as long, and the error of a distance is below the cutoff. -/
structure FloatGeometry (p : CtlParams d) (Res : Simplex d → SRes d → Prop) : Prop where
  positive : 0 < p.featureSize
  long : p.coord.periodic = true ∨ ∀ i, p.featureSize / 3 * (1 + 1 / 2 ^ 52) ≤ p.coord.upper i - p.coord.lower i
  near : NearBox p Res
  small : distanceError p.coord < p.featureSize / 3 * (1 - 1 / 2 ^ 39)
  dim : ((d : ℝ) + 1) / 2 ^ 53 ≤ 1 / 2

/-- An infinite execution without crashes that is fair, as `FairRun`. -/
structure FloatFairRun (A : FL.CtlArith d) (p : CtlParams d) (Res : Simplex d → SRes d → Prop) (f : ℕ → Ctl d) : Prop where
  step : ∀ n, FL.Step A p Res (f n) (f (n + 1))
  turns : ∀ n, ∃ m ≥ n, (f (m + 1)).phase ≠ .running ∨ ((f m).failed = [] ∧ loopCondition (f m) ∧ FL.fill A p (f m) = (none, f (m + 1)))
  tasks : ∀ n, ∀ s ∈ (f n).tasks, ∃ m ≥ n, s ∉ (f m).tasks

/-- A box that contains everything near the box: from `2` lengths below its lower limits to `2` lengths above them. -/
def reachBox (cs : CoordSys d) : CoordSys d :=
  ⟨fun i => cs.lower i - 2 * (cs.upper i - cs.lower i), fun i => cs.lower i + 2 * (cs.upper i - cs.lower i), cs.periodic⟩

/-- The vertices of the stencil are so far apart that adding a position near the box rounds no two of them to the same point. -/
def ResolvedStencil (cs : CoordSys d) (st : List (Simplex d)) : Prop :=
  ∀ s ∈ st, ∀ s' ∈ st, ∀ v ∈ s, ∀ w ∈ s', v ≠ w → ∃ i,
    (2 * (|cs.lower i| + 2 * (cs.upper i - cs.lower i)) + |v i| + |w i|) / 2 ^ 53 < |v i - w i|

end NF.Spec
