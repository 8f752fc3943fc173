import Verif.Model.FloatIdentify
import Verif.Spec.FloatController
import Verif.Spec.Lattice

/-! # Specification vocabulary for the identification in double precision -/

noncomputable section
open Classical

namespace NF.Spec
variable {d : ℕ}

/-- The floating-point arithmetic is that of IEEE 754: the operations are rounded to nearest, `A.dist` are distances that can be computed with it, and LAPACK computes the singular value of a
single row (its length) up to a relative error of `2⁻⁴⁰`. -/
structure IdAccurate (A : FL.IdArith d) (cs : CoordSys d) (positions : List (Vec d)) : Prop where
  nearest : IsNearest A.rnd
  dist : ∀ p ∈ positions, ∀ q ∈ positions, FL.Distance A.rnd cs p q (A.dist p q)
  svd : ∀ v, |A.svd [v] - len v| ≤ len v / 2 ^ 40

/-- The box is not so large that `connecting_vector` may find that it has made an error of more than `1e-8` (as in C97), for positions with coordinates of at most `M`. -/
structure ModerateBox (cs : CoordSys d) (M : Vec d) : Prop where
  dim : ((d : ℝ) + 1) / 2 ^ 53 ≤ 1 / 2
  resolved : ∀ i, M i / 2 ^ 53 ≤ cs.upper i - cs.lower i
  small : (2 * d + 36) * len (fun i => cs.upper i - cs.lower i) + len M ≤ 9 * 10 ^ 7

/-- The positions are near the box, as those of the nodes of a search, with coordinates of at most `M`, and the box is moderate; there are not more than about 9 * 10 ^ 13 positions. -/
structure Moderate (cs : CoordSys d) (positions : List (Vec d)) (M : Vec d) : Prop where
  box : ModerateBox cs M
  inside : ∀ p ∈ positions, ∀ i, |p i - cs.lower i| ≤ 2 * (cs.upper i - cs.lower i) ∧ (cs.periodic = true → cs.lower i ≤ p i)
  bound : ∀ p ∈ positions, ∀ i, |p i| ≤ M i
  few : (positions.length : ℝ) / 2 ^ 53 ≤ 1 / 100

/-- The rounding error of the average of `n` positions with coordinates of at most `M`. -/
def averageError (cs : CoordSys d) (M : Vec d) (n : ℕ) : ℝ := len fun i => (2 * n + 20) * (cs.upper i - cs.lower i + M i) / 2 ^ 53

/-- As `Isolated`, with a margin for a rounding error `δ` of distances. -/
structure WellIsolated (cs : CoordSys d) (fs r δ : ℝ) (Z : Set (Vec d)) : Prop where
  apart : ∀ z ∈ Z, ∀ z' ∈ Z, z ≠ z' → fs + 2 * r + δ < cs.distance z z'
  precise : 9 * r + 5 * δ < fs
  fits : ∀ i, fs ≤ cs.upper i - cs.lower i

/-- The result of the identification consists of points only, one for each point of `Z` that is near (within `r`) one of the positions, which is then within `r'` of it. -/
structure PointsFound (cs : CoordSys d) (r r' : ℝ) (Z : Set (Vec d)) (positions : List (Vec d)) (out : IdContainer d) : Prop where
  /-- Every result belongs to one point of `Z`: its positions are those near this point, and there are some. -/
  each : ∀ x ∈ out.results, ∃ z ∈ Z, x.dimension = some 0 ∧ (∃ q, x.shape = some (.point q) ∧ cs.distance q z ≤ r') ∧ x.positions ≠ [] ∧
    ∀ p, p ∈ x.positions ↔ p ∈ positions ∧ cs.distance p z ≤ r
  /-- Every position is in exactly one result. -/
  once : ∀ p ∈ positions, ∃! i : Fin out.results.length, p ∈ (out.results.get i).positions

end NF.Spec
