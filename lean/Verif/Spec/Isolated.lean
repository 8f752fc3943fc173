import Verif.Model.Identify
import Verif.Spec.Lattice

/-! # Specification vocabulary for isolated nodal points -/

noncomputable section
open Classical

namespace NF.Spec
variable {d : ℕ}

/-- The points of `Z` are so far apart that, up to an error of `r`, they can be told apart with the given `feature_size`; the error is small compared with `feature_size`, and the box is not smaller
than `feature_size`. -/
structure Isolated (cs : CoordSys d) (fs r : ℝ) (Z : Set (Vec d)) : Prop where
  apart : ∀ z ∈ Z, ∀ z' ∈ Z, z ≠ z' → fs + 2 * r < cs.distance z z'
  precise : 8 * r ≤ fs
  fits : ∀ i, fs ≤ cs.upper i - cs.lower i

/-- The result of the identification consists of points only, not more than one for each point of `Z`, which is then within `r` of it, as are all the positions that it was made of. -/
structure OnlyPointsNear (cs : CoordSys d) (r : ℝ) (Z : Set (Vec d)) (positions : List (Vec d)) (out : IdContainer d) : Prop where
  /-- Every result belongs to one point of `Z`. -/
  each : ∀ x ∈ out.results, ∃ z ∈ Z, x.dimension = some 0 ∧ (∃ q, x.shape = some (.point q) ∧ cs.distance q z ≤ r) ∧
    ∀ p, p ∈ x.positions ↔ p ∈ positions ∧ cs.distance p z ≤ r
  /-- Every point of `Z` that has been found has exactly one result. -/
  once : ∀ z ∈ Z, ∀ p ∈ positions, cs.distance p z ≤ r → ∃! i : Fin out.results.length, ∃ q, (out.results.get i).shape = some (.point q) ∧ cs.distance q z ≤ r

end NF.Spec
