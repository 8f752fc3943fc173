import Verif.Model.FloatBallistic
import Verif.Spec.FloatIdentify
import Verif.Spec.Graph

/-! # Specification vocabulary for the evaluation of lines in double precision -/

noncomputable section
open Classical

namespace NF.Spec
variable {d : ℕ}

/-- The BLAS library always gives results, and they are right: products of vectors up to `2⁻⁴⁰` times the product of their lengths, norms up to a relative error of `2⁻⁴⁰`. -/
structure BlasAccurate (B : FL.Blas d) : Prop where
  dot : ∀ u v x, B.dot u v x → |x - ∑ i, u i * v i| ≤ len u * len v / 2 ^ 40
  nrm2 : ∀ v x, B.nrm2 v x → |x - len v| ≤ len v / 2 ^ 40
  dot_total : ∀ u v, ∃ x, B.dot u v x
  nrm2_total : ∀ v, ∃ x, B.nrm2 v x

/-- An exact BLAS library. -/
def exactBlas : FL.Blas d := ⟨fun u v x => x = ∑ i, u i * v i, fun v x => x = len v⟩

/-- The cluster `g` has been found by `create_clusters` among the positions with the computed distances `dist`. -/
def IsCluster (rnd : ℝ → ℝ) (cs : CoordSys d) (fs : ℝ) (positions : List (Vec d)) (dist : Vec d → Vec d → ℝ) (g : NxGraph (Vec d) ℝ) : Prop :=
  (∀ p ∈ positions, ∀ q ∈ positions, FL.Distance rnd cs p q (dist p q)) ∧ ∃ posUnique, IsUniqueList positions posUnique ∧ g ∈ FL.createClusters dist fs posUnique

/-- No position of the cluster is alone: each is joined to another position that it can be told from, in a periodic box at a distance of more than `16 · 2⁻⁵³` times the diagonal of the box. -/
def Resolved (cs : CoordSys d) (g : NxGraph (Vec d) ℝ) : Prop :=
  ∀ x ∈ g.nodes, ∃ y, g.hasEdge x y ∧ (cs.periodic = true → 16 / 2 ^ 53 * len (fun i => cs.upper i - cs.lower i) < cs.distance x y)

end NF.Spec
