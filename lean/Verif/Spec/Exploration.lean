import Verif.Spec.NelderMead

/-! # Specification vocabulary: what has become of a simplex -/

noncomputable section
open Classical
namespace NF.Spec
variable {d : ℕ}

/-- The number of vertices of `s` that are nearer than `feature_size / 3` to one of the nodes (and not equal to it). -/
def numNear (p : CtlParams d) (nodes : List (SRes d)) (s : Simplex d) : ℕ :=
  (s.filter fun v => decide (∃ r ∈ nodes, r.pos ≠ v ∧ p.coord.distance v r.pos < p.featureSize / 3)).length

/-- The simplex `s` has been dealt with: either a minimization that started from it is among the results (with its position moved into the box), or
it was not needed because more than `simplex_check_cutoff` of its vertices (and at least one) are near nodes. -/
def Explored (p : CtlParams d) (R : Simplex d → SRes d → Prop) (res : Container d) (s : Simplex d) : Prop :=
  (∃ r, R s r ∧ movedTo r (p.coord.normalizePosition r.pos) ∈ res.minimizationResults) ∨
  (0 < numNear p res.nodes.values s ∧ p.simplexCheckCutoff < numNear p res.nodes.values s)

end NF.Spec
