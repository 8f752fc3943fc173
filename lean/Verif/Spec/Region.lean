import Verif.Spec.NelderMead

/-! # Specification vocabulary for searches in unbounded space -/

noncomputable section
open Classical
namespace NF.Spec
variable {d : ℕ}

/-- Outside the region `lo ≤ x ≤ hi` the gap function (which at `x` may return the values `v` with `G x v`) returns no finite value that is not above `threshold`. -/
def HighOutside (G : Vec d → FVal → Prop) (threshold : ℝ) (lo hi : Vec d) : Prop :=
  ∀ x v, G x (FVal.ofReal v) → v ≤ threshold → ∀ i, lo i ≤ x i ∧ x i ≤ hi i

end NF.Spec
