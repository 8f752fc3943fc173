import Verif.Spec.Valley

/-! # Specification vocabulary: minima of a gap function of one variable that a search cannot miss -/

noncomputable section
namespace NF.Spec

/-- The gap function has a minimum at `m` that a mesh of spacing `h` cannot miss: a valley (as far as some `W ≥ 6 * h + feature_size` to both sides), whose bottom is below the threshold as far as `feature_size / 50`, and flat on some scale `δ`, which
may be as small as `h / 2 ^ 29`. -/
def ClearMinimum (h featureSize gapThreshold : ℝ) (G : Vec 1 → FVal) (m : ℝ) : Prop :=
  ∃ (g : ℝ → ℝ) (W δ : ℝ), Valley g m W ∧ (∀ x : Vec 1, |x 0 - m| ≤ W → G x = FVal.ofReal (g (x 0))) ∧ 6 * h + featureSize ≤ W ∧
    0 < δ ∧ δ ≤ featureSize / 100 ∧ h ≤ 2 ^ 29 * δ ∧
    (∀ x y, |x - m| ≤ 3 * δ → |y - m| ≤ 3 * δ → |g x - g y| ≤ gapThreshold / 20) ∧ ∀ x, |x - m| ≤ featureSize / 50 → g x ≤ gapThreshold

end NF.Spec
