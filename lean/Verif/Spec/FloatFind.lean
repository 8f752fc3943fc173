import Verif.Spec.FloatIdentify
import Verif.Spec.FloatLive
import Verif.Spec.NoisyValley

/-! # Specification vocabulary: minima that a one-dimensional search in double precision cannot miss -/

noncomputable section
open Classical

namespace NF.Spec

/-- The values of the gap function at floats have a minimum at `m` that a mesh of spacing `h` cannot miss: a valley of half-width `W`, in which the values need to be ordered only for points more than `η` apart, at least `11 * h + feature_size` wide but not wider than the box (of length `L`), whose bottom is below the threshold as
far as `feature_size / 30`, and flat on some scale `δ`, which may be as small as `h / 2 ^ 27`. -/
def FloatClearMinimum (h featureSize gapThreshold L W : ℝ) (G : Vec 1 → FVal) (m : ℝ) : Prop :=
  ∃ (g : ℝ → ℝ) (η δ : ℝ), NoisyValley g m W η ∧ (|m| + W) / 2 ^ 48 ≤ η ∧ (∀ x : Vec 1, IsFloat (x 0) → |x 0 - m| ≤ W → G x = FVal.ofReal (g (x 0))) ∧ (∀ x, IsFloat x → |x - m| ≤ W → IsFloat (g x)) ∧
    11 * h + featureSize ≤ W ∧ W ≤ L ∧ 0 < δ ∧ 100 * η ≤ δ ∧ δ ≤ featureSize / 200 ∧ h ≤ 2 ^ 27 * δ ∧
    (∀ x y, IsFloat x → IsFloat y → |x - m| ≤ 4 * δ → |y - m| ≤ 4 * δ → |g x - g y| ≤ gapThreshold / 21) ∧ ∀ x, IsFloat x → |x - m| ≤ featureSize / 30 → g x ≤ gapThreshold

end NF.Spec
