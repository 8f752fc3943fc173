import Verif.Spec.Valley
import Verif.Spec.Float

/-! # Specification vocabulary: a valley of a function of one variable, computed in floating-point arithmetic -/

noncomputable section
namespace NF.Spec

/-- On the floats, `g` falls up to `m` and rises from there on, as far as `W` to both sides; but this is seen only at points that are more than `η` apart: what is nearer may be in any order
(rounding errors in the computation of `g`). -/
structure NoisyValley (g : ℝ → ℝ) (m W η : ℝ) : Prop where
  falls : ∀ x y, IsFloat x → IsFloat y → m - W ≤ x → x + η < y → y ≤ m → g y < g x
  rises : ∀ x y, IsFloat x → IsFloat y → m ≤ x → x + η < y → y ≤ m + W → g x < g y

end NF.Spec
