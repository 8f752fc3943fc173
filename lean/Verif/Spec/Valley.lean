import Verif.Spec.NelderMead
import Mathlib.Order.Monotone.Basic
import Mathlib.Order.Interval.Set.Basic

/-! # Specification vocabulary: a valley of a function of one variable -/

noncomputable section
namespace NF.Spec

/-- `g` falls strictly up to `m` and rises strictly from there on, as far as `W` to both sides. -/
structure Valley (g : ℝ → ℝ) (m W : ℝ) : Prop where
  falls : StrictAntiOn g (Set.Icc (m - W) m)
  rises : StrictMonoOn g (Set.Icc m (m + W))

end NF.Spec
