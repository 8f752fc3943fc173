import Mathlib.Analysis.Real.Sqrt

/-! # Specification vocabulary: which edges of a line are drawn -/

noncomputable section
open Classical
namespace NF.Spec

/-- The (Euclidean) length of the edge between `a` and `b` is more than twice the feature size, if one is given. -/
def LongEdge {d : ℕ} (featureSize : Option ℝ) (a b : Fin d → ℝ) : Prop :=
  ∃ f, featureSize = some f ∧ 2 * f < Real.sqrt (∑ i, (a i - b i) ^ 2)

end NF.Spec
