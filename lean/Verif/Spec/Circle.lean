import Verif.Spec.Graph

/-! # Specification vocabulary: circles in a graph -/

noncomputable section
open Classical
namespace NF.Spec
variable {V A : Type}

/-- The graph is the circle through the nodes `s`, `p` and back to `s`, in this order. -/
def CircleGraph (g : NxGraph V A) (s : V) (p : List V) : Prop :=
  3 ≤ (s :: p).length ∧ (s :: p).Nodup ∧ (∀ x, x ∈ s :: p ↔ x ∈ g.nodes) ∧ ∀ x y, g.hasEdge x y ↔ Consecutive (s :: p ++ [s]) x y ∨ Consecutive (s :: p ++ [s]) y x

/-- The sum of what is between each node of the list and the next. -/
def sumAlong (step : V → V → ℝ) : List V → ℝ
  | [] => 0
  | [_] => 0
  | x :: y :: l => step x y + sumAlong step (y :: l)

end NF.Spec
