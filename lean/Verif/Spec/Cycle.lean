import Verif.Model.Graph
import Verif.Model.Coord

/-! # Specification vocabulary: graphs without closed loops -/

noncomputable section
open Classical
namespace NF.Spec
variable {V A : Type}

/-- The graph contains a closed loop: at least three different nodes, each joined to the next one, and the last one to the first one. -/
def ContainsLoop (g : NxGraph V A) : Prop :=
  ∃ (a b : V) (p : List V), p.Nodup ∧ 3 ≤ p.length ∧ p.IsChain g.hasEdge ∧ p.head? = some a ∧ p.getLast? = some b ∧ g.hasEdge b a

/-- From `x` to `y` it takes at most `n` steps, from position to position, none longer than `fs`. -/
def FewSteps {d : ℕ} (cs : CoordSys d) (fs : ℝ) (positions : List (Vec d)) (n : ℕ) (x y : Vec d) : Prop :=
  ∃ p : List (Vec d), p.head? = some x ∧ p.getLast? = some y ∧ (∀ z ∈ p, z ∈ positions) ∧ p.IsChain (fun a b => cs.distance a b ≤ fs) ∧ p.length ≤ n + 1

end NF.Spec
