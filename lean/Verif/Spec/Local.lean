import Verif.Model.Identify

/-! # Specification vocabulary for the locality of the identification -/

noncomputable section
open Classical

namespace NF.Spec
variable {d : ℕ}

/-- No position of the one list is within `feature_size` of a position of the other. -/
def FarApart (cs : CoordSys d) (fs : ℝ) (A B : List (Vec d)) : Prop := ∀ x ∈ A, ∀ y ∈ B, fs < cs.distance x y

end NF.Spec
