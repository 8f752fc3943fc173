import Verif.Model.Identify

/-! # Specification vocabulary for the order and the directions of the axes -/

noncomputable section
open Classical

namespace NF.Spec
variable {d : ℕ}

/-- The coordinates in another order: the new coordinate `i` is the old coordinate `σ i`. -/
def reorder (σ : Equiv.Perm (Fin d)) (x : Vec d) : Vec d := fun i => x (σ i)

/-- The box with its sides in another order. -/
def reorderBox (σ : Equiv.Perm (Fin d)) (cs : CoordSys d) : CoordSys d := ⟨reorder σ cs.lower, reorder σ cs.upper, cs.periodic⟩

/-- The mirror image in the box: the coordinates in `M` are counted from the other end. -/
def mirror (cs : CoordSys d) (M : Set (Fin d)) (x : Vec d) : Vec d := fun i => if i ∈ M then cs.lower i + cs.upper i - x i else x i

/-- The two positions are an odd number of half box lengths apart in some coordinate in `M`. -/
def HalfApart (cs : CoordSys d) (M : Set (Fin d)) (x y : Vec d) : Prop := ∃ i ∈ M, ∃ k : ℤ, y i - x i = (k + 1 / 2) * (cs.upper i - cs.lower i)

end NF.Spec
