import Verif.Spec.NelderMead
import Mathlib.LinearAlgebra.Matrix.Determinant.Basic
import Mathlib.LinearAlgebra.AffineSpace.Independent

/-! # Specification vocabulary: the volume of a simplex -/

noncomputable section
open Classical
namespace NF.Spec
variable {d : ℕ}

/-- The volume of the simplex with the `d + 1` vertices `S`: the determinant of its edge vectors, divided by `d!`. -/
def volume (S : Sim d) : ℝ := |(Matrix.of fun i j : Fin d => S i.succ j - S 0 j).det| / d.factorial

/-- A simplex with `d + 1` vertices which do not lie in a hyperplane. -/
def NonDegenerate (s : Simplex d) : Prop := ∃ S : Sim d, s = List.ofFn S ∧ AffineIndependent ℝ S

end NF.Spec
