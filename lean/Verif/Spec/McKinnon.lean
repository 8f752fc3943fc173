import Verif.Spec.NelderMead
import Mathlib.Analysis.Convex.Function

/-! # Specification vocabulary: a gap function of two variables on which the minimizer fails (K. I. M. McKinnon, SIAM J. Optim. 9 (1998) 148) -/

noncomputable section
open Classical
namespace NF.Spec

/-- A function with minimum 0 at `(0, -1/2)`: quadratic in each half plane `x ≤ 0`, `x ≥ 0`. -/
def valleyFloor (p : Vec 2) : ℝ := (if p 0 ≤ 0 then 360 else 6) * p 0 ^ 2 + (p 1 + 1 / 2) ^ 2

/-- The initial simplex: `(0, 0)`, `((1 + √33) / 8, (1 - √33) / 8)`, `(1, 1)`. -/
def mcKinnonSimplex : Sim 2 := ![fun _ => 0, ![(1 + Real.sqrt 33) / 8, (1 - Real.sqrt 33) / 8], fun _ => 1]

end NF.Spec
