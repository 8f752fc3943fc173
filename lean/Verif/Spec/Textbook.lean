import Mathlib.Data.EReal.Basic
import Mathlib.Algebra.BigOperators.Fin
import Mathlib.Data.Real.Basic

/-! # Specification vocabulary: the Nelder-Mead rules

J. C. Lagarias, J. A. Reeds, M. H. Wright, P. E. Wright, "Convergence properties of the Nelder-Mead simplex method in low dimensions", SIAM J. Optim. 9 (1998) 112,
section 2, with the usual coefficients: reflection 1, expansion 2, contraction 1/2, shrinkage 1/2.  The vertices `x 0, …, x d` are ordered by their values, `x 0` is the best one.
-/

noncomputable section
open Classical
namespace NF.Spec
variable {d : ℕ}

/-- The centroid of all vertices but the worst one. -/
def centroid (x : Fin (d + 1) → Fin d → ℝ) : Fin d → ℝ := (d : ℝ)⁻¹ • ∑ i : Fin d, x i.castSucc

/-- The point `centroid + t (centroid - worst)`. -/
def along (x : Fin (d + 1) → Fin d → ℝ) (t : ℝ) : Fin d → ℝ := centroid x + t • (centroid x - x (Fin.last d))

/-- The worst vertex replaced. -/
def replaceWorst (x : Fin (d + 1) → Fin d → ℝ) (y : Fin d → ℝ) : Fin (d + 1) → Fin d → ℝ := fun i => if i = Fin.last d then y else x i

/-- Every vertex moved half of the way to the best one. -/
def shrunk (x : Fin (d + 1) → Fin d → ℝ) : Fin (d + 1) → Fin d → ℝ := fun i => x 0 + (1 / 2 : ℝ) • (x i - x 0)

/-- The value of the second worst vertex. -/
def secondWorst (g : (Fin d → ℝ) → EReal) (x : Fin (d + 1) → Fin d → ℝ) : EReal := g (x ⟨d - 1, by omega⟩)

/-- One step, before the vertices are sorted again: the vertices `y` may follow the sorted vertices `x`. -/
inductive NelderMeadRule (g : (Fin d → ℝ) → EReal) (x : Fin (d + 1) → Fin d → ℝ) : (Fin (d + 1) → Fin d → ℝ) → Prop
  | reflect (h1 : g (x 0) ≤ g (along x 1)) (h2 : g (along x 1) < secondWorst g x) : NelderMeadRule g x (replaceWorst x (along x 1))
  | expand (h1 : g (along x 1) < g (x 0)) (h2 : g (along x 2) < g (along x 1)) : NelderMeadRule g x (replaceWorst x (along x 2))
  | noExpand (h1 : g (along x 1) < g (x 0)) (h2 : g (along x 1) ≤ g (along x 2)) : NelderMeadRule g x (replaceWorst x (along x 1))
  | outside (h1 : secondWorst g x ≤ g (along x 1)) (h2 : g (along x 1) < g (x (Fin.last d))) (h3 : g (along x (1 / 2)) ≤ g (along x 1)) :
      NelderMeadRule g x (replaceWorst x (along x (1 / 2)))
  | inside (h1 : secondWorst g x ≤ g (along x 1)) (h2 : g (x (Fin.last d)) ≤ g (along x 1)) (h3 : g (along x (-1 / 2)) < g (x (Fin.last d))) :
      NelderMeadRule g x (replaceWorst x (along x (-1 / 2)))
  | shrinkOutside (h1 : secondWorst g x ≤ g (along x 1)) (h2 : g (along x 1) < g (x (Fin.last d))) (h3 : g (along x 1) < g (along x (1 / 2))) :
      NelderMeadRule g x (shrunk x)
  | shrinkInside (h1 : secondWorst g x ≤ g (along x 1)) (h2 : g (x (Fin.last d)) ≤ g (along x 1)) (h3 : g (x (Fin.last d)) ≤ g (along x (-1 / 2))) :
      NelderMeadRule g x (shrunk x)

/-- `z` is `y`, ordered by the values. -/
def SortedCopy (g : (Fin d → ℝ) → EReal) (y z : Fin (d + 1) → Fin d → ℝ) : Prop := ∃ σ : Equiv.Perm (Fin (d + 1)), z = y ∘ σ ∧ Monotone fun i => g (z i)

end NF.Spec
