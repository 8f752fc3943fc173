import Mathlib.Data.Real.Basic
import Mathlib.Algebra.Order.Round
import Mathlib.Data.Int.Log

/-! # Specification vocabulary: floating-point numbers -/

noncomputable section
open Classical
namespace NF.Spec

/-- The finite double-precision numbers, except that the exponent is not bounded (no overflow and no underflow): a significand of at most 53 bits times a power of two. -/
def IsFloat (x : ℝ) : Prop := ∃ m e : ℤ, |m| < 2 ^ 53 ∧ x = m * (2 : ℝ) ^ e

/-- `rnd` rounds to a nearest float (ties in any way): the result of a floating-point operation is `rnd` of the exact result (IEEE 754). -/
def IsNearest (rnd : ℝ → ℝ) : Prop := ∀ x, IsFloat (rnd x) ∧ ∀ g, IsFloat g → |rnd x - x| ≤ |g - x|

end NF.Spec
