import Mathlib.Data.EReal.Basic
import Mathlib.Data.EReal.Operations

/-!
# Function values

The gap function and the fake potential return floats that may be `inf` or `nan`, and the code
relies on how these compare.  `FVal` is the extended reals plus a NaN.  As in numpy's sort order, NaN is the
largest element (`WithTop`'s `⊤`); IEEE comparisons with NaN are false.
Finite values are exact reals (no rounding).
-/

noncomputable section
open Classical

namespace NF

/-- A float function value: `-inf`, a real, `+inf` (the `EReal` part) or NaN (`⊤`). The order on this
type is numpy's *sort* order (NaN last). -/
abbrev FVal := WithTop EReal

namespace FVal
/-- `float('nan')` -/
def nan : FVal := ⊤
/-- a finite float -/
def ofReal (r : ℝ) : FVal := ((r : EReal) : WithTop EReal)
/-- `float('inf')` -/
def inf : FVal := ((⊤ : EReal) : WithTop EReal)
/-- `float('-inf')` -/
def ninf : FVal := ((⊥ : EReal) : WithTop EReal)

/-- IEEE `a < b`: false if one of them is NaN. -/
def lt (a b : FVal) : Prop := a ≠ nan ∧ b ≠ nan ∧ a < b
/-- IEEE `a <= b`: false if one of them is NaN. -/
def le (a b : FVal) : Prop := a ≠ nan ∧ b ≠ nan ∧ a ≤ b
/-- IEEE `a > b`. -/
def gt (a b : FVal) : Prop := lt b a

/-- `abs(a - b)`: NaN if one of the two is NaN or for `inf - inf`. -/
def absDiff (a b : FVal) : FVal :=
  match a, b with
  | some x, some y =>
    if x = ⊤ ∧ y = ⊤ ∨ x = ⊥ ∧ y = ⊥ then nan
    else if x = ⊤ ∨ x = ⊥ ∨ y = ⊤ ∨ y = ⊥ then inf
    else ofReal |x.toReal - y.toReal|
  | _, _ => nan

/-- float addition `a + b` (needed for `func(x) + fake_pot(x)`). -/
def add (a b : FVal) : FVal :=
  match a, b with
  | some x, some y =>
    if x = ⊤ ∧ y = ⊥ ∨ x = ⊥ ∧ y = ⊤ then nan else ((x + y : EReal) : WithTop EReal)
  | _, _ => nan

end FVal
end NF
