import Verif.Model.FloatDistance

/-!
# `get_pos` and `average` of `coordinate_system.py`, and `_evaluate/_point.py`, in floating-point arithmetic

As in `Model/FloatDistance`, every arithmetic operation is followed by a rounding `rnd`, and sums can be taken in any order.
-/

noncomputable section
open Classical

namespace NF.FL

variable {d : ℕ}

/-- coordinate_system.py:64-68, `get_pos`, as `CoordSys.getPos`. -/
def getPos (rnd : ℝ → ℝ) (c : CoordSys d) (frac : Vec d) : Vec d := fun i => rnd (rnd (frac i * size rnd c i) + c.lower i)

/-- `np.average(vectors, axis=0)` of a non-empty list (`np.mean`: the sums along the axis, divided by the length): `a` is a possible result. -/
def Mean (rnd : ℝ → ℝ) (vectors : List (Vec d)) (a : Vec d) : Prop :=
  ∀ i, ∃ s, RndSum rnd (vectors.map fun v => v i) s ∧ a i = rnd (s / vectors.length)

/-- coordinate_system.py:94-103, `average`, as `CoordSys.average`: `r` is a possible result. -/
inductive Average (rnd : ℝ → ℝ) (c : CoordSys d) : List (Vec d) → Except Err (Vec d) → Prop
  | empty : Average rnd c [] (.error .index)
  | plain {origin rest a} : c.periodic = false → Mean rnd (origin :: rest) a → Average rnd c (origin :: rest) (.ok a)
  | periodic {origin rest deltas a} : c.periodic = true → List.Forall₂ (fun pos delta => Connecting rnd c origin pos (.ok delta)) (origin :: rest) deltas → Mean rnd deltas a →
      Average rnd c (origin :: rest) (.ok fun i => npMod rnd (rnd (origin i + a i)) (size rnd c i))
  | raises {origin rest pos e} : c.periodic = true → pos ∈ origin :: rest → Connecting rnd c origin pos (.error e) → Average rnd c (origin :: rest) (.error e)

/-- _evaluate/_point.py:14-18, `_evaluate_point`: the position of the `NodalPoint` is a possible `average`, of the positions in the order in which the set yields them. -/
def EvaluatePoint (rnd : ℝ → ℝ) (c : CoordSys d) (positions : List (Vec d)) (r : Except Err (Vec d)) : Prop := Average rnd c positions r

end NF.FL
