import Verif.Spec.Frame
import Verif.Spec.FloatNM
import Verif.Model.FloatController

/-! # Specification vocabulary: units that differ by powers of two (C119) -/

noncomputable section
open Classical
namespace NF.Spec
variable {d : ℕ}

/-- The rounding is to even on ties: if another float is as near, the significand of the result is even. -/
def TiesToEven (rnd : ℝ → ℝ) : Prop :=
  ∀ x g, IsFloat g → g ≠ rnd x → |g - x| = |rnd x - x| → ∃ m e : ℤ, |2 * m| < 2 ^ 53 ∧ rnd x = ((2 * m : ℤ) : ℝ) * (2 : ℝ) ^ e

/-- The rounding only looks at the significand: it commutes with the multiplication by powers of two. -/
def BinaryRounding (rnd : ℝ → ℝ) : Prop := ∀ (k : ℤ) x, rnd ((2 : ℝ) ^ k * x) = (2 : ℝ) ^ k * rnd x

/-- The sums, too, commute with it (as they do if the order in which the numbers are added does not depend on their values). -/
structure BinaryArith (A : FL.Arith d) : Prop where
  rnd : BinaryRounding A.rnd
  reduce : ∀ (k : ℤ) v, A.reduce (fun i => (2 : ℝ) ^ k * v i) = (2 : ℝ) ^ k * A.reduce v
  sum : ∀ (k : ℤ) v, A.sum (fun i => (2 : ℝ) ^ k * v i) = (2 : ℝ) ^ k * A.sum v

/-- The change of units that multiplies lengths by `2 ^ k` and function values by `2 ^ j`. -/
def binaryUnits (k j : ℤ) : Frame d := ⟨2 ^ k, 2 ^ j, 1, fun _ => 1, 0, by positivity, by positivity, fun _ => .inl rfl⟩

/-- The box, with all limits multiplied by `2 ^ k`. -/
def binaryCoord (k : ℤ) (cs : CoordSys d) : CoordSys d := ⟨fun i => 2 ^ k * cs.lower i, fun i => 2 ^ k * cs.upper i, cs.periodic⟩

/-- The same for a search. -/
def searchUnits (k j : ℤ) : Units d := ⟨2 ^ k, 2 ^ j, 0, by positivity, by positivity⟩

/-- The arithmetic of a search: the rounding commutes with the multiplication by powers of two, and so do the computed distances (as `C119_distance` says of all that can be computed). -/
structure BinaryCtlArith (A : FL.CtlArith d) : Prop where
  rnd : BinaryRounding A.rnd
  dist : ∀ (k : ℤ) cs x y, A.dist (binaryCoord k cs) (fun i => 2 ^ k * x i) (fun i => 2 ^ k * y i) = 2 ^ k * A.dist cs x y

/-- As `MinimizationOf`, with the arithmetic `B`. -/
def ArithMinimizationOf (B : FL.Arith d) (P : NMParams) (G : Vec d → FVal → Prop) (s : Simplex d) (r : SRes d) : Prop :=
  ∃ (f : ℕ → Vec d → FVal) (fake : Option (ℕ → Vec d → FVal)) (sim0 : Sim d),
    (∀ n x, G x (f n x)) ∧ s = List.ofFn sim0 ∧ IsFloatTwoStep B P f fake sim0 r

end NF.Spec
