import Verif.Model.FloatNM
import Verif.Spec.NelderMead
import Verif.Spec.Float

/-! # Specification vocabulary for minimizations in floating-point arithmetic (C102) -/

noncomputable section
open Classical
namespace NF.Spec
variable {d : ℕ}

/-- As `IsMinimization`, with all arithmetic of the minimizer rounded as `A` says: `r` is what `root_nelder_mead` returns, and `evals` are the calls of the function. -/
def IsFloatMinimization (A : FL.Arith d) (P : NMParams) (f : ℕ → Vec d → FVal) (sim0 : Sim d) (r : MinRes d) (evals : List (Vec d × FVal)) : Prop :=
  ∃ argsort, IsArgsort argsort ∧ r = FL.rootNelderMead A P argsort f sim0 ∧ evals = (FL.nmRun A P argsort f sim0).tr.evals

/-- As `IsTwoStep`: what `run_minimization` returns. -/
def IsFloatTwoStep (A : FL.Arith d) (P : NMParams) (f : ℕ → Vec d → FVal) (fake : Option (ℕ → Vec d → FVal)) (sim0 : Sim d) (r : SRes d) : Prop :=
  ∃ argsort, IsArgsort argsort ∧ r = FL.runMinimization A P argsort f fake sim0

/-- `x` is one of the points that the Nelder-Mead algorithm may try for the simplex `S`, computed exactly: with `m` the mean of all vertices but the last, the
reflection of the last vertex, the expansion, the outside and the inside contraction; or a vertex moved half-way to the first one. -/
def TrialPoint (S : Sim d) (x : Vec d) : Prop :=
  let m : Vec d := fun k => (∑ i : Fin d, S i.castSucc k) / d
  let w : Vec d := S (Fin.last d)
  (x = fun k => 2 * m k - w k) ∨ (x = fun k => 3 * m k - 2 * w k) ∨ (x = fun k => 3 / 2 * m k - 1 / 2 * w k) ∨
    (x = fun k => 1 / 2 * m k + 1 / 2 * w k) ∨ ∃ j, x = fun k => S 0 k + 1 / 2 * (S j k - S 0 k)

/-- As `Within`: the computed difference of two values meets the tolerance. -/
def FloatWithin (rnd : ℝ → ℝ) (tol : FVal) (a b : FVal) : Prop := FVal.le (FL.absDiff rnd a b) tol

/-- As `MinimizationOf`, for some way of adding numbers. -/
def FloatMinimizationOf (rnd : ℝ → ℝ) (P : NMParams) (G : Vec d → FVal → Prop) (s : Simplex d) (r : SRes d) : Prop :=
  ∃ (A : FL.Arith d) (f : ℕ → Vec d → FVal) (fake : Option (ℕ → Vec d → FVal)) (sim0 : Sim d),
    A.rnd = rnd ∧ A.Valid ∧ (∀ n x, G x (f n x)) ∧ s = List.ofFn sim0 ∧ IsFloatTwoStep A P f fake sim0 r

end NF.Spec
