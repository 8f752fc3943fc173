import Verif.Model.NelderMead

/-! # Specification for C110: how often the gap function is evaluated -/

namespace NF.Spec
variable {d : ℕ}

/-- The number of evaluations of the gap function that the results report (`num_fev`, for results of two runs the sum of both). -/
def evaluations (results : List (SRes d)) : ℕ := (results.map SRes.numFev).sum

/-- The largest number of evaluations in one minimization: two runs, each with `maxfev` evaluations (by default 200 for each dimension), which the last iteration may exceed by `d + 1`. -/
def evaluationLimit (d : ℕ) (P : NMParams) : ℕ := 2 * (P.maxfev.getD (d * 200) + (d + 1))

end NF.Spec
