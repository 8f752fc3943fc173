import Verif.Model.NelderMead
import Verif.Spec.Controller

/-! # Specification vocabulary for minimizations -/

noncomputable section
open Classical
namespace NF.Spec
variable {d : ℕ}

/-- `r` is what `root_nelder_mead` returns for the function `f` (the `n`-th call, at `x`, returns `f n x`) and the initial simplex `sim0`, for
some way in which `np.argsort` orders equal values; `evals` are the calls of the function, in order. -/
def IsMinimization (P : NMParams) (f : ℕ → Vec d → FVal) (sim0 : Sim d) (r : MinRes d) (evals : List (Vec d × FVal)) : Prop :=
  ∃ argsort, IsArgsort argsort ∧ r = rootNelderMead P argsort f sim0 ∧ evals = (nmRun P argsort f sim0).tr.evals

/-- `r` is what `run_minimization` returns. -/
def IsTwoStep (P : NMParams) (f : ℕ → Vec d → FVal) (fake : Option (ℕ → Vec d → FVal)) (sim0 : Sim d) (r : SRes d) : Prop :=
  ∃ argsort, IsArgsort argsort ∧ r = runMinimization P argsort f fake sim0

/-- A finite float. -/
def Finite (v : FVal) : Prop := ∃ x : ℝ, v = FVal.ofReal x

/-- `max |a - b| ≤ tol` for two finite values. -/
def Within (tol : FVal) (a b : FVal) : Prop := FVal.le (FVal.absDiff a b) tol

/-- The length of the longest edge of a simplex. -/
def longestEdge (S : Sim d) : ℝ :=
  Finset.univ.sup' Finset.univ_nonempty fun ij : Fin (d + 1) × Fin (d + 1) => Spec.eucl (S ij.1) (S ij.2)

/-- Everything that a fresh search can reach, with any number of crashes and restarts, if every completed minimization of a simplex `s` returns
some `r` with `R s r`. -/
inductive ReachWith (p : CtlParams d) (R : Simplex d → SRes d → Prop) : Ctl d → Prop
  | start : ReachWith p R (startFresh p)
  | tail {c c' : Ctl d} (h : ReachWith p R c) (hs : CrashStep p c c')
      (hr : ∀ s r, LogEntry.completed s r ∈ c'.log → R s r) : ReachWith p R c'

/-- The results of minimizations of a gap function that at `x` may return the values `v` with `G x v`. -/
def MinimizationOf (P : NMParams) (G : Vec d → FVal → Prop) (s : Simplex d) (r : SRes d) : Prop :=
  ∃ (f : ℕ → Vec d → FVal) (fake : Option (ℕ → Vec d → FVal)) (sim0 : Sim d),
    (∀ n x, G x (f n x)) ∧ s = List.ofFn sim0 ∧ IsTwoStep P f fake sim0 r

end NF.Spec
