import Verif.Model.Result
import Mathlib.Analysis.Real.Sqrt
import Mathlib.Data.EReal.Inv
import Mathlib.Data.List.OfFn
import Mathlib.Algebra.BigOperators.Fin
import Mathlib.Data.Finset.Lattice.Fold

/-!
# Model of `nodefinder/search/_minimization/_nelder_mead.py` and `_minimization/_run.py`

The function to be minimized is an oracle `f : ℕ → Vec d → FVal`: the value returned by the `n`-th call, at the given position.
So it may be impure (as the fake potential is, which changes while the minimization runs).  An exception of the function ends the
minimization with that exception; this is the step `fail` of the controller model, not part of this one.
Positions are exact real vectors; function values may be infinite or NaN.
-/

noncomputable section
open Classical

namespace NF

/-- `a / b` of floats with `b ≥ 0` a real: with numpy, division by zero gives `±inf` or NaN. -/
def FVal.divReal (a : FVal) (b : ℝ) : FVal :=
  match a with
  | none => FVal.nan
  | some x =>
    if b = 0 then (if x = 0 then FVal.nan else if 0 < x then FVal.inf else FVal.ninf)
    else ((x / (b : EReal) : EReal) : WithTop EReal)

/-- `np.min` of an array: NaN if there is a NaN. -/
def npMin {n : ℕ} (v : Fin (n + 1) → FVal) : FVal :=
  if ∃ i, v i = FVal.nan then FVal.nan else Finset.univ.inf' Finset.univ_nonempty v

/-- A simplex array of shape `(N + 1, N)`. -/
abbrev Sim (d : ℕ) := Fin (d + 1) → Vec d

/-- _nelder_mead.py:55-64, the keyword arguments.  `none` for `maxiter`, `maxfev`, `fprime_cutoff` is Python's None.
Infinite limits are not modelled, nor infinite `xtol`; `ftol` may be infinite (_run.py:58). -/
structure NMParams where
  xtol : ℝ
  ftol : FVal
  maxiter : Option ℕ
  maxfev : Option ℕ
  fprimeCutoff : Option ℝ
  keepHistory : Bool

/-- _nelder_mead.py:102-103 -/
def NMParams.iterLimit (P : NMParams) (d : ℕ) : ℕ := P.maxiter.getD (d * 200)
/-- _nelder_mead.py:104-105 -/
def NMParams.fevLimit (P : NMParams) (d : ℕ) : ℕ := P.maxfev.getD (d * 200)

/-- _nelder_mead.py:44-51, `wrap_function`: the call counter; `evals` records the calls (position and value), it is not part of the program. -/
structure Trace (d : ℕ) where
  ncalls : ℕ
  evals : List (Vec d × FVal)

/-- _nelder_mead.py:47-49: one call; the value it returns is `f t.ncalls x`. -/
def Trace.call {d : ℕ} (f : ℕ → Vec d → FVal) (t : Trace d) (x : Vec d) : Trace d :=
  ⟨t.ncalls + 1, t.evals ++ [(x, f t.ncalls x)]⟩

/-- several calls, one after the other -/
def Trace.calls {d : ℕ} (f : ℕ → Vec d → FVal) (t : Trace d) (xs : List (Vec d)) : Trace d :=
  xs.foldl (Trace.call f) t

/-- The variables of the loop. -/
structure NMState (d : ℕ) where
  sim : Sim d
  fsim : Fin (d + 1) → FVal
  tr : Trace d
  iterations : ℕ
  simplexHistory : List (Sim d)
  funHistory : List (Fin (d + 1) → FVal)

/-- _nelder_mead.py:242-252, `_get_fprime_estimate`.  The maximum is taken over all ordered pairs instead of
`itertools.combinations(sim, r=2)`; the additional pairs give 0 or the same values. -/
def fprimeEstimate {d : ℕ} (sim : Sim d) (fval : FVal) : FVal :=
  fval.divReal (Real.sqrt (Finset.univ.sup' Finset.univ_nonempty
    fun ij : Fin (d + 1) × Fin (d + 1) => ∑ k, (sim ij.2 k - sim ij.1 k) ^ 2))

/-- _nelder_mead.py:132-135 (with `fval = fsim[0]`) and 213-216 (with `fval = np.min(fsim)`). -/
def fprimeExceeded {d : ℕ} (P : NMParams) (sim : Sim d) (fval : FVal) : Prop :=
  match P.fprimeCutoff with
  | none => False
  | some c => FVal.gt (fprimeEstimate sim fval) (FVal.ofReal c)

/-- _nelder_mead.py:141-144: a maximum is at most the tolerance iff all elements are; `np.max` of an array with a NaN is NaN, and then the
comparison is false. -/
def nmConverged {d : ℕ} (P : NMParams) (s : NMState d) : Prop :=
  (∀ i : Fin d, ∀ k, |s.sim i.succ k - s.sim 0 k| ≤ P.xtol) ∧
  (∀ i : Fin d, FVal.le (FVal.absDiff (s.fsim 0) (s.fsim i.succ)) P.ftol)

/-- _nelder_mead.py:147, `xbar`: the mean of all vertices but the last. -/
def xbar {d : ℕ} (sim : Sim d) : Vec d := fun k => (∑ i : Fin d, sim i.castSucc k) / d

/-- _nelder_mead.py:148, 153, 169, 179: `(1 + c) * xbar - c * sim[-1]`, with `c = rho = 1` (reflection), `c = rho * chi = 2` (expansion),
`c = psi * rho = 0.5` (outside contraction), `c = -psi = -0.5` (inside contraction: `(1 - psi) * xbar + psi * sim[-1]`). -/
def nmPoint {d : ℕ} (sim : Sim d) (c : ℝ) : Vec d := fun k => (1 + c) * xbar sim k - c * sim (Fin.last d) k

/-- index of `fsim[-2]` (an IndexError in Python if `N = 0`) -/
def secondLast (d : ℕ) : Fin (d + 1) := ⟨d - 1, by omega⟩

/-- The result of the assignments `sim[-1] = x; fsim[-1] = v`. -/
def setLast {d : ℕ} (s : NMState d) (x : Vec d) (v : FVal) (tr : Trace d) : NMState d :=
  { s with sim := Function.update s.sim (Fin.last d) x, fsim := Function.update s.fsim (Fin.last d) v, tr := tr }

/-- _nelder_mead.py:188-191, the shrink step, with `sigma = 0.5`: each vertex but the first is moved towards the first and evaluated. -/
def nmShrink {d : ℕ} (f : ℕ → Vec d → FVal) (s : NMState d) (tr : Trace d) : NMState d :=
  let sim' : Sim d := fun j k => s.sim 0 k + 0.5 * (s.sim j k - s.sim 0 k)
  { s with
    sim := Fin.cons (s.sim 0) fun j : Fin d => sim' j.succ
    fsim := Fin.cons (s.fsim 0) fun j : Fin d => f (tr.ncalls + j) (sim' j.succ)
    tr := tr.calls f (List.ofFn fun j : Fin d => sim' j.succ) }

/-- _nelder_mead.py:147-191, the body of the loop up to the sorting. -/
def nmMove {d : ℕ} (f : ℕ → Vec d → FVal) (s : NMState d) : NMState d :=
  let xr := nmPoint s.sim 1
  let fxr := f s.tr.ncalls xr
  let tr := s.tr.call f xr
  if FVal.lt fxr (s.fsim 0) then
    let xe := nmPoint s.sim 2
    let fxe := f tr.ncalls xe
    let tr := tr.call f xe
    if FVal.lt fxe fxr then setLast s xe fxe tr else setLast s xr fxr tr
  else if FVal.lt fxr (s.fsim (secondLast d)) then setLast s xr fxr tr
  else if FVal.lt fxr (s.fsim (Fin.last d)) then
    let xc := nmPoint s.sim 0.5
    let fxc := f tr.ncalls xc
    let tr := tr.call f xc
    if FVal.le fxc fxr then setLast s xc fxc tr else nmShrink f s tr
  else
    let xcc := nmPoint s.sim (-0.5)
    let fxcc := f tr.ncalls xcc
    let tr := tr.call f xcc
    if FVal.lt fxcc (s.fsim (Fin.last d)) then setLast s xcc fxcc tr else nmShrink f s tr

/-- `np.argsort`: some permutation that sorts the values in numpy's order (NaN last).  Which one, for equal values, is not specified. -/
def IsArgsort {d : ℕ} (argsort : (Fin (d + 1) → FVal) → Equiv.Perm (Fin (d + 1))) : Prop :=
  ∀ v, Monotone (v ∘ argsort v)

/-- _nelder_mead.py:193-195 (and 119-122): sort vertices and values. -/
def nmSort {d : ℕ} (argsort : (Fin (d + 1) → FVal) → Equiv.Perm (Fin (d + 1))) (s : NMState d) : NMState d :=
  { s with sim := s.sim ∘ argsort s.fsim, fsim := s.fsim ∘ argsort s.fsim }

/-- _nelder_mead.py:147-201, one iteration. -/
def nmIter {d : ℕ} (P : NMParams) (argsort : (Fin (d + 1) → FVal) → Equiv.Perm (Fin (d + 1)))
    (f : ℕ → Vec d → FVal) (s : NMState d) : NMState d :=
  let s := nmSort argsort (nmMove f s)
  { s with
    iterations := s.iterations + 1
    simplexHistory := if P.keepHistory then s.simplexHistory ++ [s.sim] else [s.sim]
    funHistory := if P.keepHistory then s.funHistory ++ [s.fsim] else [] }

/-- the condition of the loop, line 131, and no `break` (lines 132-145) -/
def nmContinue {d : ℕ} (P : NMParams) (s : NMState d) : Prop :=
  s.tr.ncalls < P.fevLimit d ∧ s.iterations < P.iterLimit d ∧ ¬ fprimeExceeded P s.sim (s.fsim 0) ∧ ¬ nmConverged P s

theorem nmMove_iterations {d : ℕ} (f : ℕ → Vec d → FVal) (s : NMState d) : (nmMove f s).iterations = s.iterations := by
  unfold nmMove
  simp only
  split_ifs <;> rfl

/-- _nelder_mead.py:131-201, the loop. -/
def nmLoop {d : ℕ} (P : NMParams) (argsort : (Fin (d + 1) → FVal) → Equiv.Perm (Fin (d + 1)))
    (f : ℕ → Vec d → FVal) (s : NMState d) : NMState d :=
  if nmContinue P s then nmLoop P argsort f (nmIter P argsort f s) else s
termination_by P.iterLimit d - s.iterations
decreasing_by
  rename_i h
  have h1 := h.2.1
  have : (nmIter P argsort f s).iterations = s.iterations + 1 := by
    simp [nmIter, nmSort, nmMove_iterations]
  omega

/-- _nelder_mead.py:113-129, the state before the loop.  `asyncio.gather` starts the `N + 1` evaluations in this order. -/
def nmInit {d : ℕ} (P : NMParams) (argsort : (Fin (d + 1) → FVal) → Equiv.Perm (Fin (d + 1)))
    (f : ℕ → Vec d → FVal) (sim0 : Sim d) : NMState d :=
  let s : NMState d := nmSort argsort
    { sim := sim0, fsim := fun i => f i (sim0 i), tr := Trace.calls f ⟨0, []⟩ (List.ofFn sim0), iterations := 1,
      simplexHistory := [], funHistory := [] }
  { s with simplexHistory := [s.sim], funHistory := if P.keepHistory then [s.fsim] else [] }

/-- _nelder_mead.py:26-41, `_status_message`, by status. -/
def nmMessage : ℕ → String
  | 0 => "Optimization terminated successfully."
  | 1 => "Maximum number of function evaluations has been exceeded."
  | 2 => "Maximum number of iterations has been exceeded."
  | _ => "Cutoff for the maximum estimated derivativehas been exceeded."

/-- _nelder_mead.py:205-220, the status. -/
def nmStatus {d : ℕ} (P : NMParams) (s : NMState d) : ℕ :=
  if P.fevLimit d ≤ s.tr.ncalls then 1
  else if P.iterLimit d ≤ s.iterations then 2
  else if fprimeExceeded P s.sim (npMin s.fsim) then 3
  else 0

/-- _nelder_mead.py:203-239, the result. -/
def nmResult {d : ℕ} (P : NMParams) (s : NMState d) : MinRes d where
  pos := s.sim 0
  value := npMin s.fsim
  numIter := s.iterations
  numFev := s.tr.ncalls
  status := nmStatus P s
  success := decide (nmStatus P s = 0)
  message := nmMessage (nmStatus P s)
  simplexHistory := s.simplexHistory
  funHistory := if P.keepHistory then some s.funHistory else none

/-- _nelder_mead.py:54-239, `root_nelder_mead`: the final state; the result is `nmResult P` of it. -/
def nmRun {d : ℕ} (P : NMParams) (argsort : (Fin (d + 1) → FVal) → Equiv.Perm (Fin (d + 1)))
    (f : ℕ → Vec d → FVal) (sim0 : Sim d) : NMState d :=
  nmLoop P argsort f (nmInit P argsort f sim0)

/-- _nelder_mead.py:54-239, `root_nelder_mead`. -/
def rootNelderMead {d : ℕ} (P : NMParams) (argsort : (Fin (d + 1) → FVal) → Equiv.Perm (Fin (d + 1)))
    (f : ℕ → Vec d → FVal) (sim0 : Sim d) : MinRes d :=
  nmResult P (nmRun P argsort f sim0)

/-- _run.py:65-66, `simplex_final[0] + 1.5 * (simplex_final - simplex_final[0])`. -/
def blowup {d : ℕ} (sim : Sim d) : Sim d := fun i k => sim 0 k + 1.5 * (sim i k - sim 0 k)

/-- _run.py:17-21, `add_fake_potential`. -/
def addFakePotential {d : ℕ} (fake f : ℕ → Vec d → FVal) : ℕ → Vec d → FVal := fun n x => FVal.add (f n x) (fake n x)

/-- _run.py:24-76, `run_minimization`.  `simplex_history[-1]` always exists (C41); `f` counts the calls over both runs. -/
def runMinimization {d : ℕ} (P : NMParams) (argsort : (Fin (d + 1) → FVal) → Equiv.Perm (Fin (d + 1)))
    (f : ℕ → Vec d → FVal) (fake : Option (ℕ → Vec d → FVal)) (sim0 : Sim d) : SRes d :=
  match fake with
  | some fake =>
    let resFake := rootNelderMead { P with ftol := FVal.inf } argsort (addFakePotential fake f) sim0
    let simplexFinal := resFake.simplexHistory.getLastD sim0
    .joined (rootNelderMead P argsort (fun n => f (resFake.numFev + n)) (blowup simplexFinal)) resFake none
  | none => .plain (rootNelderMead P argsort f sim0)

end NF
