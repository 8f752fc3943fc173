import Verif.Model.NelderMead
import Verif.Model.FloatDistance

/-!
# `_nelder_mead.py` and `_minimization/_run.py` in floating-point arithmetic

As in `Model/FloatCell`, every arithmetic operation is followed by a rounding.  What does no arithmetic (sorting, counting, the histories, the status, the
result) is shared with `Model/NelderMead`.  Multiplications by 1 and 2 and the constants 0.5, 1.5 are exact in floating-point arithmetic, but are rounded here as
all others are.  The function to be minimized may return any float.
-/

noncomputable section
open Classical

namespace NF.FL

variable {d : ℕ}

/-- The arithmetic: the rounding, and the ways in which `np.add.reduce` of `N` numbers (_nelder_mead.py:147) and `np.sum` of `N` numbers (_nelder_mead.py:245) add up. -/
structure Arith (d : ℕ) where
  rnd : ℝ → ℝ
  reduce : (Fin d → ℝ) → ℝ
  sum : (Fin d → ℝ) → ℝ

/-- Both sums add all the numbers, in some order and with some brackets. -/
def Arith.Valid (A : Arith d) : Prop :=
  (∀ v, RndSum A.rnd (List.ofFn v) (A.reduce v)) ∧ ∀ v, RndSum A.rnd (List.ofFn v) (A.sum v)

/-- The rounding of a result that may also be infinite or NaN. -/
def roundFVal (rnd : ℝ → ℝ) (v : FVal) : FVal :=
  match v with
  | none => FVal.nan
  | some x => if x = ⊤ ∨ x = ⊥ then v else FVal.ofReal (rnd x.toReal)

/-- `np.abs(a - b)`, as `NF.FVal.absDiff`. -/
def absDiff (rnd : ℝ → ℝ) (a b : FVal) : FVal :=
  match a, b with
  | some x, some y =>
    if x = ⊤ ∧ y = ⊤ ∨ x = ⊥ ∧ y = ⊥ then FVal.nan
    else if x = ⊤ ∨ x = ⊥ ∨ y = ⊤ ∨ y = ⊥ then FVal.inf
    else FVal.ofReal |rnd (x.toReal - y.toReal)|
  | _, _ => FVal.nan

/-- _nelder_mead.py:242-252, `_get_fprime_estimate`, as `NF.fprimeEstimate`, except that the pairs `(i, j)` with `i > j` are not added (rounding need not be
symmetric).  With `N = 0` there are no pairs; then `np.max` raises an exception, here the maximum is 0. -/
def fprimeEstimate (A : Arith d) (sim : Sim d) (fval : FVal) : FVal :=
  roundFVal A.rnd (fval.divReal (A.rnd (Real.sqrt (Finset.univ.sup' Finset.univ_nonempty
    fun ij : Fin (d + 1) × Fin (d + 1) =>
      if ij.1 < ij.2 then A.sum fun k => A.rnd (A.rnd (sim ij.2 k - sim ij.1 k) ^ 2) else 0))))

/-- _nelder_mead.py:132-135 and 213-216, as `NF.fprimeExceeded`. -/
def fprimeExceeded (A : Arith d) (P : NMParams) (sim : Sim d) (fval : FVal) : Prop :=
  match P.fprimeCutoff with
  | none => False
  | some c => FVal.gt (fprimeEstimate A sim fval) (FVal.ofReal c)

/-- _nelder_mead.py:141-144, as `NF.nmConverged`. -/
def nmConverged (A : Arith d) (P : NMParams) (s : NMState d) : Prop :=
  (∀ i : Fin d, ∀ k, |A.rnd (s.sim i.succ k - s.sim 0 k)| ≤ P.xtol) ∧
  (∀ i : Fin d, FVal.le (absDiff A.rnd (s.fsim 0) (s.fsim i.succ)) P.ftol)

/-- _nelder_mead.py:147, `xbar`. -/
def xbar (A : Arith d) (sim : Sim d) : Vec d := fun k => A.rnd (A.reduce (fun i : Fin d => sim i.castSucc k) / d)

/-- _nelder_mead.py:148, 153, 169: `(1 + c) * xbar - c * sim[-1]`, with `c = rho = 1` (reflection), `c = rho * chi = 2` (expansion), `c = psi * rho = 0.5` (outside
contraction). -/
def nmOuter (A : Arith d) (sim : Sim d) (c : ℝ) : Vec d := fun k =>
  A.rnd (A.rnd ((1 + c) * xbar A sim k) - A.rnd (c * sim (Fin.last d) k))

/-- _nelder_mead.py:179, the inside contraction: `(1 - psi) * xbar + psi * sim[-1]` with `psi = 0.5`. -/
def nmInner (A : Arith d) (sim : Sim d) : Vec d := fun k =>
  A.rnd (A.rnd (0.5 * xbar A sim k) + A.rnd (0.5 * sim (Fin.last d) k))

/-- _nelder_mead.py:190, a vertex in the shrink step: `sim[0] + sigma * (sim[j] - sim[0])` with `sigma = 0.5`; and _run.py:65-66, with 1.5 instead of `sigma`. -/
def scaleFrom (A : Arith d) (c : ℝ) (x0 x : Vec d) : Vec d := fun k => A.rnd (x0 k + A.rnd (c * A.rnd (x k - x0 k)))

/-- _nelder_mead.py:188-191, the shrink step, as `NF.nmShrink`. -/
def nmShrink (A : Arith d) (f : ℕ → Vec d → FVal) (s : NMState d) (tr : Trace d) : NMState d :=
  let sim' : Sim d := fun j => scaleFrom A 0.5 (s.sim 0) (s.sim j)
  { s with
    sim := Fin.cons (s.sim 0) fun j : Fin d => sim' j.succ
    fsim := Fin.cons (s.fsim 0) fun j : Fin d => f (tr.ncalls + j) (sim' j.succ)
    tr := tr.calls f (List.ofFn fun j : Fin d => sim' j.succ) }

/-- _nelder_mead.py:147-191, the body of the loop up to the sorting, as `NF.nmMove`. -/
def nmMove (A : Arith d) (f : ℕ → Vec d → FVal) (s : NMState d) : NMState d :=
  let xr := nmOuter A s.sim 1
  let fxr := f s.tr.ncalls xr
  let tr := s.tr.call f xr
  if FVal.lt fxr (s.fsim 0) then
    let xe := nmOuter A s.sim 2
    let fxe := f tr.ncalls xe
    let tr := tr.call f xe
    if FVal.lt fxe fxr then setLast s xe fxe tr else setLast s xr fxr tr
  else if FVal.lt fxr (s.fsim (secondLast d)) then setLast s xr fxr tr
  else if FVal.lt fxr (s.fsim (Fin.last d)) then
    let xc := nmOuter A s.sim 0.5
    let fxc := f tr.ncalls xc
    let tr := tr.call f xc
    if FVal.le fxc fxr then setLast s xc fxc tr else nmShrink A f s tr
  else
    let xcc := nmInner A s.sim
    let fxcc := f tr.ncalls xcc
    let tr := tr.call f xcc
    if FVal.lt fxcc (s.fsim (Fin.last d)) then setLast s xcc fxcc tr else nmShrink A f s tr

/-- _nelder_mead.py:147-201, one iteration, as `NF.nmIter`. -/
def nmIter (A : Arith d) (P : NMParams) (argsort : (Fin (d + 1) → FVal) → Equiv.Perm (Fin (d + 1)))
    (f : ℕ → Vec d → FVal) (s : NMState d) : NMState d :=
  let s := nmSort argsort (nmMove A f s)
  { s with
    iterations := s.iterations + 1
    simplexHistory := if P.keepHistory then s.simplexHistory ++ [s.sim] else [s.sim]
    funHistory := if P.keepHistory then s.funHistory ++ [s.fsim] else [] }

/-- the condition of the loop, line 131, and no `break` (lines 132-145), as `NF.nmContinue` -/
def nmContinue (A : Arith d) (P : NMParams) (s : NMState d) : Prop :=
  s.tr.ncalls < P.fevLimit d ∧ s.iterations < P.iterLimit d ∧ ¬ fprimeExceeded A P s.sim (s.fsim 0) ∧ ¬ nmConverged A P s

theorem nmMove_iterations (A : Arith d) (f : ℕ → Vec d → FVal) (s : NMState d) : (nmMove A f s).iterations = s.iterations := by
  unfold nmMove
  simp only
  split_ifs <;> rfl

/-- _nelder_mead.py:131-201, the loop, as `NF.nmLoop`. -/
def nmLoop (A : Arith d) (P : NMParams) (argsort : (Fin (d + 1) → FVal) → Equiv.Perm (Fin (d + 1)))
    (f : ℕ → Vec d → FVal) (s : NMState d) : NMState d :=
  if nmContinue A P s then nmLoop A P argsort f (nmIter A P argsort f s) else s
termination_by P.iterLimit d - s.iterations
decreasing_by
  rename_i h
  have h1 := h.2.1
  have : (nmIter A P argsort f s).iterations = s.iterations + 1 := by
    simp [nmIter, nmSort, nmMove_iterations]
  omega

/-- _nelder_mead.py:205-220, the status, as `NF.nmStatus`. -/
def nmStatus (A : Arith d) (P : NMParams) (s : NMState d) : ℕ :=
  if P.fevLimit d ≤ s.tr.ncalls then 1
  else if P.iterLimit d ≤ s.iterations then 2
  else if fprimeExceeded A P s.sim (npMin s.fsim) then 3
  else 0

/-- _nelder_mead.py:203-239, the result, as `NF.nmResult`. -/
def nmResult (A : Arith d) (P : NMParams) (s : NMState d) : MinRes d where
  pos := s.sim 0
  value := npMin s.fsim
  numIter := s.iterations
  numFev := s.tr.ncalls
  status := nmStatus A P s
  success := decide (nmStatus A P s = 0)
  message := nmMessage (nmStatus A P s)
  simplexHistory := s.simplexHistory
  funHistory := if P.keepHistory then some s.funHistory else none

/-- _nelder_mead.py:54-239, as `NF.nmRun`; what is before the loop (`NF.nmInit`) does no arithmetic. -/
def nmRun (A : Arith d) (P : NMParams) (argsort : (Fin (d + 1) → FVal) → Equiv.Perm (Fin (d + 1)))
    (f : ℕ → Vec d → FVal) (sim0 : Sim d) : NMState d :=
  nmLoop A P argsort f (nmInit P argsort f sim0)

/-- _nelder_mead.py:54-239, `root_nelder_mead`. -/
def rootNelderMead (A : Arith d) (P : NMParams) (argsort : (Fin (d + 1) → FVal) → Equiv.Perm (Fin (d + 1)))
    (f : ℕ → Vec d → FVal) (sim0 : Sim d) : MinRes d :=
  nmResult A P (nmRun A P argsort f sim0)

/-- _run.py:65-66, as `NF.blowup`. -/
def blowup (A : Arith d) (sim : Sim d) : Sim d := fun i => scaleFrom A 1.5 (sim 0) (sim i)

/-- _run.py:17-21, `add_fake_potential`, as `NF.addFakePotential`. -/
def addFakePotential (A : Arith d) (fake f : ℕ → Vec d → FVal) : ℕ → Vec d → FVal := fun n x => roundFVal A.rnd (FVal.add (f n x) (fake n x))

/-- _run.py:24-76, `run_minimization`, as `NF.runMinimization`. -/
def runMinimization (A : Arith d) (P : NMParams) (argsort : (Fin (d + 1) → FVal) → Equiv.Perm (Fin (d + 1)))
    (f : ℕ → Vec d → FVal) (fake : Option (ℕ → Vec d → FVal)) (sim0 : Sim d) : SRes d :=
  match fake with
  | some fake =>
    let resFake := rootNelderMead A { P with ftol := FVal.inf } argsort (addFakePotential A fake f) sim0
    let simplexFinal := resFake.simplexHistory.getLastD sim0
    .joined (rootNelderMead A P argsort (fun n => f (resFake.numFev + n)) (blowup A simplexFinal)) resFake none
  | none => .plain (rootNelderMead A P argsort f sim0)

end NF.FL
