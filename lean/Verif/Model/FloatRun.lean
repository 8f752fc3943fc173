import Verif.Model.FloatIdentify
import Verif.Model.FloatBallistic
import Verif.Model.FloatShortestPath
import Verif.Model.FloatDominatingSet

/-!
# `identify/_evaluate/` and `identify/_run.py` in floating-point arithmetic, with the evaluation of lines

`Model/FloatIdentify` leaves the evaluation of lines open; here it is put together with the models of the three methods.
-/

noncomputable section
open Classical

namespace NF.FL

variable {d : ℕ}

/-- The arithmetic and the libraries that the identification uses. -/
structure RunArith (d : ℕ) where
  id : IdArith d
  blas : Blas d
  sp : SPLib (Vec d)
  ds : DSLib (Vec d)

variable (R : RunArith d)

/-- _evaluate/_line/_run.py:25-41, `_evaluate_line`, as `NF.EvaluateLine`: `r` is a possible result. -/
inductive EvaluateLine (g : NxGraph (Vec d) ℝ) (cs : CoordSys d) (fs : ℝ) : String → Except Err (NodalLine (Vec d)) → Prop
  | invalid {m} : m ≠ "shortest_path" → m ≠ "dominating_set" → m ≠ "ballistic" → EvaluateLine g cs fs m (.error .value)
  | ballistic {n rg} : BRun R.blas R.id.rnd g cs fs n (.done rg) → EvaluateLine g cs fs "ballistic" (lineResult (.ok rg))
  | ballisticError {n e} : BRun R.blas R.id.rnd g cs fs n (.error e) → EvaluateLine g cs fs "ballistic" (.error e)
  | shortest {n rg} : SPRun R.sp R.id.rnd fs g n (.done rg) → EvaluateLine g cs fs "shortest_path" (lineResult (.ok rg))
  | shortestError {n e} : SPRun R.sp R.id.rnd fs g n (.error e) → EvaluateLine g cs fs "shortest_path" (.error e)
  | dominating {r} : EvalDominating R.ds R.id.rnd g R.id.dist fs r → EvaluateLine g cs fs "dominating_set" (lineResult r)

/-- _evaluate/_run.py:21-63, `evaluate_cluster`, as `NF.EvaluateCluster`: `r` is a possible result, where `dim` is the dimension (`none` for `None`). -/
inductive EvaluateClusterBy (g : NxGraph (Vec d) ℝ) (cs : CoordSys d) (fs : ℝ) (method : String) : Option ℤ → Except Err (Option (Shape d)) → Prop
  | point {p} : EvaluatePoint R.id.rnd cs g.nodes (.ok p) → EvaluateClusterBy g cs fs method (some 0) (.ok (some (.point p)))
  | pointError {e} : EvaluatePoint R.id.rnd cs g.nodes (.error e) → EvaluateClusterBy g cs fs method (some 0) (.error e)
  | line {l} : EvaluateLine R g cs fs method (.ok l) → EvaluateClusterBy g cs fs method (some 1) (.ok (some (.line l)))
  | lineWarning {e} : EvaluateLine R g cs fs method (.error e) → (e = .index ∨ e = .value) → EvaluateClusterBy g cs fs method (some 1) (.ok none)
  | lineError {e} : EvaluateLine R g cs fs method (.error e) → e ≠ .index → e ≠ .value → EvaluateClusterBy g cs fs method (some 1) (.error e)
  | other {dim} : dim ≠ some 0 → dim ≠ some 1 → EvaluateClusterBy g cs fs method dim (.ok none)

/-- identify/_run.py:74-94, the loop body for one cluster, as `NF.IdentifyCluster`. -/
inductive IdentifyClusterBy (cs : CoordSys d) (fs : ℝ) (method : String) (g : NxGraph (Vec d) ℝ) : Except Err (IdResult d) → Prop
  | dimError {e} : CalculateDimension R.id g cs fs 3 (some 5) (some 10) (.error e) → IdentifyClusterBy cs fs method g (.error e)
  | shapeError {dim e} : CalculateDimension R.id g cs fs 3 (some 5) (some 10) (.ok dim) → EvaluateClusterBy R g cs fs method dim (.error e) → IdentifyClusterBy cs fs method g (.error e)
  | ok {dim shape} : CalculateDimension R.id g cs fs 3 (some 5) (some 10) (.ok dim) → EvaluateClusterBy R g cs fs method dim (.ok shape) →
      IdentifyClusterBy cs fs method g (.ok ⟨g.nodes, dim, shape⟩)

/-- identify/_run.py:48-99, `run_from_positions`, as `NF.RunFromPositions`: `r` is a possible result. -/
inductive RunBy (positions : List (Vec d)) (cs : CoordSys d) (fs : ℝ) (method : String) : Except Err (IdContainer d) → Prop
  | ok {posUnique outcomes rs} : IsUniqueList positions posUnique → List.Forall₂ (IdentifyClusterBy R cs fs method) (createClusters R.id.dist fs posUnique) outcomes →
      collect outcomes = .ok rs → RunBy positions cs fs method (.ok ⟨cs, fs, rs⟩)
  | error {posUnique outcomes e} : IsUniqueList positions posUnique → List.Forall₂ (IdentifyClusterBy R cs fs method) (createClusters R.id.dist fs posUnique) outcomes →
      collect outcomes = .error e → RunBy positions cs fs method (.error e)

/-- identify/_run.py:22-45, `run`, as `NF.IdentifyRun`, with the argument `evaluate_line_method`. -/
inductive IdentifyBy (input : IdInput d) (method : String) : Option ℝ → Except Err (IdContainer d) → Prop
  | noCutoff {c} : input = .state c → IdentifyBy input method none (.error .attribute)
  | default {c r} : input = .container c → RunBy R (c.nodes.values.map fun n => n.pos) c.coord (R.id.rnd (c.distCutoff * 3)) method r → IdentifyBy input method none r
  | given {fs r} : RunBy R (input.unwrap.nodes.values.map fun n => n.pos) input.unwrap.coord fs method r → IdentifyBy input method (some fs) r

end NF.FL
