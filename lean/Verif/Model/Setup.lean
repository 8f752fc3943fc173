import Verif.Model.Mesh
import Verif.Model.NelderMead

/-!
# Model of `Controller.__init__` (`nodefinder/search/_controller.py`) and of the default arguments of `run_async` (`nodefinder/search/_run.py`)

How the arguments of `search.run` determine the parameters of the search loop (`CtlParams`, `Model/Controller.lean`) and of the minimizer (`NMParams`,
`Model/NelderMead.lean`).  `save_file` is only given or not; `save_delay`, `load`, `load_quiet` and `initial_state` do not influence these parameters.
-/

noncomputable section
open Classical

namespace NF

/-- The argument `nelder_mead_kwargs`: each of the options of `root_nelder_mead` (_nelder_mead.py:55-64) is given or not.  An unknown option (a `TypeError` in every
minimization) is not modelled. -/
structure NMKwargs where
  xtol : Option ℝ
  ftol : Option FVal
  maxiter : Option (Option ℕ)
  maxfev : Option (Option ℕ)
  fprimeCutoff : Option (Option ℝ)
  keepHistory : Option Bool

/-- _run.py:39: `nelder_mead_kwargs=MappingProxyType({})`. -/
def NMKwargs.empty : NMKwargs := ⟨none, none, none, none, none, none⟩

/-- The argument `refinement_stencil`: `'auto'`, `None`, or an array. -/
inductive StencilArg (d : ℕ)
  | auto
  | none
  | given (stencil : List (Simplex d))

/-- _run.py:22-43, the arguments of `run_async`, as far as they are used in `Controller.__init__`. -/
structure SearchArgs (d : ℕ) where
  limits : Fin d → ℝ × ℝ
  periodic : Bool
  saveFile : Bool
  initialMeshSize : ℤ ⊕ List ℤ
  forceInitialMesh : Bool
  refinementStencil : StencilArg d
  gapThreshold : ℝ
  featureSize : ℝ
  nelderMead : NMKwargs
  numMinimizeParallel : ℤ
  recheckPosDist : Bool
  recheckCountCutoff : ℤ
  simplexCheckCutoff : ℤ

/-- _run.py:25-43, the default arguments. -/
def SearchArgs.defaults : SearchArgs 3 where
  limits := fun _ => (0, 1)
  periodic := true
  saveFile := false
  initialMeshSize := .inl 10
  forceInitialMesh := false
  refinementStencil := .auto
  gapThreshold := 1e-6
  featureSize := 2e-3
  nelderMead := NMKwargs.empty
  numMinimizeParallel := 50
  recheckPosDist := true
  recheckCountCutoff := 0
  simplexCheckCutoff := 0

/-- _controller.py:100-105: `ChainMap(nelder_mead_kwargs, {'ftol': 0.05 * gap_threshold, 'xtol': 0.03 * self.dist_cutoff})`; and the defaults of the other options
of `root_nelder_mead` (_nelder_mead.py:60-63). -/
def nmParamsOf (kw : NMKwargs) (gapThreshold distCutoff : ℝ) : NMParams where
  xtol := kw.xtol.getD (0.03 * distCutoff)
  ftol := kw.ftol.getD (FVal.ofReal (0.05 * gapThreshold))
  maxiter := kw.maxiter.getD none
  maxfev := kw.maxfev.getD none
  fprimeCutoff := kw.fprimeCutoff.getD none
  keepHistory := kw.keepHistory.getD true

/-- _controller.py:91-98, `self.refinement_stencil`. -/
def stencilOf {d : ℕ} (distCutoff : ℝ) : StencilArg d → Option (List (Simplex d))
  | .auto => some (scaleStencil (autoStencil d) distCutoff)
  | .given st => some (scaleStencil st distCutoff)
  | .none => none

/-- _controller.py:62-110, `Controller.__init__`: the parameters of the search loop and of the minimizer.  The error of `check_dimensions` (line 70) is a `ValueError`; so is the one
of `np.linspace` for a negative number of points (which in a restart without `force_initial_mesh` is not noticed: this is not modelled). -/
def setup {d : ℕ} (a : SearchArgs d) : Except Err (CtlParams d × NMParams) :=
  let coord := CoordSys.ofLimits a.limits a.periodic
  match checkDimensions (List.ofFn a.limits) a.initialMeshSize with
  | .error e => .error e
  | .ok (_, meshSize) =>
    let distCutoff := a.featureSize / 3
    if ∃ m ∈ meshSize, m < 0 then .error .value
    else .ok
      ({ coord := coord
         gapThreshold := a.gapThreshold
         featureSize := a.featureSize
         stencil := stencilOf distCutoff a.refinementStencil
         numMinimizeParallel := a.numMinimizeParallel
         recheckPosDist := a.recheckPosDist
         recheckCountCutoff := a.recheckCountCutoff
         simplexCheckCutoff := a.simplexCheckCutoff
         saveFile := a.saveFile
         mesh := initialSimplices coord fun i => (meshSize.getD i 0).toNat
         forceInitialMesh := a.forceInitialMesh },
       nmParamsOf a.nelderMead a.gapThreshold distCutoff)

end NF
