import Verif.Model.FloatController
import Verif.Model.Setup

/-!
# `_mesh_helper.py` and `Controller.__init__` in floating-point arithmetic

The same functions as in `Model/Mesh` and `Model/Setup`, with every arithmetic operation rounded.
`sin`, `cos`, `sqrt` and the QR decomposition (LAPACK) of `get_circle_stencil` and `get_sphere_stencil` are not modelled with rounding: there the stencil `'auto'` is a parameter (see `FL.setup`).
-/

noncomputable section
open Classical

namespace NF.FL
variable {d : ℕ}

/-- `np.linspace(lower, upper, m, endpoint=endpoint)` (numpy/core/function_base.py): `step = (stop - start) / div` with `div = num - 1` or `num`, `y = arange(0, num) * step + start`, and the last number is `stop` if `endpoint and num > 1`.
For `div = 0` (one number, with endpoint) numpy does not divide; the number is then `start`, as here. -/
def linspace (rnd : ℝ → ℝ) (lower upper : ℝ) (m : ℕ) (endpoint : Bool) : List ℝ :=
  (List.range m).map fun k : ℕ =>
    if endpoint = true ∧ 1 < m ∧ k + 1 = m then upper
    else rnd (rnd ((k : ℝ) * rnd (rnd (upper - lower) / (if endpoint then (m : ℝ) - 1 else m))) + lower)

/-- `np.allclose(v, 0)`, with the float next to `1e-8`. -/
def allcloseZero (rnd : ℝ → ℝ) (v : Vec d) : Prop := ∀ i, |v i| ≤ rnd (1 / 10 ^ 8)

/-- _mesh_helper.py:25-34, as `NF.meshVertices`. -/
def meshVertices (rnd : ℝ → ℝ) (lower upper : Vec d) (meshSize : Fin d → ℕ) (periodic skipOrigin : Bool) : List (Vec d) :=
  let vertices := productList fun i => linspace rnd (lower i) (upper i) (meshSize i) (!periodic)
  if skipOrigin then vertices.filter fun v => decide (¬ allcloseZero rnd v) else vertices

/-- _mesh_helper.py:35-39, as `NF.simplexStencil`. -/
def simplexStencil (rnd : ℝ → ℝ) (lower upper : Vec d) (meshSize : Fin d → ℕ) : Fin (d + 1) → Vec d :=
  Fin.cons (fun _ => 0) fun i => Pi.single i (rnd (rnd (upper i - lower i) / (2 * meshSize i)))

/-- _mesh_helper.py:40, as `NF.meshSimplex`. -/
def meshSimplex (rnd : ℝ → ℝ) (lower upper : Vec d) (meshSize : Fin d → ℕ) (v : Vec d) : Simplex d :=
  List.ofFn fun j => fun k => rnd (v k + simplexStencil rnd lower upper meshSize j k)

/-- _mesh_helper.py:14-40, as `NF.generateMeshSimplices`. -/
def generateMeshSimplices (rnd : ℝ → ℝ) (lower upper : Vec d) (meshSize : Fin d → ℕ) (periodic skipOrigin : Bool) : List (Simplex d) :=
  (meshVertices rnd lower upper meshSize periodic skipOrigin).map (meshSimplex rnd lower upper meshSize)

/-- _controller.py:181-186, as `NF.initialSimplices`. -/
def initialSimplices (rnd : ℝ → ℝ) (cs : CoordSys d) (meshSize : Fin d → ℕ) : List (Simplex d) :=
  generateMeshSimplices rnd cs.lower cs.upper meshSize cs.periodic false

/-- refinement_stencil.py:19-36, as `NF.meshStencil`. -/
def meshStencil (rnd : ℝ → ℝ) (meshSize : Fin d → ℕ) (distMultiplier : ℝ) : List (Simplex d) :=
  generateMeshSimplices rnd (fun _ => -distMultiplier) (fun _ => distMultiplier) meshSize false true

/-- _controller.py:96, as `NF.scaleStencil`. -/
def scaleStencil (rnd : ℝ → ℝ) (stencil : List (Simplex d)) (distCutoff : ℝ) : List (Simplex d) :=
  stencil.map fun s => s.map fun v => fun k => rnd (v k * distCutoff)

/-- _controller.py:100-105, as `NF.nmParamsOf`; `0.03` and `0.05` are floats, too. -/
def nmParamsOf (rnd : ℝ → ℝ) (kw : NMKwargs) (gapThreshold distCutoff : ℝ) : NMParams where
  xtol := kw.xtol.getD (rnd (rnd 0.03 * distCutoff))
  ftol := kw.ftol.getD (FVal.ofReal (rnd (rnd 0.05 * gapThreshold)))
  maxiter := kw.maxiter.getD none
  maxfev := kw.maxfev.getD none
  fprimeCutoff := kw.fprimeCutoff.getD none
  keepHistory := kw.keepHistory.getD true

/-- _controller.py:91-98, as `NF.stencilOf`; `auto` is the array that `get_auto_stencil` returns. -/
def stencilOf (rnd : ℝ → ℝ) (auto : List (Simplex d)) (distCutoff : ℝ) : StencilArg d → Option (List (Simplex d))
  | .auto => some (scaleStencil rnd auto distCutoff)
  | .given st => some (scaleStencil rnd st distCutoff)
  | .none => none

/-- _controller.py:62-110, as `NF.setup`. -/
def setup (rnd : ℝ → ℝ) (auto : List (Simplex d)) (a : SearchArgs d) : Except Err (CtlParams d × NMParams) :=
  let coord := CoordSys.ofLimits a.limits a.periodic
  match checkDimensions (List.ofFn a.limits) a.initialMeshSize with
  | .error e => .error e
  | .ok (_, meshSize) =>
    let distCutoff := rnd (a.featureSize / 3)
    if ∃ m ∈ meshSize, m < 0 then .error .value
    else .ok
      ({ coord := coord
         gapThreshold := a.gapThreshold
         featureSize := a.featureSize
         stencil := stencilOf rnd auto distCutoff a.refinementStencil
         numMinimizeParallel := a.numMinimizeParallel
         recheckPosDist := a.recheckPosDist
         recheckCountCutoff := a.recheckCountCutoff
         simplexCheckCutoff := a.simplexCheckCutoff
         saveFile := a.saveFile
         mesh := initialSimplices rnd coord fun i => (meshSize.getD i 0).toNat
         forceInitialMesh := a.forceInitialMesh },
       nmParamsOf rnd a.nelderMead a.gapThreshold distCutoff)

end NF.FL
