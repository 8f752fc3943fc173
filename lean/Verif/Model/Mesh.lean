import Verif.Model.Controller
import Mathlib.LinearAlgebra.Matrix.Notation
import Mathlib.Data.Matrix.Mul
import Mathlib.Analysis.SpecialFunctions.Trigonometric.Basic

/-!
# Model of `nodefinder/search/_mesh_helper.py` and `nodefinder/search/refinement_stencil.py`

Exact real arithmetic instead of floats.
-/

noncomputable section
open Classical

namespace NF

/-- `np.linspace(lower, upper, m, endpoint=endpoint)`: `m` equidistant points from `lower`, the last one being `upper` if `endpoint` (and `m > 1`). -/
def linspace (lower upper : ℝ) (m : ℕ) (endpoint : Bool) : List ℝ :=
  (List.range m).map fun k : ℕ => lower + (k : ℝ) * ((upper - lower) / (if endpoint then (m : ℝ) - 1 else m))

/-- `itertools.product` of `d` lists: the last coordinate changes fastest. -/
def productList : {d : ℕ} → (Fin d → List ℝ) → List (Vec d)
  | 0, _ => [fun i => i.elim0]
  | _ + 1, ls => (ls 0).flatMap fun x => (productList fun i => ls i.succ).map fun v => Fin.cons x v

/-- `np.allclose(v, 0)`: with the default tolerances, all coordinates are at most `1e-8` in absolute value. -/
def allcloseZero {d : ℕ} (v : Vec d) : Prop := ∀ i, |v i| ≤ 1 / 10 ^ 8

/-- _mesh_helper.py:25-34, the base vertices. -/
def meshVertices {d : ℕ} (lower upper : Vec d) (meshSize : Fin d → ℕ) (periodic skipOrigin : Bool) : List (Vec d) :=
  let vertices := productList fun i => linspace (lower i) (upper i) (meshSize i) (!periodic)
  if skipOrigin then vertices.filter fun v => decide (¬ allcloseZero v) else vertices

/-- _mesh_helper.py:35-39, `simplex_stencil`: the zero vector, and a multiple of each unit vector. -/
def simplexStencil {d : ℕ} (lower upper : Vec d) (meshSize : Fin d → ℕ) : Fin (d + 1) → Vec d :=
  Fin.cons (fun _ => 0) fun i => Pi.single i ((upper i - lower i) / (2 * meshSize i))

/-- _mesh_helper.py:40, `v + simplex_stencil`, as a list of vertices. -/
def meshSimplex {d : ℕ} (lower upper : Vec d) (meshSize : Fin d → ℕ) (v : Vec d) : Simplex d :=
  List.ofFn fun j => fun k => v k + simplexStencil lower upper meshSize j k

/-- _mesh_helper.py:14-40, `_generate_mesh_simplices`.  The check of the number of dimensions (lines 20-24) is not modelled: here
`limits` and `mesh_size` have the same length by their types; the controller checks it before (`checkDimensions`). -/
def generateMeshSimplices {d : ℕ} (lower upper : Vec d) (meshSize : Fin d → ℕ) (periodic skipOrigin : Bool) : List (Simplex d) :=
  (meshVertices lower upper meshSize periodic skipOrigin).map (meshSimplex lower upper meshSize)

/-- _controller.py:181-186, `get_initial_simplices`. -/
def initialSimplices {d : ℕ} (cs : CoordSys d) (meshSize : Fin d → ℕ) : List (Simplex d) :=
  generateMeshSimplices cs.lower cs.upper meshSize cs.periodic false

/-- refinement_stencil.py:19-36, `get_mesh_stencil`. -/
def meshStencil {d : ℕ} (meshSize : Fin d → ℕ) (distMultiplier : ℝ) : List (Simplex d) :=
  generateMeshSimplices (fun _ => -distMultiplier) (fun _ => distMultiplier) meshSize false true

/-- refinement_stencil.py:67-70, the simplex which is rotated. -/
def circleSimplex (numPoints : ℕ) : Fin 3 → Vec 2 :=
  ![![0, 0 + 1.5], ![1 / 2 * 5 / numPoints, Real.sqrt 3 / 2 * 5 / numPoints + 1.5],
    ![-1 / 2 * 5 / numPoints, Real.sqrt 3 / 2 * 5 / numPoints + 1.5]]

/-- refinement_stencil.py:73-76, the rotation by `phi`. -/
def rotate2 (phi : ℝ) (v : Vec 2) : Vec 2 :=
  ![Real.cos phi * v 0 - Real.sin phi * v 1, Real.sin phi * v 0 + Real.cos phi * v 1]

/-- refinement_stencil.py:56-77, `get_circle_stencil`. -/
def circleStencil (numPoints : ℕ) : List (Simplex 2) :=
  (linspace 0 (2 * Real.pi) numPoints false).map fun phi => List.ofFn fun j => rotate2 phi (circleSimplex numPoints j)

/-- refinement_stencil.py:117-125, one point of `_fibonacci_sphere_points`. -/
def fibonacciPoint (numPoints i : ℕ) : Vec 3 :=
  let z : ℝ := ((i : ℝ) + 0.5) * (2 / numPoints) - 1
  let rho := Real.sqrt (1 - z ^ 2)
  let phi : ℝ := ((i + 1) % numPoints : ℕ) * (Real.pi * (3 - Real.sqrt 5))
  ![Real.cos phi * rho, Real.sin phi * rho, z]

/-- refinement_stencil.py:109-126, `_fibonacci_sphere_points`. -/
def fibonacciPoints (numPoints : ℕ) : List (Vec 3) := (List.range numPoints).map (fibonacciPoint numPoints)

/-- `scipy.linalg.qr` of the 3x3 matrix with first column `x` and zeros elsewhere: the factors `Q` and `R[0, 0]`.
LAPACK (`dgeqrf`, `dlarfg`) makes one Householder reflector `Q = 1 - 2 v vᵀ / (vᵀ v)` with `v = x + sign(x₀) ‖x‖ e₀` and
`R[0, 0] = -sign(x₀) ‖x‖` (where the sign of 0 is +), or `Q = 1`, `R[0, 0] = x₀` if `x` is already a multiple of `e₀`;
the reflectors for the zero columns are 1. -/
def qrFirstColumn (x : Vec 3) : Matrix (Fin 3) (Fin 3) ℝ × ℝ :=
  if x 1 = 0 ∧ x 2 = 0 then (1, x 0)
  else
    let s : ℝ := if 0 ≤ x 0 then 1 else -1
    let n := Real.sqrt (∑ i, x i ^ 2)
    let v : Vec 3 := fun i => if i = 0 then x 0 + s * n else x i
    (1 - (2 / ∑ i, v i ^ 2) • Matrix.vecMulVec v v, -s * n)

/-- `np.sign` -/
def npSign (x : ℝ) : ℝ := if 0 < x then 1 else if x < 0 then -1 else 0

/-- refinement_stencil.py:94-95 and 102-103: `q_mat *= np.sign(r_mat[0, 0])`. -/
def qrSigned (x : Vec 3) : Matrix (Fin 3) (Fin 3) ℝ := npSign (qrFirstColumn x).2 • (qrFirstColumn x).1

/-- refinement_stencil.py:91-93, the simplex before it is rotated: the zero vector and the rows of `(0.25 + 0.75 * eye(3)) * edge`. -/
def sphereSimplex0 (numPoints : ℕ) : Fin 4 → Vec 3 :=
  Fin.cons (fun _ => 0) fun i : Fin 3 => fun k => (0.25 + 0.75 * (if i = k then 1 else 0)) * (3 / Real.sqrt numPoints)

/-- refinement_stencil.py:91-96, `simplex`. -/
def sphereSimplex (numPoints : ℕ) (j : Fin 4) : Vec 3 :=
  (qrSigned fun _ => 1).mulVec (sphereSimplex0 numPoints j)

/-- refinement_stencil.py:80-106, `get_sphere_stencil`. -/
def sphereStencil (numPoints : ℕ) : List (Simplex 3) :=
  (fibonacciPoints numPoints).map fun pt =>
    let pos : Vec 3 := fun k => 1.1 * pt k
    List.ofFn fun j => fun k => (qrSigned pos).mulVec (sphereSimplex numPoints j) k + pos k

/-- refinement_stencil.py:39-53, `get_auto_stencil`. -/
def autoStencil : (d : ℕ) → List (Simplex d)
  | 2 => circleStencil 5
  | 3 => sphereStencil 30
  | _ => meshStencil (fun _ => 3) 2.5

/-- _controller.py:96, `refinement_stencil * self.dist_cutoff`. -/
def scaleStencil {d : ℕ} (stencil : List (Simplex d)) (distCutoff : ℝ) : List (Simplex d) :=
  stencil.map fun s => s.map fun v => fun k => v k * distCutoff

end NF
