import Mathlib.Analysis.Real.Sqrt
import Mathlib.Algebra.Order.Floor.Ring
import Mathlib.Algebra.BigOperators.Fin

/-!
# Model of `nodefinder/coordinate_system.py`

Floats are modelled by exact real numbers.  A position of a `d`-dimensional problem
(a numpy array of shape `(d,)`) is a `Vec d`.  Numpy broadcasting over lists of positions is
not modelled: every caller in the model maps over the list.
-/

noncomputable section
open Classical

namespace NF

/-- A position / vector: a numpy array of shape `(d,)`. -/
abbrev Vec (d : ℕ) := Fin d → ℝ

/-- Exceptions that the modelled code can raise. -/
inductive Err
  | assertion | index | key | type | value | attribute | io | noPath | notImplemented
  | gap (id : ℕ)   -- an exception raised by the user's gap function
  deriving DecidableEq

/-- Python / numpy `x % s` for floats, with `s > 0` (the sign of the result is that of `s`).
Used in coordinate_system.py:61, 75, 88, 103, 111.  For `s = 0` numpy gives `nan`; the model gives `x`;
every theorem that uses it assumes `0 < s`. -/
def pmod (x s : ℝ) : ℝ := x - s * (⌊x / s⌋ : ℤ)

/-- coordinate_system.py:36-40, `CoordinateSystem.__init__`: the attributes `limits[:, 0]`,
`limits[:, 1]` and `periodic` (`dim` is the type parameter). -/
structure CoordSys (d : ℕ) where
  lower : Vec d
  upper : Vec d
  periodic : Bool

namespace CoordSys
variable {d : ℕ}

/-- coordinate_system.py:36-37: `np.array([sorted(x) for x in limits])`. -/
def ofLimits (limits : Fin d → ℝ × ℝ) (periodic : Bool) : CoordSys d where
  lower i := if (limits i).1 ≤ (limits i).2 then (limits i).1 else (limits i).2
  upper i := if (limits i).1 ≤ (limits i).2 then (limits i).2 else (limits i).1
  periodic := periodic

/-- coordinate_system.py:40: `self.size = self._upper_limits - self._lower_limits`. -/
def size (c : CoordSys d) : Vec d := fun i => c.upper i - c.lower i

/-- `scipy.linalg.norm(v)`: the Euclidean norm, used in coordinate_system.py:79. -/
def norm (v : Vec d) : ℝ := Real.sqrt (∑ i, v i ^ 2)

/-- coordinate_system.py:55-62, `get_frac`. -/
def getFrac (c : CoordSys d) (pos : Vec d) : Vec d := fun i =>
  let frac := (pos i - c.lower i) / c.size i
  if c.periodic then pmod frac 1 else frac

/-- coordinate_system.py:64-68, `get_pos`. -/
def getPos (c : CoordSys d) (frac : Vec d) : Vec d := fun i =>
  frac i * c.size i + c.lower i

/-- coordinate_system.py:74-78: the vector whose norm is the distance. -/
def distDelta (c : CoordSys d) (pos1 pos2 : Vec d) : Vec d := fun i =>
  if c.periodic then
    let delta := pmod (pos2 i - pos1 i) (c.size i)
    min (c.size i - delta) delta
  else pos2 i - pos1 i

/-- coordinate_system.py:70-79, `distance`. -/
def distance (c : CoordSys d) (pos1 pos2 : Vec d) : ℝ := norm (c.distDelta pos1 pos2)

/-- coordinate_system.py:81-92, `connecting_vector`, without the assertion of line 91. -/
def connectingVector (c : CoordSys d) (pos1 pos2 : Vec d) : Vec d := fun i =>
  if c.periodic then
    let delta := pmod (pos2 i - pos1 i) (c.size i)
    let deltaNegative := delta - c.size i
    if -deltaNegative < delta then deltaNegative else delta
  else pos2 i - pos1 i

/-- coordinate_system.py:81-92, `connecting_vector`, with the assertion of line 91
(`assert np.all(self.distance((res + pos1), pos2) < 1e-8)`). -/
def connectingVectorChecked (c : CoordSys d) (pos1 pos2 : Vec d) : Except Err (Vec d) :=
  let res := c.connectingVector pos1 pos2
  if c.periodic then
    if c.distance (res + pos1) pos2 < 1e-8 then .ok res else .error .assertion
  else .ok res

/-- `np.average(positions, axis=0)` of a non-empty list of positions. -/
def mean (ps : List (Vec d)) : Vec d := fun i => (ps.map (fun p => p i)).sum / ps.length

/-- coordinate_system.py:94-103, `average`.  An empty list raises (`positions[0]`, line 101:
IndexError; `np.average([], axis=0)`, line 99: ZeroDivisionError, here also `Err.index`). -/
def average (c : CoordSys d) (positions : List (Vec d)) : Except Err (Vec d) :=
  match positions with
  | [] => .error .index
  | origin :: _ =>
    if c.periodic then
      let deltas := positions.map (fun pos => c.connectingVector origin pos)
      .ok (fun i => pmod (origin i + mean deltas i) (c.size i))
    else .ok (mean positions)

/-- coordinate_system.py:105-114, `normalize_position`. -/
def normalizePosition (c : CoordSys d) (pos : Vec d) : Vec d := fun i =>
  if c.periodic then pmod (pos i - c.lower i) (c.size i) + c.lower i else pos i

end CoordSys
end NF
