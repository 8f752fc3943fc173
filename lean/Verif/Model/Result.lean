import Verif.Model.Coord
import Verif.Model.FVal

/-!
# Model of `nodefinder/search/result/_minimization.py`
-/

noncomputable section
open Classical

namespace NF

/-- _minimization.py:74-98, `MinimizationResult`; a namespace with these attributes.
`funHistory = none` models the absence of the attribute (keep_history=False). -/
structure MinRes (d : ℕ) where
  pos : Vec d
  value : FVal
  numIter : ℕ
  numFev : ℕ
  status : ℕ
  success : Bool
  message : String
  simplexHistory : List (Fin (d + 1) → Vec d)
  funHistory : Option (List (Fin (d + 1) → FVal))

/-- What a minimization returns: a `MinimizationResult`, or a `JoinedMinimizationResult`
(_minimization.py:29-69).  The third argument of `joined` is the instance attribute `pos` of the joined object, if
one has been assigned (`res.pos = ...` in _search_result_container.py:99 does that). -/
inductive SRes (d : ℕ)
  | plain (r : MinRes d)
  | joined (child ancestor : MinRes d) (posAttr : Option (Vec d))

namespace SRes
variable {d : ℕ}

/-- The result object whose attributes are looked up for keys that are not joined (_minimization.py:58-59). -/
def main : SRes d → MinRes d
  | plain r => r
  | joined child _ _ => child

/-- attribute `pos`: `pos` is not in JOIN_KEYS, so it is the instance attribute if assigned, else
the child's (_minimization.py:49-59). -/
def pos : SRes d → Vec d
  | plain r => r.pos
  | joined child _ posAttr => posAttr.getD child.pos

/-- assignment `res.pos = p` -/
def setPos (r : SRes d) (p : Vec d) : SRes d :=
  match r with
  | plain r => plain { r with pos := p }
  | joined child ancestor _ => joined child ancestor (some p)

/-- attribute `value` -/
def value (r : SRes d) : FVal := r.main.value
/-- attribute `success` -/
def success (r : SRes d) : Bool := r.main.success
/-- attribute `status` -/
def status (r : SRes d) : ℕ := r.main.status

/-- attribute `num_fev`: joined by addition (_minimization.py:40-42, 54-57, 62-69). -/
def numFev : SRes d → ℕ
  | plain r => r.numFev
  | joined child ancestor _ => ancestor.numFev + child.numFev

/-- attribute `num_iter`: joined by addition. -/
def numIter : SRes d → ℕ
  | plain r => r.numIter
  | joined child ancestor _ => ancestor.numIter + child.numIter

/-- attribute `simplex_history`: joined by concatenation. -/
def simplexHistory : SRes d → List (Fin (d + 1) → Vec d)
  | plain r => r.simplexHistory
  | joined child ancestor _ => ancestor.simplexHistory ++ child.simplexHistory

/-- attribute `fun_simplex_history`: joined by concatenation; AttributeError if absent
(keep_history=False). -/
def funHistory : SRes d → Except Err (List (Fin (d + 1) → FVal))
  | plain r => match r.funHistory with
    | some h => .ok h
    | none => .error .attribute
  | joined child ancestor _ => match ancestor.funHistory, child.funHistory with
    | some a, some b => .ok (a ++ b)
    | _, _ => .error .attribute

/-- What is written by `to_hdf5` and read back by `from_hdf5`: for a `JoinedMinimizationResult` only
`HDF5_ATTRIBUTES = ['ancestor', 'child']` (_minimization.py:43), so an assigned `pos` is lost; for a
`MinimizationResult` all attributes (_minimization.py:99-111). -/
def reload : SRes d → SRes d
  | plain r => plain r
  | joined child ancestor _ => joined child ancestor none

end SRes
end NF
