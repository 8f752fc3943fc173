import Verif.Model.CellList

/-!
# `coordinate_system.py` and `_cell_list.py` in floating-point arithmetic: the operations on the way from a position to its cell

The other files of the model compute with exact real numbers.  Here every arithmetic operation is followed by a rounding `rnd`, as in the code.
-/

noncomputable section
open Classical

namespace NF.FL

variable {d : ℕ} {α : Type}

/-- C's `fmod`: the exact remainder of the division truncated towards zero (which is always representable). -/
def fmod (a b : ℝ) : ℝ := a - b * (truncInt (a / b) : ℤ)

/-- numpy's `a % b` for floats, `b ≠ 0` (`npy_divmod`): `mod = fmod(a, b)`, and `mod += b` if it is not zero and has the wrong sign. -/
def npMod (rnd : ℝ → ℝ) (a b : ℝ) : ℝ :=
  let m := fmod a b
  if m ≠ 0 ∧ ¬ (b < 0 ↔ m < 0) then rnd (m + b) else m

/-- coordinate_system.py:40, `self.size` -/
def size (rnd : ℝ → ℝ) (c : CoordSys d) : Vec d := fun i => rnd (c.upper i - c.lower i)

/-- coordinate_system.py:105-114, `normalize_position`. -/
def normalizePosition (rnd : ℝ → ℝ) (c : CoordSys d) (pos : Vec d) : Vec d := fun i =>
  if c.periodic then rnd (npMod rnd (rnd (pos i - c.lower i)) (size rnd c i) + c.lower i) else pos i

/-- coordinate_system.py:55-62, `get_frac`. -/
def getFrac (rnd : ℝ → ℝ) (c : CoordSys d) (pos : Vec d) : Vec d := fun i =>
  let frac := rnd (rnd (pos i - c.lower i) / size rnd c i)
  if c.periodic then npMod rnd frac 1 else frac

/-- _search_result_container.py:59-71, the number of cells per dimension. -/
def numCellsFor (rnd : ℝ → ℝ) (c : CoordSys d) (distCutoff : ℝ) : Fin d → ℕ := fun i =>
  if distCutoff = 0 then 100
  else (min 100 (max 1 (truncInt (rnd (size rnd c i / distCutoff))))).toNat

/-- _cell_list.py:64-69, `get_index`. -/
def getIndex (rnd : ℝ → ℝ) (c : CellList d α) (frac : Vec d) : Idx d := fun i =>
  let val := truncInt (rnd (frac i * c.numCells i))
  if c.periodic then val
  else max 0 (min (val + 1) (c.total i - 1))

/-- _cell_list.py:59-62, `add_point`, with numpy's index rules for `self._cells[idx]`. -/
def addPointChecked (rnd : ℝ → ℝ) (c : CellList d α) (frac : Vec d) (value : α) : Except Err (CellList d α) :=
  let idx := getIndex rnd c frac
  if ∀ j, -c.total j ≤ idx j ∧ idx j < c.total j then
    let idx' : Idx d := fun j => if idx j < 0 then idx j + c.total j else idx j
    .ok { c with
      cells := Function.update c.cells idx' (c.cells idx' ++ [value])
      flat := c.flat ++ [value] }
  else .error .index

end NF.FL
