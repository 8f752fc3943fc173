import Verif.Model.Coord

/-!
# Model of `nodefinder/search/result/_cell_list.py`
-/

noncomputable section
open Classical

namespace NF

/-- A cell index: a tuple of `d` Python ints. -/
abbrev Idx (d : ℕ) := Fin d → ℤ

/-- `np.array(x, dtype=int)`: truncation towards zero (_cell_list.py:65). -/
def truncInt (x : ℝ) : ℤ := if 0 ≤ x then ⌊x⌋ else ⌈x⌉

/-- `itertools.product(*ls)`: all choices of one element per list, last coordinate fastest
(_cell_list.py:34, _mesh_helper.py:26). -/
def product {α : Type*} : {d : ℕ} → (Fin d → List α) → List (Fin d → α)
  | 0, _ => [Fin.elim0]
  | _ + 1, ls => (ls 0).flatMap fun a => (product (Fin.tail ls)).map fun f => Fin.cons a f

/-- _cell_list.py:21-36, the attributes of `CellList`.  `cells` is the object array `_cells`, as a
function on index tuples; only tuples within the array's shape exist in the code.
`cache` is the dictionary `_neighbour_indices`. -/
structure CellList (d : ℕ) (α : Type) where
  periodic : Bool
  numCells : Fin d → ℕ
  cells : Idx d → List α
  flat : List α
  cache : Idx d → Option (List (Idx d))

namespace CellList
variable {d : ℕ} {α : Type}

/-- _cell_list.py:21-36, `__init__`; the assertion `num_cells > 0` of line 27 is a hypothesis of
the theorems (the only caller passes numbers between 1 and 100). -/
def mk' (numCells : Fin d → ℕ) (periodic : Bool) : CellList d α where
  periodic := periodic
  numCells := numCells
  cells := fun _ => []
  flat := []
  cache := fun _ => none

/-- _cell_list.py:24-26, `_total_num_cells`. -/
def total (c : CellList d α) (i : Fin d) : ℤ :=
  if c.periodic then (c.numCells i : ℤ) else (c.numCells i : ℤ) + 2

/-- _cell_list.py:33-35, `_neighbour_offset`. -/
def neighbourOffset (d : ℕ) : List (Idx d) := product fun _ : Fin d => [-1, 0, 1]

/-- _cell_list.py:49-57, `_calculate_neighbour_indices`. -/
def calculateNeighbourIndices (c : CellList d α) (idx : Idx d) : List (Idx d) :=
  let indices := (neighbourOffset d).map fun o => idx + o
  if c.periodic then indices.map fun i => fun j => i j % c.total j
  else indices.filter fun i => decide ((∀ j, 0 ≤ i j) ∧ (∀ j, i j < c.total j))

/-- _cell_list.py:38-47, `_get_neighbour_indices`: lookup in the cache dictionary, filling it on a miss. -/
def getNeighbourIndices (c : CellList d α) (idx : Idx d) : List (Idx d) × CellList d α :=
  match c.cache idx with
  | some res => (res, c)
  | none =>
    let res := c.calculateNeighbourIndices idx
    (res, { c with cache := Function.update c.cache idx (some res) })

/-- _cell_list.py:64-69, `get_index`. -/
def getIndex (c : CellList d α) (frac : Vec d) : Idx d := fun i =>
  let val := truncInt (frac i * c.numCells i)
  if c.periodic then val
  else max 0 (min (val + 1) (c.total i - 1))

/-- _cell_list.py:59-62, `add_point`, for an index within the array shape.  That the index always is
within the shape is property C09, which relates this function to `addPointChecked`. -/
def addPoint (c : CellList d α) (frac : Vec d) (value : α) : CellList d α :=
  let idx := c.getIndex frac
  { c with
    cells := Function.update c.cells idx (c.cells idx ++ [value])
    flat := c.flat ++ [value] }

/-- _cell_list.py:59-62, `add_point`, with numpy's index rules for `self._cells[idx]`: an index
below `-n` or at least `n` raises IndexError, a negative one counts from the end. -/
def addPointChecked (c : CellList d α) (frac : Vec d) (value : α) : Except Err (CellList d α) :=
  let idx := c.getIndex frac
  if ∀ j, -c.total j ≤ idx j ∧ idx j < c.total j then
    let idx' : Idx d := fun j => if idx j < 0 then idx j + c.total j else idx j
    .ok { c with
      cells := Function.update c.cells idx' (c.cells idx' ++ [value])
      flat := c.flat ++ [value] }
  else .error .index

/-- _cell_list.py:71-72, `values` (also `__iter__`, line 78, and `__len__`, `__getitem__`, through the
list). -/
def values (c : CellList d α) : List α := c.flat

/-- _cell_list.py:83-86, `get_neighbour_values`, the list of everything the generator yields, computed without the
cache. -/
def neighbourValues (c : CellList d α) (frac : Vec d) : List α :=
  (c.calculateNeighbourIndices (c.getIndex frac)).flatMap c.cells

/-- _cell_list.py:83-86, `get_neighbour_values` as in the code: with the cache, which is part of the state. -/
def getNeighbourValues (c : CellList d α) (frac : Vec d) : List α × CellList d α :=
  let r := c.getNeighbourIndices (c.getIndex frac)
  (r.1.flatMap r.2.cells, r.2)

end CellList
end NF
