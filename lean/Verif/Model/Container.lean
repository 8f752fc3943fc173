import Verif.Model.CellList
import Verif.Model.Result

/-!
# Model of `nodefinder/search/result/_search_result_container.py` and `search/_fake_potential.py`
-/

noncomputable section
open Classical

namespace NF

/-- _search_result_container.py:46-83, the attributes of `SearchResultContainer`. -/
structure Container (d : ℕ) where
  coord : CoordSys d
  gapThreshold : ℝ
  distCutoff : ℝ
  nodes : CellList d (SRes d)
  rejected : List (SRes d)
  refined : CellList d (Vec d)
  needsSaving : Bool

/-- _search_result_container.py:59-71: the number of cells per dimension.  For `dist_cutoff ≠ 0`:
`minimum(100, maximum(1, int(size / dist_cutoff)))`. Overflow of the conversion to int is not modelled. -/
def numCellsFor {d : ℕ} (coord : CoordSys d) (distCutoff : ℝ) : Fin d → ℕ := fun i =>
  if distCutoff = 0 then 100
  else (min 100 (max 1 (truncInt (coord.size i / distCutoff)))).toNat

namespace Container
variable {d : ℕ}

/-- the container at the start of `__init__`, with no results (lines 55-75, 78-80). -/
def empty (coord : CoordSys d) (gapThreshold distCutoff : ℝ) : Container d where
  coord := coord
  gapThreshold := gapThreshold
  distCutoff := distCutoff
  nodes := CellList.mk' (numCellsFor coord distCutoff) coord.periodic
  rejected := []
  refined := CellList.mk' (numCellsFor coord distCutoff) coord.periodic
  needsSaving := true

/-- _search_result_container.py:90-106, `add_result`.  The condition of line 100 is
`not res.success or res.value > self.gap_threshold`.  Line 106 (`self.needs_saving = True`) is unreachable, so
the flag is not changed. -/
def addResult (c : Container d) (res : SRes d) : Container d × Bool :=
  let res := res.setPos (c.coord.normalizePosition res.pos)
  if res.success = false ∨ FVal.gt res.value (FVal.ofReal c.gapThreshold) then
    ({ c with rejected := c.rejected ++ [res] }, false)
  else
    ({ c with nodes := c.nodes.addPoint (c.coord.getFrac res.pos) res }, true)

/-- _search_result_container.py:108-120, `set_refined`. -/
def setRefined (c : Container d) (pos : Vec d) : Container d :=
  { c with refined := c.refined.addPoint (c.coord.getFrac pos) pos, needsSaving := true }

/-- _search_result_container.py:46-83, `__init__`. -/
def create (coord : CoordSys d) (minimizationResults : List (SRes d)) (gapThreshold distCutoff : ℝ)
    (refinedResults : List (Vec d)) : Container d :=
  let c := minimizationResults.foldl (fun c r => (c.addResult r).1) (empty coord gapThreshold distCutoff)
  let c := refinedResults.foldl (fun c p => c.setRefined p) c
  { c with needsSaving := true }

/-- _search_result_container.py:122-128, property `minimization_results`. -/
def minimizationResults (c : Container d) : List (SRes d) := c.nodes.values ++ c.rejected

/-- _search_result_container.py:130-134, `_get_neighbour_iterator`: candidates with
`np.any(c.pos != pos)`. -/
def neighbourIterator (c : Container d) (pos : Vec d) : List (SRes d) :=
  (c.nodes.neighbourValues (c.coord.getFrac pos)).filter fun r => decide (∃ i, r.pos i ≠ pos i)

/-- _search_result_container.py:136-149, `get_neighbour_distance_iterator`. -/
def neighbourDistances (c : Container d) (pos : Vec d) : List ℝ :=
  (c.neighbourIterator pos).map fun r => c.coord.distance pos r.pos

/-- _search_result_container.py:151-164, `get_refined_neighbour_distance_iterator`. -/
def refinedNeighbourDistances (c : Container d) (pos : Vec d) : List ℝ :=
  (c.refined.neighbourValues (c.coord.getFrac pos)).map fun q => c.coord.distance pos q

/-- _search_result_container.py:166-181, `get_all_neighbour_distances`. -/
def allNeighbourDistances (c : Container d) (pos : Vec d) : List ℝ :=
  let positions := (c.neighbourIterator pos).map fun r => r.pos
  if positions = [] then [] else positions.map fun p => c.coord.distance pos p

end Container

/-- _fake_potential.py:26-32, `FakePotential.__call__`. -/
def fakePotential {d : ℕ} (result : Container d) (width : ℝ) (pos : Vec d) : FVal :=
  if (result.allNeighbourDistances pos).any (fun dist => decide (dist < width)) then FVal.inf
  else FVal.ofReal 0

end NF
