import Verif.Model.FloatController

/-!
# `_fake_potential.py` in floating-point arithmetic

The same functions as in `Model/Container`, with every arithmetic operation rounded.  The distances to all neighbours are computed in one call with an array, which may add numbers in another order than the call with a single position:
therefore the distances are an argument of their own (the hypotheses of C107 say that each is a possible result, `FL.Distance`).
-/

noncomputable section
open Classical

namespace NF.FL
variable {d : ℕ}

/-- _search_result_container.py:130-134 and 166-181, `get_all_neighbour_distances`, as `Container.allNeighbourDistances`; `dist x y` is what `CoordinateSystem.distance` returns. -/
def allNeighbourDistances (A : CtlArith d) (dist : Vec d → Vec d → ℝ) (c : Container d) (pos : Vec d) : List ℝ :=
  let positions := ((neighbourValues A c.nodes (FL.getFrac A.rnd c.coord pos)).filter fun r => decide (∃ i, r.pos i ≠ pos i)).map fun r => r.pos
  if positions = [] then [] else positions.map fun q => dist pos q

/-- _fake_potential.py:26-32, `FakePotential.__call__`, as `NF.fakePotential`. -/
def fakePotential (A : CtlArith d) (dist : Vec d → Vec d → ℝ) (result : Container d) (width : ℝ) (pos : Vec d) : FVal :=
  if (allNeighbourDistances A dist result pos).any (fun x => decide (x < width)) then FVal.inf else FVal.ofReal 0

end NF.FL
