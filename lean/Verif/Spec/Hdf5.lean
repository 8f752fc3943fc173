import Verif.Model.Hdf5
import Verif.Spec.Controller
import Verif.Spec.Graph

/-! # Specification vocabulary for saving and loading -/

noncomputable section
open Classical

namespace NF.Spec
variable {d : ℕ}

/-- All simplices of the mesh and of the stencil have `n` vertices (`dim + 1` for those of the library). -/
def VertexCount (p : CtlParams d) (n : ℕ) : Prop := (∀ s ∈ p.mesh, s.length = n) ∧ ∀ st, p.stencil = some st → ∀ s ∈ st, s.length = n

/-- Two containers of search results that cannot be told apart by their contents. -/
structure SameContents (c c' : Container d) : Prop where
  coord : c'.coord = c.coord
  gapThreshold : c'.gapThreshold = c.gapThreshold
  distCutoff : c'.distCutoff = c.distCutoff
  nodes : c'.nodes.values = c.nodes.values
  rejected : c'.rejected = c.rejected
  refined : c'.refined.values = c.refined.values

/-- Two lines with the same nodes, the same edges and the same degree count (as a mapping). -/
structure SameLine (l l' : NodalLine (Vec d)) : Prop where
  nodes : l'.graph.nodes = l.graph.nodes
  edges : ∀ x y, l'.graph.hasEdge x y ↔ l.graph.hasEdge x y
  degreeCount : l'.degreeCount.Perm l.degreeCount
  shapeName : shapeName l'.degreeCount = shapeName l.degreeCount

/-- The same shape. -/
inductive SameObjectShape : Option (Shape d) → Option (Shape d) → Prop
  | none : SameObjectShape none none
  | point (p : Vec d) : SameObjectShape (some (.point p)) (some (.point p))
  | line {l l' : NodalLine (Vec d)} : SameLine l l' → SameObjectShape (some (.line l)) (some (.line l'))

/-- The same result of the identification. -/
structure SameIdResult (r r' : IdResult d) : Prop where
  positions : r'.positions = r.positions
  dimension : r'.dimension = r.dimension
  shape : SameObjectShape r.shape r'.shape

end NF.Spec
