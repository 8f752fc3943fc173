import Verif.Model.FloatShortestPath
import Verif.Spec.Graph

/-! # Specification vocabulary for the shortest-path evaluation of lines in double precision -/

noncomputable section
open Classical

namespace NF.Spec
variable {V : Type}

/-- The libraries are right up to a relative error of `2⁻⁴⁰`: squares, and the length of the path that is found compared with that of the shortest path (if no weight is negative).  If there is a path, one is found. -/
structure SPAccurate (L : FL.SPLib V) : Prop where
  sq : ∀ x, |L.sq x - x ^ 2| ≤ x ^ 2 / 2 ^ 40
  isPath : ∀ {g s t p}, L.dijkstra g s t p → g.IsPath s t p
  shortest : ∀ {g s t p}, (∀ e ∈ g.edges, 0 ≤ e.2.2.2) → L.dijkstra g s t p → ∀ q, g.IsPath s t q → pathWeight g p ≤ (1 + 1 / 2 ^ 40) * pathWeight g q
  total : ∀ {g s t}, GoodGraph g → s ∈ g.nodes → (∃ p, g.IsPath s t p) → ∃ p, L.dijkstra g s t p

/-- Exact libraries. -/
def exactSP : FL.SPLib V := ⟨fun x => x ^ 2, IsShortestPath⟩

end NF.Spec
