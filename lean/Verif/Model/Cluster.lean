import Verif.Model.Graph

/-! # Model of `nodefinder/identify/_cluster.py` -/

noncomputable section
open Classical

namespace NF
variable {d : ℕ}

/-- _cluster.py:55, `pos_unique = list(set(...))`: a list of the different positions, in any order (the iteration order of a Python set is not specified). -/
def IsUniqueList (positions posUnique : List (Vec d)) : Prop := posUnique.Nodup ∧ ∀ x, x ∈ posUnique ↔ x ∈ positions

/-- _cluster.py:58-65, the loop over the positions.  Every pair of positions occurs once, so `add_edge` always adds a new edge. -/
def clusterEdges (cs : CoordSys d) (featureSize : ℝ) : List (Vec d) → List (Vec d × Vec d × ℝ)
  | [] => []
  | pos :: candidates =>
    (candidates.filter fun nbr => decide (cs.distance pos nbr ≤ featureSize)).map (fun nbr => (pos, nbr, cs.distance pos nbr)) ++
      clusterEdges cs featureSize candidates

/-- _cluster.py:47-66, `_create_graph`, for one order of the set. -/
def createGraph (cs : CoordSys d) (featureSize : ℝ) (posUnique : List (Vec d)) : NxGraph (Vec d) ℝ :=
  ⟨posUnique, clusterEdges cs featureSize posUnique⟩

/-- _cluster.py:17-44, `create_clusters`, for one order of the set.  `nx.freeze` is not modelled. -/
def createClusters (cs : CoordSys d) (featureSize : ℝ) (posUnique : List (Vec d)) : List (NxGraph (Vec d) ℝ) :=
  let graph := createGraph cs featureSize posUnique
  graph.connectedComponents.map fun nodes => graph.subgraph fun x => x ∈ nodes

end NF
