import Verif.Model.FloatCell
import Verif.Model.Cluster

/-!
# `distance` and `connecting_vector` of `coordinate_system.py`, and `_cluster.py`, in floating-point arithmetic

As in `Model/FloatCell`, every arithmetic operation is followed by a rounding `rnd`.
-/

noncomputable section
open Classical

namespace NF.FL

variable {d : ℕ}

/-- `np.add.reduce`: a sum of the numbers, in any order and with any brackets (numpy adds small arrays from left to right and large ones pairwise; starting from the identity 0 changes nothing). -/
inductive RndSum (rnd : ℝ → ℝ) : List ℝ → ℝ → Prop
  | nil : RndSum rnd [] 0
  | one (x : ℝ) : RndSum rnd [x] x
  | add {l l' a b} : l ≠ [] → l' ≠ [] → RndSum rnd l a → RndSum rnd l' b → RndSum rnd (l ++ l') (rnd (a + b))
  | perm {l l' a} : RndSum rnd l a → l.Perm l' → RndSum rnd l' a

/-- coordinate_system.py:74-78: the vector whose norm is the distance. -/
def distDelta (rnd : ℝ → ℝ) (c : CoordSys d) (pos1 pos2 : Vec d) : Vec d := fun i =>
  if c.periodic then
    let delta := npMod rnd (rnd (pos2 i - pos1 i)) (size rnd c i)
    min (rnd (size rnd c i - delta)) delta
  else rnd (pos2 i - pos1 i)

/-- coordinate_system.py:70-79, `distance`: `v` is a possible result.  `la.norm(delta, axis=-1)` is `sqrt(add.reduce(delta * delta))`. -/
def Distance (rnd : ℝ → ℝ) (c : CoordSys d) (pos1 pos2 : Vec d) (v : ℝ) : Prop :=
  ∃ s, RndSum rnd (List.ofFn fun i => rnd (distDelta rnd c pos1 pos2 i ^ 2)) s ∧ v = rnd (Real.sqrt s)

/-- coordinate_system.py:81-92, `connecting_vector`, without the assertion of line 91. -/
def connectingVector (rnd : ℝ → ℝ) (c : CoordSys d) (pos1 pos2 : Vec d) : Vec d := fun i =>
  if c.periodic then
    let delta := npMod rnd (rnd (pos2 i - pos1 i)) (size rnd c i)
    let deltaNegative := rnd (delta - size rnd c i)
    if -deltaNegative < delta then deltaNegative else delta
  else rnd (pos2 i - pos1 i)

/-- coordinate_system.py:81-92, `connecting_vector`, with the assertion of line 91 (`assert np.all(self.distance((res + pos1), pos2) < 1e-8)`): `r` is a possible result. -/
inductive Connecting (rnd : ℝ → ℝ) (c : CoordSys d) (pos1 pos2 : Vec d) : Except Err (Vec d) → Prop
  | plain : c.periodic = false → Connecting rnd c pos1 pos2 (.ok (connectingVector rnd c pos1 pos2))
  | passed {v} : c.periodic = true → Distance rnd c (fun i => rnd (connectingVector rnd c pos1 pos2 i + pos1 i)) pos2 v → v < rnd 1e-8 →
      Connecting rnd c pos1 pos2 (.ok (connectingVector rnd c pos1 pos2))
  | failed {v} : c.periodic = true → Distance rnd c (fun i => rnd (connectingVector rnd c pos1 pos2 i + pos1 i)) pos2 v → ¬ v < rnd 1e-8 →
      Connecting rnd c pos1 pos2 (.error .assertion)

/-- _cluster.py:58-65, as `NF.clusterEdges`, with the distances that have been computed. -/
def clusterEdges (dist : Vec d → Vec d → ℝ) (featureSize : ℝ) : List (Vec d) → List (Vec d × Vec d × ℝ)
  | [] => []
  | pos :: candidates =>
    (candidates.filter fun nbr => decide (dist pos nbr ≤ featureSize)).map (fun nbr => (pos, nbr, dist pos nbr)) ++
      clusterEdges dist featureSize candidates

/-- _cluster.py:17-44 and 47-66, as `NF.createClusters`, with the distances that have been computed. -/
def createClusters (dist : Vec d → Vec d → ℝ) (featureSize : ℝ) (posUnique : List (Vec d)) : List (NxGraph (Vec d) ℝ) :=
  let graph : NxGraph (Vec d) ℝ := ⟨posUnique, clusterEdges dist featureSize posUnique⟩
  graph.connectedComponents.map fun nodes => graph.subgraph fun x => x ∈ nodes

end NF.FL
