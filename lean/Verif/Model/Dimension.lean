import Verif.Model.Cluster
import Mathlib.LinearAlgebra.Matrix.Determinant.Basic
import Mathlib.Analysis.SpecialFunctions.Trigonometric.Basic
import Mathlib.Data.Finset.Powerset
import Mathlib.Data.Nat.Choose.Basic

/-!
# Model of `nodefinder/identify/_dimension.py`

The random choices (`random.shuffle`, `random.sample`) are arbitrary: theorems quantify over all outcomes.  Warnings are not modelled.
-/

noncomputable section
open Classical

namespace NF
variable {d : ℕ}

/-! ## Counting -/

/-- `collections.Counter`, as the list of its items in order of insertion. -/
abbrev Counter := List (ℤ × ℕ)

/-- `counter.update([x])` -/
def Counter.add : Counter → ℤ → Counter
  | [], x => [(x, 1)]
  | (y, n) :: c, x => if y = x then (y, n + 1) :: c else (y, n) :: Counter.add c x

/-- `counter.most_common(1)[0]`: the first item with the largest count; `none` for an empty counter. -/
def Counter.mostCommon : Counter → Option (ℤ × ℕ)
  | [] => none
  | (x, n) :: c => match Counter.mostCommon c with
    | none => some (x, n)
    | some (y, m) => if n < m then some (y, m) else some (x, n)

/-- `sum(counter.values())` -/
def Counter.total (c : Counter) : ℕ := (c.map Prod.snd).sum

/-- _dimension.py:80-89, `_check_count`.  (`IndexError` if nothing has been counted.)  The comparison is exact here. -/
def checkCount (c : Counter) : Except Err (Bool × ℤ) :=
  match c.mostCommon with
  | none => .error .index
  | some (dim, count) => .ok (decide ((2 / 3 : ℝ) * c.total ≤ count), dim)

/-- _dimension.py:58-77, the loop of `calculate_dimension` from position number `i` on.  `outcomes` are what `_get_dimension` gives (or would give) for the remaining positions.
`none` is the result `None`.  With `min_pos_evaluations = None` the comparison of line 59 raises a `TypeError`. -/
def calcLoop (minPos : Option ℤ) : ℕ → List (Except Err ℤ) → Counter → Except Err (Option ℤ)
  | _, [], c => match checkCount c with
    | .error e => .error e
    | .ok (true, dim) => .ok (some dim)
    | .ok (false, _) => .ok none
  | i, o :: rest, c =>
    let next : Except Err (Option ℤ) := match o with
      | .error e => .error e
      | .ok dim => calcLoop minPos (i + 1) rest (c.add dim)
    match minPos with
    | none => .error .type
    | some m => if m ≤ i then match checkCount c with
        | .error e => .error e
        | .ok (true, dim) => .ok (some dim)
        | .ok (false, _) => next
      else next

/-! ## Neighbour tuples -/

/-- _dimension.py:132-161, where `draw_neighbour_tuple` is: in the loop of lines 142-147, or in that of lines 156-161 with the given remaining `neighbour_tuples`. -/
inductive DrawPhase (V : Type)
  | random
  | rest (tuples : Finset (Finset V))

/-- _dimension.py:132-161, `draw_neighbour_tuple`: `Drawing nbrs dim minNb phase used out` means that the generator can be in this phase, with these `used_tuples`, after having yielded the
tuples `out`.  A tuple of neighbours is sorted (lines 143, 152), and so it is represented by the set of its entries.  Samples which have already been used (line 145) change nothing and are left out. -/
inductive Drawing {V : Type} (nbrs : Finset V) (dim : ℕ) (minNb : ℤ) : DrawPhase V → Finset (Finset V) → List (Finset V) → Prop
  | startRandom : 10 * minNb < (nbrs.card.choose dim : ℤ) → Drawing nbrs dim minNb .random ∅ []
  | startRest : ¬ 10 * minNb < (nbrs.card.choose dim : ℤ) → Drawing nbrs dim minNb (.rest (nbrs.powersetCard dim)) ∅ []
  | sample {used out t} : Drawing nbrs dim minNb .random used out → (used.card : ℝ) < (nbrs.card.choose dim : ℝ) / 2 →
      t ∈ nbrs.powersetCard dim → t ∉ used → Drawing nbrs dim minNb .random (insert t used) (out ++ [t])
  | switch {used out} : Drawing nbrs dim minNb .random used out → ¬ (used.card : ℝ) < (nbrs.card.choose dim : ℝ) / 2 →
      Drawing nbrs dim minNb (.rest (nbrs.powersetCard dim \ used)) used out
  | batch {tuples used out vals} : Drawing nbrs dim minNb (.rest tuples) used out → tuples ≠ ∅ → vals.Nodup → (∀ t ∈ vals, t ∈ tuples) →
      vals.length = min 10 tuples.card → Drawing nbrs dim minNb (.rest (tuples \ vals.toFinset)) used (out ++ vals)

/-- _dimension.py:180-193, `_get_volume`.  The product of the singular values of the matrix with the connecting vectors as rows is the square root of the determinant of their Gram matrix (also
when there are at most as many of them as coordinates, which line 119 ensures; so line 192 is never reached). -/
def getVolume (cs : CoordSys d) (pos : Vec d) (t : Finset (Vec d)) : ℝ :=
  Real.sqrt |Matrix.det (Matrix.of fun i j : t => ∑ k, cs.connectingVector i.1 pos k * cs.connectingVector j.1 pos k)|

/-! ## The dimension at one position -/

/-- `np.average` -/
def average (l : List ℝ) : ℝ := l.sum / l.length

/-- `np.var` -/
def variance (l : List ℝ) : ℝ := average (l.map fun x => (x - average l) ^ 2)

/-- _dimension.py:19, `EXACT_VALUES`; `none` models the `KeyError`. -/
def exactValue : ℕ → Option ℝ
  | 1 => some 0.5
  | 2 => some (8 / (9 * Real.pi))
  | 3 => some (27 * Real.pi / 512)
  | _ => none

/-- _dimension.py:163-176, the loop, given the volumes of the tuples in the order in which they are drawn.  `none`: the loop ends without a decision. -/
def decideLoop (limit : ℝ) (minNb : ℤ) : List ℝ → List ℝ → Option Bool
  | _, [] => none
  | results, v :: rest =>
    if minNb ≤ results.length ∧ 1 < results.length ∧ |limit - average results| / 2 > Real.sqrt (variance results / (results.length - 1)) then
      some (decide (average results > limit))
    else decideLoop limit minNb (results ++ [v]) rest

/-- _dimension.py:112-177, `_has_dimension`: `r` is a possible result.  `np.average([])` is `nan`, which is not larger than the limit. -/
inductive HasDimension (g : NxGraph (Vec d) ℝ) (cs : CoordSys d) (featureSize : ℝ) (minNeighbourEvaluations : Option ℤ) (pos : Vec d) (dim : ℕ) : Except Err Bool → Prop
  | tooLarge : d < dim → HasDimension g cs featureSize minNeighbourEvaluations pos dim (.ok false)
  | unknown : ¬ d < dim → exactValue dim = none → HasDimension g cs featureSize minNeighbourEvaluations pos dim (.error .notImplemented)
  | early {v phase used out b} : ¬ d < dim → exactValue dim = some v →
      Drawing (g.neighbors pos).toFinset dim (minNeighbourEvaluations.getD (g.neighbors pos).length) phase used out →
      decideLoop (featureSize ^ dim * v / 2) (minNeighbourEvaluations.getD (g.neighbors pos).length) [] (out.map (getVolume cs pos)) = some b →
      HasDimension g cs featureSize minNeighbourEvaluations pos dim (.ok b)
  | all {v used out} : ¬ d < dim → exactValue dim = some v →
      Drawing (g.neighbors pos).toFinset dim (minNeighbourEvaluations.getD (g.neighbors pos).length) (.rest ∅) used out →
      decideLoop (featureSize ^ dim * v / 2) (minNeighbourEvaluations.getD (g.neighbors pos).length) [] (out.map (getVolume cs pos)) = none →
      HasDimension g cs featureSize minNeighbourEvaluations pos dim
        (.ok (decide (out ≠ [] ∧ average (out.map (getVolume cs pos)) > featureSize ^ dim * v / 2)))

/-- _dimension.py:92-109, `_get_dimension`, the loop over the dimensions in the list; `has` are the results of `_has_dimension`. -/
def getDimensionLoop (has : ℕ → Except Err Bool) (maxDim : ℤ) : List ℕ → Except Err ℤ
  | [] => .ok maxDim
  | dim :: rest => match has dim with
    | .error e => .error e
    | .ok false => .ok (dim - 1)
    | .ok true => getDimensionLoop has maxDim rest

/-- _dimension.py:92-109, `_get_dimension`: `r` is a possible result. -/
def GetDimension (g : NxGraph (Vec d) ℝ) (cs : CoordSys d) (featureSize : ℝ) (maxDim : ℤ) (minNeighbourEvaluations : Option ℤ) (pos : Vec d) (r : Except Err ℤ) : Prop :=
  ∃ has : ℕ → Except Err Bool, (∀ dim, HasDimension g cs featureSize minNeighbourEvaluations pos dim (has dim)) ∧
    r = getDimensionLoop has maxDim (List.range' 1 maxDim.toNat)

/-- _dimension.py:22-77, `calculate_dimension`: `r` is a possible result.  `order` is the shuffled list of nodes. -/
def CalculateDimension (g : NxGraph (Vec d) ℝ) (cs : CoordSys d) (featureSize : ℝ) (maxDim : ℤ) (minPos : Option ℤ) (minNeighbourEvaluations : Option ℤ)
    (r : Except Err (Option ℤ)) : Prop :=
  ∃ (order : List (Vec d)) (outcomes : List (Except Err ℤ)), order.Perm g.nodes ∧
    List.Forall₂ (GetDimension g cs featureSize maxDim minNeighbourEvaluations) order outcomes ∧ r = calcLoop minPos 0 outcomes []

end NF
