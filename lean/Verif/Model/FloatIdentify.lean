import Verif.Model.FloatAverage
import Verif.Model.Identify

/-!
# `_dimension.py`, `_evaluate/_point.py` and `identify/_run.py` in floating-point arithmetic

As in `Model/FloatDistance`, every arithmetic operation is followed by a rounding `rnd`, and sums can be taken in any order.
-/

noncomputable section
open Classical

namespace NF.FL

variable {d : ℕ}

/-- The arithmetic of the identification: the rounding, the distances between positions that `coordinate_system.distance` computes (it is deterministic, so a pair of positions has one distance), and
`abs(np.product(la.svd(mat, compute_uv=False)))` for the matrix with the given rows (LAPACK is not modelled). -/
structure IdArith (d : ℕ) where
  rnd : ℝ → ℝ
  dist : Vec d → Vec d → ℝ
  svd : List (Vec d) → ℝ

/-! ## The dimension -/

/-- _dimension.py:80-89, `_check_count`, as `NF.checkCount`: `(2 / 3) * sum(counter.values())` is computed with two roundings. -/
def checkCount (rnd : ℝ → ℝ) (c : Counter) : Except Err (Bool × ℤ) :=
  match c.mostCommon with
  | none => .error .index
  | some (dim, count) => .ok (decide (rnd (rnd (2 / 3) * c.total) ≤ count), dim)

/-- _dimension.py:58-77, as `NF.calcLoop`. -/
def calcLoop (rnd : ℝ → ℝ) (minPos : Option ℤ) : ℕ → List (Except Err ℤ) → Counter → Except Err (Option ℤ)
  | _, [], c => match checkCount rnd c with
    | .error e => .error e
    | .ok (true, dim) => .ok (some dim)
    | .ok (false, _) => .ok none
  | i, o :: rest, c =>
    let next : Except Err (Option ℤ) := match o with
      | .error e => .error e
      | .ok dim => calcLoop rnd minPos (i + 1) rest (c.add dim)
    match minPos with
    | none => .error .type
    | some m => if m ≤ i then match checkCount rnd c with
        | .error e => .error e
        | .ok (true, dim) => .ok (some dim)
        | .ok (false, _) => next
      else next

/-- _dimension.py:180-193, `_get_volume`, as `NF.getVolume`: `r` is a possible result.  The tuple of neighbours is sorted; `tuple` lists it in any order.  `connecting_vector` may raise. -/
inductive Volume (A : IdArith d) (cs : CoordSys d) (pos : Vec d) (t : Finset (Vec d)) : Except Err ℝ → Prop
  | ok {tuple vectors} : tuple.Nodup → (∀ x, x ∈ tuple ↔ x ∈ t) → List.Forall₂ (fun neighbour v => Connecting A.rnd cs neighbour pos (.ok v)) tuple vectors →
      Volume A cs pos t (.ok (A.svd vectors))
  | raises {neighbour e} : neighbour ∈ t → Connecting A.rnd cs neighbour pos (.error e) → Volume A cs pos t (.error e)

/-- `np.average` (`np.mean`) of a non-empty list of numbers: `a` is a possible result. -/
def MeanOf (rnd : ℝ → ℝ) (l : List ℝ) (a : ℝ) : Prop := ∃ s, RndSum rnd l s ∧ a = rnd (s / l.length)

/-- `np.var` of a non-empty list of numbers: `v` is a possible result. -/
def VarOf (rnd : ℝ → ℝ) (l : List ℝ) (v : ℝ) : Prop := ∃ m, MeanOf rnd l m ∧ MeanOf rnd (l.map fun x => rnd (rnd (x - m) ^ 2)) v

/-- _dimension.py:163-176, the loop, as `NF.decideLoop`, where `volumes` are the outcomes of `_get_volume` for the tuples in the order in which they are drawn: `r` is a possible result. -/
inductive DecideLoop (rnd : ℝ → ℝ) (limit : ℝ) (minNb : ℤ) : List ℝ → List (Except Err ℝ) → Except Err (Option Bool) → Prop
  | finished {results} : DecideLoop rnd limit minNb results [] (.ok none)
  | early {results v rest avg var} : minNb ≤ results.length → 1 < results.length → MeanOf rnd results avg → VarOf rnd results var →
      rnd (Real.sqrt (rnd (var / (results.length - 1)))) < rnd (|rnd (limit - avg)| / 2) → DecideLoop rnd limit minNb results (v :: rest) (.ok (some (decide (limit < avg))))
  | undecided {results v rest avg var r} : minNb ≤ results.length → 1 < results.length → MeanOf rnd results avg → VarOf rnd results var →
      ¬ rnd (Real.sqrt (rnd (var / (results.length - 1)))) < rnd (|rnd (limit - avg)| / 2) → DecideLoop rnd limit minNb (results ++ [v]) rest r →
      DecideLoop rnd limit minNb results (.ok v :: rest) r
  | tooFew {results v rest r} : ¬ (minNb ≤ results.length ∧ 1 < results.length) → DecideLoop rnd limit minNb (results ++ [v]) rest r →
      DecideLoop rnd limit minNb results (.ok v :: rest) r
  | undecidedRaises {results e rest avg var} : minNb ≤ results.length → 1 < results.length → MeanOf rnd results avg → VarOf rnd results var →
      ¬ rnd (Real.sqrt (rnd (var / (results.length - 1)))) < rnd (|rnd (limit - avg)| / 2) → DecideLoop rnd limit minNb results (.error e :: rest) (.error e)
  | tooFewRaises {results e rest} : ¬ (minNb ≤ results.length ∧ 1 < results.length) → DecideLoop rnd limit minNb results (.error e :: rest) (.error e)

/-- _dimension.py:19, `EXACT_VALUES`, as `NF.exactValue`: with the roundings of the quotients and products. -/
def exactValue (rnd : ℝ → ℝ) : ℕ → Option ℝ
  | 1 => some 0.5
  | 2 => some (rnd (8 / rnd (9 * rnd Real.pi)))
  | 3 => some (rnd (rnd (27 * rnd Real.pi) / 512))
  | _ => none

/-- _dimension.py:126, `feature_size**dim * EXACT_VALUES[dim] / 2` (`pow` is taken to be correctly rounded; the first power is exact). -/
def limitValue (rnd : ℝ → ℝ) (featureSize : ℝ) (dim : ℕ) (v : ℝ) : ℝ := rnd (rnd ((if dim = 1 then featureSize else rnd (featureSize ^ dim)) * v) / 2)

/-- _dimension.py:112-177, `_has_dimension`, as `NF.HasDimension`: `r` is a possible result.  The number of combinations is not rounded. -/
inductive HasDimension (A : IdArith d) (g : NxGraph (Vec d) ℝ) (cs : CoordSys d) (featureSize : ℝ) (minNeighbourEvaluations : Option ℤ) (pos : Vec d) (dim : ℕ) : Except Err Bool → Prop
  | tooLarge : d < dim → HasDimension A g cs featureSize minNeighbourEvaluations pos dim (.ok false)
  | unknown : ¬ d < dim → exactValue A.rnd dim = none → HasDimension A g cs featureSize minNeighbourEvaluations pos dim (.error .notImplemented)
  | early {v phase used out volumes b} : ¬ d < dim → exactValue A.rnd dim = some v →
      Drawing (g.neighbors pos).toFinset dim (minNeighbourEvaluations.getD (g.neighbors pos).length) phase used out → List.Forall₂ (Volume A cs pos) out volumes →
      DecideLoop A.rnd (limitValue A.rnd featureSize dim v) (minNeighbourEvaluations.getD (g.neighbors pos).length) [] volumes (.ok (some b)) →
      HasDimension A g cs featureSize minNeighbourEvaluations pos dim (.ok b)
  | raises {v phase used out volumes e} : ¬ d < dim → exactValue A.rnd dim = some v →
      Drawing (g.neighbors pos).toFinset dim (minNeighbourEvaluations.getD (g.neighbors pos).length) phase used out → List.Forall₂ (Volume A cs pos) out volumes →
      DecideLoop A.rnd (limitValue A.rnd featureSize dim v) (minNeighbourEvaluations.getD (g.neighbors pos).length) [] volumes (.error e) →
      HasDimension A g cs featureSize minNeighbourEvaluations pos dim (.error e)
  | none {v used} : ¬ d < dim → exactValue A.rnd dim = some v →
      Drawing (g.neighbors pos).toFinset dim (minNeighbourEvaluations.getD (g.neighbors pos).length) (.rest ∅) used [] →
      HasDimension A g cs featureSize minNeighbourEvaluations pos dim (.ok false)
  | all {v used out volumes avg} : ¬ d < dim → exactValue A.rnd dim = some v →
      Drawing (g.neighbors pos).toFinset dim (minNeighbourEvaluations.getD (g.neighbors pos).length) (.rest ∅) used out → List.Forall₂ (fun t x => Volume A cs pos t (.ok x)) out volumes →
      DecideLoop A.rnd (limitValue A.rnd featureSize dim v) (minNeighbourEvaluations.getD (g.neighbors pos).length) [] (volumes.map .ok) (.ok none) → out ≠ [] → MeanOf A.rnd volumes avg →
      HasDimension A g cs featureSize minNeighbourEvaluations pos dim (.ok (decide (limitValue A.rnd featureSize dim v < avg)))

/-- _dimension.py:92-109, `_get_dimension`, as `NF.GetDimension`: `r` is a possible result. -/
def GetDimension (A : IdArith d) (g : NxGraph (Vec d) ℝ) (cs : CoordSys d) (featureSize : ℝ) (maxDim : ℤ) (minNeighbourEvaluations : Option ℤ) (pos : Vec d) (r : Except Err ℤ) : Prop :=
  ∃ has : ℕ → Except Err Bool, (∀ dim, HasDimension A g cs featureSize minNeighbourEvaluations pos dim (has dim)) ∧
    r = getDimensionLoop has maxDim (List.range' 1 maxDim.toNat)

/-- _dimension.py:22-77, `calculate_dimension`, as `NF.CalculateDimension`: `r` is a possible result. -/
def CalculateDimension (A : IdArith d) (g : NxGraph (Vec d) ℝ) (cs : CoordSys d) (featureSize : ℝ) (maxDim : ℤ) (minPos : Option ℤ) (minNeighbourEvaluations : Option ℤ)
    (r : Except Err (Option ℤ)) : Prop :=
  ∃ (order : List (Vec d)) (outcomes : List (Except Err ℤ)), order.Perm g.nodes ∧
    List.Forall₂ (GetDimension A g cs featureSize maxDim minNeighbourEvaluations) order outcomes ∧ r = calcLoop A.rnd minPos 0 outcomes []

/-! ## Running the identification -/

/-- _evaluate/_run.py:21-63, `evaluate_cluster`, as `NF.EvaluateCluster`: `r` is a possible result.  The evaluation of lines is not modelled with rounding: it may give anything. -/
inductive EvaluateCluster (A : IdArith d) (g : NxGraph (Vec d) ℝ) (cs : CoordSys d) : Option ℤ → Except Err (Option (Shape d)) → Prop
  | point {p} : EvaluatePoint A.rnd cs g.nodes (.ok p) → EvaluateCluster A g cs (some 0) (.ok (some (.point p)))
  | pointError {e} : EvaluatePoint A.rnd cs g.nodes (.error e) → EvaluateCluster A g cs (some 0) (.error e)
  | line {r} : EvaluateCluster A g cs (some 1) r
  | other {dim} : dim ≠ some 0 → dim ≠ some 1 → EvaluateCluster A g cs dim (.ok none)

/-- identify/_run.py:74-94, as `NF.IdentifyCluster`. -/
inductive IdentifyCluster (A : IdArith d) (cs : CoordSys d) (fs : ℝ) (g : NxGraph (Vec d) ℝ) : Except Err (IdResult d) → Prop
  | dimError {e} : CalculateDimension A g cs fs 3 (some 5) (some 10) (.error e) → IdentifyCluster A cs fs g (.error e)
  | shapeError {dim e} : CalculateDimension A g cs fs 3 (some 5) (some 10) (.ok dim) → EvaluateCluster A g cs dim (.error e) → IdentifyCluster A cs fs g (.error e)
  | ok {dim shape} : CalculateDimension A g cs fs 3 (some 5) (some 10) (.ok dim) → EvaluateCluster A g cs dim (.ok shape) → IdentifyCluster A cs fs g (.ok ⟨g.nodes, dim, shape⟩)

/-- identify/_run.py:48-99, `run_from_positions`, as `NF.RunFromPositions`: `r` is a possible result. -/
inductive RunFromPositions (A : IdArith d) (positions : List (Vec d)) (cs : CoordSys d) (fs : ℝ) : Except Err (IdContainer d) → Prop
  | ok {posUnique outcomes rs} : IsUniqueList positions posUnique → List.Forall₂ (IdentifyCluster A cs fs) (createClusters A.dist fs posUnique) outcomes →
      collect outcomes = .ok rs → RunFromPositions A positions cs fs (.ok ⟨cs, fs, rs⟩)
  | error {posUnique outcomes e} : IsUniqueList positions posUnique → List.Forall₂ (IdentifyCluster A cs fs) (createClusters A.dist fs posUnique) outcomes →
      collect outcomes = .error e → RunFromPositions A positions cs fs (.error e)

/-- identify/_run.py:22-45, `run`, as `NF.IdentifyRun`: the default `feature_size` is `result.dist_cutoff * _DIST_CUTOFF_FACTOR`, with rounding (`_DIST_CUTOFF_FACTOR` is 3). -/
inductive IdentifyRun (A : IdArith d) (input : IdInput d) : Option ℝ → Except Err (IdContainer d) → Prop
  | noCutoff {c} : input = .state c → IdentifyRun A input none (.error .attribute)
  | default {c r} : input = .container c → RunFromPositions A (c.nodes.values.map fun n => n.pos) c.coord (A.rnd (c.distCutoff * 3)) r → IdentifyRun A input none r
  | given {fs r} : RunFromPositions A (input.unwrap.nodes.values.map fun n => n.pos) input.unwrap.coord fs r → IdentifyRun A input (some fs) r

end NF.FL
