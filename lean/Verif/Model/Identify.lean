import Verif.Model.Dimension
import Verif.Model.Ballistic
import Verif.Model.DominatingSet
import Verif.Model.Container

/-!
# Model of `nodefinder/identify/_run.py`, `identify/_evaluate/` and `identify/result/`

Positions are tuples of floats or arrays; both are a `Vec d`.  Logging, warnings and `__repr__` are not modelled.
-/

noncomputable section
open Classical

namespace NF
variable {d : ℕ} {V A : Type}

/-! ## Shapes -/

/-- A graph without its edge attributes. -/
def NxGraph.strip (g : NxGraph V A) : NxGraph V Unit := ⟨g.nodes, g.edges.map fun e => (e.1, e.2.1, ())⟩

/-- identify/result/_shapes.py:35-48, `NodalLine`.  Nothing reads the attributes of the edges of its graph, so they are dropped. -/
structure NodalLine (V : Type) where
  graph : NxGraph V Unit
  degreeCount : Counter

/-- _evaluate/_line/_run.py:44-47, `_create_degree_count` -/
def createDegreeCount (g : NxGraph V A) : Counter :=
  ((g.nodes.map fun x => (g.degree x : ℤ)).foldl Counter.add []).filter fun e => decide (e.1 ≠ 2)

/-- _shapes.py:84-95: `shape_name` -/
inductive ShapeName
  | closedLoop | openLine | unknown
  deriving DecidableEq

/-- `sorted(counter.items())` -/
def sortedItems (c : Counter) : Counter := c.mergeSort fun a b => decide (a.1 < b.1 ∨ (a.1 = b.1 ∧ a.2 ≤ b.2))

/-- _shapes.py:84-95, property `shape_name` -/
def shapeName (c : Counter) : ShapeName :=
  if sortedItems c = [] then .closedLoop
  else if sortedItems c = [(1, 2)] then .openLine
  else .unknown

/-- The shape of an identified object: _shapes.py:18-32 `NodalPoint`, or `NodalLine`. -/
inductive Shape (d : ℕ)
  | point (position : Vec d)
  | line (l : NodalLine (Vec d))

/-! ## Saving a line -/

/-- What `NodalLine.to_hdf5` writes: the arrays `nodes` and `edges` (which is left out if there are no edges) and the items of the degree count. -/
structure SavedLine (V : Type) where
  nodes : List V
  edges : Option (List (V × V))
  degreeCount : Counter

/-- `es` lists the edges of the graph, every edge once, in any order and direction (as `list(graph.edges)` does). -/
def ListsEdges (g : NxGraph V A) (es : List (V × V)) : Prop :=
  ∃ l : List (V × V × A), l.Perm g.edges ∧ List.Forall₂ (fun e p => p = (e.1, e.2.1) ∨ p = (e.2.1, e.1)) l es

/-- _shapes.py:56-66, `to_hdf5`: `s` is a possible content of the file.  The items of a mapping may be written in any order. -/
inductive LineToHdf5 (l : NodalLine V) : SavedLine V → Prop
  | noEdges {dc} : l.graph.edges = [] → dc.Perm l.degreeCount → LineToHdf5 l ⟨l.graph.nodes, none, dc⟩
  | edges {es dc} : l.graph.edges ≠ [] → ListsEdges l.graph es → dc.Perm l.degreeCount → LineToHdf5 l ⟨l.graph.nodes, some es, dc⟩

/-- _shapes.py:68-82, `from_hdf5` -/
def lineFromHdf5 (s : SavedLine V) : NodalLine V :=
  let g : NxGraph V Unit := s.nodes.foldl (fun g x => g.addNode x) NxGraph.empty
  ⟨(s.edges.getD []).foldl (fun g e => g.addEdge e.1 e.2 ()) g, s.degreeCount⟩

/-! ## Evaluating a cluster -/

/-- _evaluate/_line/_run.py:38-41: what is made of the result of the method. -/
def lineResult (r : Except Err (NxGraph V A)) : Except Err (NodalLine V) :=
  match r with
  | .error e => .error e
  | .ok g => .ok ⟨g.strip, createDegreeCount g⟩

/-- _evaluate/_line/_run.py:25-41, `_evaluate_line`: `r` is a possible result. -/
inductive EvaluateLine (g : NxGraph (Vec d) ℝ) (cs : CoordSys d) (fs : ℝ) : String → Except Err (NodalLine (Vec d)) → Prop
  | invalid {m} : m ≠ "shortest_path" → m ≠ "dominating_set" → m ≠ "ballistic" → EvaluateLine g cs fs m (.error .value)
  | ballistic {n rg} : BRun g cs fs n (.done rg) → EvaluateLine g cs fs "ballistic" (lineResult (.ok rg))
  | ballisticError {n e} : BRun g cs fs n (.error e) → EvaluateLine g cs fs "ballistic" (.error e)
  | shortest {n rg} : SPRun fs g n (.done rg) → EvaluateLine g cs fs "shortest_path" (lineResult (.ok rg))
  | shortestError {n e} : SPRun fs g n (.error e) → EvaluateLine g cs fs "shortest_path" (.error e)
  | dominating {r} : EvalDominating g cs.distance fs r → EvaluateLine g cs fs "dominating_set" (lineResult r)

/-- _evaluate/_run.py:21-63, `evaluate_cluster`: `r` is a possible result, where `dim` is the dimension (`none` for `None`).  Lines 60-61 turn an `IndexError` or a `ValueError` into a warning,
and then the function returns `None`. -/
inductive EvaluateCluster (g : NxGraph (Vec d) ℝ) (cs : CoordSys d) (fs : ℝ) (method : String) : Option ℤ → Except Err (Option (Shape d)) → Prop
  | point {p} : cs.average g.nodes = .ok p → EvaluateCluster g cs fs method (some 0) (.ok (some (.point p)))
  | pointError {e} : cs.average g.nodes = .error e → EvaluateCluster g cs fs method (some 0) (.error e)
  | line {l} : EvaluateLine g cs fs method (.ok l) → EvaluateCluster g cs fs method (some 1) (.ok (some (.line l)))
  | lineWarning {e} : EvaluateLine g cs fs method (.error e) → (e = .index ∨ e = .value) → EvaluateCluster g cs fs method (some 1) (.ok none)
  | lineError {e} : EvaluateLine g cs fs method (.error e) → e ≠ .index → e ≠ .value → EvaluateCluster g cs fs method (some 1) (.error e)
  | other {dim} : dim ≠ some 0 → dim ≠ some 1 → EvaluateCluster g cs fs method dim (.ok none)

/-! ## Running the identification -/

/-- identify/result/_containers.py:47-69, `IdentificationResult` -/
structure IdResult (d : ℕ) where
  positions : List (Vec d)
  dimension : Option ℤ
  shape : Option (Shape d)

/-- identify/result/_containers.py:16-44, `IdentificationResultContainer` -/
structure IdContainer (d : ℕ) where
  coord : CoordSys d
  featureSize : ℝ
  results : List (IdResult d)

/-- identify/_run.py:74-94, the loop body for one cluster.  The arguments of `calculate_dimension` are the defaults `max_dim=3`, `min_pos_evaluations=5`, `min_neighbour_evaluations=10`
(_dimension.py:23-31). -/
inductive IdentifyCluster (cs : CoordSys d) (fs : ℝ) (method : String) (g : NxGraph (Vec d) ℝ) : Except Err (IdResult d) → Prop
  | dimError {e} : CalculateDimension g cs fs 3 (some 5) (some 10) (.error e) → IdentifyCluster cs fs method g (.error e)
  | shapeError {dim e} : CalculateDimension g cs fs 3 (some 5) (some 10) (.ok dim) → EvaluateCluster g cs fs method dim (.error e) → IdentifyCluster cs fs method g (.error e)
  | ok {dim shape} : CalculateDimension g cs fs 3 (some 5) (some 10) (.ok dim) → EvaluateCluster g cs fs method dim (.ok shape) →
      IdentifyCluster cs fs method g (.ok ⟨g.nodes, dim, shape⟩)

/-- identify/_run.py:73-94, the loop: the results so far, or the first exception. -/
def collect {R : Type} : List (Except Err R) → Except Err (List R)
  | [] => .ok []
  | .error e :: _ => .error e
  | .ok r :: rest => match collect rest with
    | .error e => .error e
    | .ok l => .ok (r :: l)

/-- identify/_run.py:48-99, `run_from_positions`: `r` is a possible result.  (After an exception the loop stops, so the outcomes of the clusters behind it do not matter.) -/
inductive RunFromPositions (positions : List (Vec d)) (cs : CoordSys d) (fs : ℝ) (method : String) : Except Err (IdContainer d) → Prop
  | ok {posUnique outcomes rs} : IsUniqueList positions posUnique → List.Forall₂ (IdentifyCluster cs fs method) (createClusters cs fs posUnique) outcomes →
      collect outcomes = .ok rs → RunFromPositions positions cs fs method (.ok ⟨cs, fs, rs⟩)
  | error {posUnique outcomes e} : IsUniqueList positions posUnique → List.Forall₂ (IdentifyCluster cs fs method) (createClusters cs fs posUnique) outcomes →
      collect outcomes = .error e → RunFromPositions positions cs fs method (.error e)

/-- The argument `result` of `identify.run`: a `SearchResultContainer`, or a `ControllerState` with this `result`. -/
inductive IdInput (d : ℕ)
  | container (c : Container d)
  | state (result : Container d)

/-- The container of the search results: identify/_run.py:35-36 -/
def IdInput.unwrap : IdInput d → Container d
  | .container c => c
  | .state c => c

/-- identify/_run.py:22-45, `run`: `r` is a possible result.  A `ControllerState` has no attribute `dist_cutoff` (line 34).  `_DIST_CUTOFF_FACTOR` is 3. -/
inductive IdentifyRun (input : IdInput d) (method : String) : Option ℝ → Except Err (IdContainer d) → Prop
  | noCutoff {c} : input = .state c → IdentifyRun input method none (.error .attribute)
  | default {c r} : input = .container c → RunFromPositions (c.nodes.values.map fun n => n.pos) c.coord (c.distCutoff * 3) method r → IdentifyRun input method none r
  | given {fs r} : RunFromPositions (input.unwrap.nodes.values.map fun n => n.pos) input.unwrap.coord fs method r → IdentifyRun input method (some fs) r

end NF
