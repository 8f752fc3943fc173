import Verif.Model.Controller
import Verif.Model.Identify

/-!
# Model of saving and loading (`nodefinder/io.py` and the methods `to_hdf5` / `from_hdf5`)

`io.save` and `io.load` are functions of `fsc.hdf5_io` (io.py:13), which is not part of the repository; what they are trusted to do:
* `to_hdf5(obj, handle)` writes the type tag of the class and calls `obj.to_hdf5(handle)`; `from_hdf5(handle)` calls the method `from_hdf5` of the class registered for the tag.
* `SimpleHDF5Mapping` writes the attributes listed in `HDF5_ATTRIBUTES` and `HDF5_OPTIONAL`, and calls the constructor with what it has read; optional entries may be missing.
* Numbers, strings, `None`, arrays, iterables (read back as a list, in the same order) and mappings are written and read back.

An HDF5 file is a tree of groups and datasets.  Arrays are modelled with their shape and their entries in row-major order, because `np.array(list of tuples)` and
reading it back row by row is what the code does with all lists of positions.  An array read back has the same entries, exactly (`float64` is stored as it is).
-/

noncomputable section
open Classical

namespace NF

/-- A numpy array of floats: its shape, and its entries in row-major order. -/
structure NdArray where
  shape : List ℕ
  data : List FVal

/-- The real number behind a finite float (anything for `inf` and `nan`, which never occur in a position). -/
def FVal.toReal (x : FVal) : ℝ := (WithTop.untopD 0 x).toReal

/-- The first `n` pieces of `k` entries. -/
def chunks {α : Type} : ℕ → ℕ → List α → List (List α)
  | 0, _, _ => []
  | n + 1, k, l => l.take k :: chunks n k (l.drop k)

namespace NdArray
variable {d : ℕ}

/-- a tuple of floats, or a position -/
def ofVec (v : Vec d) : NdArray := ⟨[d], List.ofFn fun i => FVal.ofReal (v i)⟩

/-- `np.array(l)` for a list of arrays, tuples or nested tuples.  If their shapes differ, numpy makes an array of objects (or raises a ValueError, from version 1.24 on), which cannot be written:
`h5py` raises a TypeError.  An empty list gives an array of shape `(0,)`. -/
def stack : List NdArray → Except Err NdArray
  | [] => .ok ⟨[0], []⟩
  | a :: l => if ∀ b ∈ l, b.shape = a.shape then .ok ⟨(l.length + 1) :: a.shape, (a :: l).flatMap NdArray.data⟩ else .error .type

/-- Iterating over an array: its rows.  An array without dimensions cannot be iterated over (TypeError). -/
def rows (a : NdArray) : Except Err (List NdArray) :=
  match a.shape with
  | [] => .error .type
  | n :: rest => .ok ((chunks n rest.prod a.data).map fun c => ⟨rest, c⟩)

/-- A row as position of a `d`-dimensional problem; of another shape it is of no use (numpy raises a ValueError when it is used). -/
def toVec (d : ℕ) (a : NdArray) : Except Err (Vec d) :=
  if a.shape = [d] then .ok fun i => (a.data.getD i FVal.nan).toReal else .error .value

/-- the same for the function values of a simplex -/
def toFVals (n : ℕ) (a : NdArray) : Except Err (Fin n → FVal) :=
  if a.shape = [n] then .ok fun i => a.data.getD i FVal.nan else .error .value

/-- `[tuple(row) for row in a]` -/
def toVecs (d : ℕ) (a : NdArray) : Except Err (List (Vec d)) :=
  match a.rows with
  | .error e => .error e
  | .ok l => collect (l.map (toVec d))

/-- the vertices of a simplex -/
def ofSim {n : ℕ} (S : Fin n → Vec d) : Except Err NdArray := stack (List.ofFn fun i => ofVec (S i))

/-- the other way round -/
def toSim (n d : ℕ) (a : NdArray) : Except Err (Fin n → Vec d) :=
  match a.toVecs d with
  | .error e => .error e
  | .ok l => if h : l.length = n then .ok fun i => l.get (i.cast h.symm) else .error .value

end NdArray

/-! ## HDF5 files -/

/-- A name in a group.  The entries of a list are named by the decimal strings of their index, here by the index itself. -/
inductive H5Key
  | name (s : String)
  | idx (n : ℕ)
  deriving DecidableEq

/-- A node of the tree: a dataset (array of floats, integer, boolean, string), or a group. -/
inductive H5
  | floats (a : NdArray)
  | int (n : ℤ)
  | bool (b : Bool)
  | str (s : String)
  | group (entries : List (H5Key × H5))

namespace H5

/-- a scalar dataset -/
def real (x : ℝ) : H5 := .floats ⟨[], [FVal.ofReal x]⟩
/-- a scalar dataset -/
def fval (x : FVal) : H5 := .floats ⟨[], [x]⟩

/-- `handle[key]`: KeyError if there is no such entry; a dataset has no entries (ValueError). -/
def get (h : H5) (k : H5Key) : Except Err H5 :=
  match h with
  | .group es => match es.find? fun e => decide (e.1 = k) with
    | some e => .ok e.2
    | none => .error .key
  | _ => .error .value

/-- `handle[name]` -/
def entry (h : H5) (s : String) : Except Err H5 := h.get (.name s)

/-- `name in handle` -/
def has (h : H5) (s : String) : Bool :=
  match h.entry s with
  | .ok _ => true
  | .error _ => false

/-- the dataset as an array of floats -/
def asFloats : H5 → Except Err NdArray
  | .floats a => .ok a
  | _ => .error .type
/-- the dataset as one float -/
def asFVal : H5 → Except Err FVal
  | .floats ⟨[], [x]⟩ => .ok x
  | _ => .error .type
/-- the dataset as one (finite) float -/
def asReal (h : H5) : Except Err ℝ :=
  match h.asFVal with
  | .error e => .error e
  | .ok x => .ok x.toReal
/-- the dataset as an integer -/
def asInt : H5 → Except Err ℤ
  | .int n => .ok n
  | _ => .error .type
/-- the dataset as a natural number -/
def asNat : H5 → Except Err ℕ
  | .int n => .ok n.toNat
  | _ => .error .type
/-- the dataset as a boolean -/
def asBool : H5 → Except Err Bool
  | .bool b => .ok b
  | _ => .error .type
/-- the dataset as a string -/
def asStr : H5 → Except Err String
  | .str s => .ok s
  | _ => .error .type

/-- `to_hdf5` of an object: its type tag and its entries -/
def tagged (tag : String) (entries : List (H5Key × H5)) : H5 := .group ((.name "type_tag", .str tag) :: entries)

/-- the type tag, by which `from_hdf5` finds the class -/
def tag (h : H5) : Except Err String :=
  match h.entry "type_tag" with
  | .error e => .error e
  | .ok t => t.asStr

/-- `to_hdf5` of a list (or other iterable), given the entries -/
def ofList (l : List H5) : H5 := tagged "builtins.list" (l.zipIdx.map fun e => (.idx e.2, e.1))

/-- the number of entries named by an index -/
def numIdx : H5 → ℕ
  | .group es => (es.filter fun e => match e.1 with | .idx _ => true | .name _ => false).length
  | _ => 0

/-- `from_hdf5` of a list: its entries in the order of their index -/
def toList (h : H5) : Except Err (List H5) := collect ((List.range h.numIdx).map fun i => h.get (.idx i))

end H5

/-- Apply a reader to an entry. -/
def readEntry {α : Type} (h : H5) (s : String) (f : H5 → Except Err α) : Except Err α :=
  match h.entry s with
  | .error e => .error e
  | .ok x => f x

/-- Apply a reader to the entries of a list. -/
def readList {α : Type} (f : H5 → Except Err α) (h : H5) : Except Err (List α) :=
  match h.toList with
  | .error e => .error e
  | .ok l => collect (l.map f)

/-- the first of two steps that can fail -/
def andThen {α β : Type} (x : Except Err α) (f : α → Except Err β) : Except Err β :=
  match x with
  | .error e => .error e
  | .ok a => f a

/-! ## Results of a minimization -/

section
variable {d : ℕ}

/-- `np.array(simplex_history)`, _nelder_mead.py:222-228 -/
def historyArray {n : ℕ} (l : List (Fin n → Vec d)) : Except Err NdArray :=
  andThen (collect (l.map NdArray.ofSim)) NdArray.stack

/-- `np.array(fun_simplex_history)`, _nelder_mead.py:222-226 -/
def funHistoryArray {n : ℕ} (l : List (Fin n → FVal)) : Except Err NdArray :=
  NdArray.stack (l.map fun f => ⟨[n], List.ofFn f⟩)

/-- result/_minimization.py:99-102, `MinimizationResult.to_hdf5`: all attributes. -/
def MinRes.toH5 (r : MinRes d) : Except Err H5 :=
  andThen (historyArray r.simplexHistory) fun sh =>
  andThen (match r.funHistory with
    | none => .ok []
    | some l => andThen (funHistoryArray l) fun fh => .ok [(.name "fun_simplex_history", .floats fh)]) fun fe =>
  .ok (.tagged "nodefinder.minimization_result" ([(.name "pos", .floats (NdArray.ofVec r.pos)), (.name "value", .fval r.value), (.name "num_iter", .int r.numIter),
    (.name "num_fev", .int r.numFev), (.name "status", .int r.status), (.name "success", .bool r.success), (.name "message", .str r.message),
    (.name "simplex_history", .floats sh)] ++ fe))

/-- reading the array of the simplices -/
def readHistory (n : ℕ) (h : H5) : Except Err (List (Fin n → Vec d)) :=
  andThen h.asFloats fun a => andThen a.rows fun l => collect (l.map (NdArray.toSim n d))

/-- reading the array of the function values -/
def readFunHistory (n : ℕ) (h : H5) : Except Err (List (Fin n → FVal)) :=
  andThen h.asFloats fun a => andThen a.rows fun l => collect (l.map (NdArray.toFVals n))

/-- result/_minimization.py:104-111, `MinimizationResult.from_hdf5`: all entries but the type tag become attributes.  (The message is only for people to read; depending on the version of `h5py` it comes
back as `str` or as `bytes`.) -/
def MinRes.fromH5 (h : H5) : Except Err (MinRes d) :=
  andThen (readEntry h "pos" fun x => andThen x.asFloats (NdArray.toVec d)) fun pos =>
  andThen (readEntry h "value" H5.asFVal) fun value =>
  andThen (readEntry h "num_iter" H5.asNat) fun numIter =>
  andThen (readEntry h "num_fev" H5.asNat) fun numFev =>
  andThen (readEntry h "status" H5.asNat) fun status =>
  andThen (readEntry h "success" H5.asBool) fun success =>
  andThen (readEntry h "message" H5.asStr) fun message =>
  andThen (readEntry h "simplex_history" (readHistory (d + 1))) fun sh =>
  andThen (if h.has "fun_simplex_history" then andThen (readEntry h "fun_simplex_history" (readFunHistory (d + 1))) fun l => .ok (some l) else .ok none) fun fh =>
  .ok ⟨pos, value, numIter, numFev, status, success, message, sh, fh⟩

/-- result/_minimization.py:24-47: of a `JoinedMinimizationResult` the attributes `ancestor` and `child` are written (`HDF5_ATTRIBUTES`), but no `pos` that has been assigned to it. -/
def SRes.toH5 : SRes d → Except Err H5
  | .plain r => r.toH5
  | .joined child ancestor _ => andThen ancestor.toH5 fun a => andThen child.toH5 fun c =>
      .ok (.tagged "nodefinder.joined_minimization_result" [(.name "ancestor", a), (.name "child", c)])

/-- `from_hdf5` of a result: the class is found by the tag; result/_minimization.py:24-27 and 72 register these. -/
def SRes.fromH5 (h : H5) : Except Err (SRes d) :=
  andThen h.tag fun t =>
  if t = "nodefinder.minimization_result" then andThen (MinRes.fromH5 h) fun r => .ok (.plain r)
  else if t = "nodefinder.joined_minimization_result" ∨ t = "nodefinder.joined_result" then
    andThen (readEntry h "ancestor" MinRes.fromH5) fun a => andThen (readEntry h "child" MinRes.fromH5) fun c => .ok (.joined c a none)
  else .error .key

/-! ## Coordinate systems, containers, queues and the state of a search -/

/-- coordinate_system.py:14-34: `limits` (an array of shape `(dim, 2)`) and `periodic` are written. -/
def CoordSys.toH5 (c : CoordSys d) : Except Err H5 :=
  andThen (NdArray.stack (List.ofFn fun i => NdArray.ofVec ![c.lower i, c.upper i])) fun a =>
  .ok (.tagged "nodefinder.coordinate_system" [(.name "limits", .floats a), (.name "periodic", .bool c.periodic)])

/-- coordinate_system.py:36-40, called with what has been read. -/
def CoordSys.fromH5 (h : H5) : Except Err (CoordSys d) :=
  andThen (readEntry h "limits" fun x => andThen x.asFloats (NdArray.toSim d 2)) fun l =>
  andThen (readEntry h "periodic" H5.asBool) fun p =>
  .ok (CoordSys.ofLimits (fun i => (l i 0, l i 1)) p)

/-- _search_result_container.py:38-44, the attributes that are written.  `minimization_results` is a list of results; `refined_results` is iterated over, as a `CellList` (_cell_list.py:79-80). -/
def Container.toH5 (c : Container d) : Except Err H5 :=
  andThen c.coord.toH5 fun cs =>
  andThen (collect (c.minimizationResults.map SRes.toH5)) fun rs =>
  .ok (.tagged "nodefinder.search_result_container" [(.name "coordinate_system", cs), (.name "minimization_results", .ofList rs), (.name "dist_cutoff", .real c.distCutoff),
    (.name "gap_threshold", .real c.gapThreshold), (.name "refined_results", .ofList (c.refined.values.map fun p => .floats (NdArray.ofVec p)))])

/-- _search_result_container.py:46-83, called with what has been read; `refined_results` is optional. -/
def Container.fromH5 (h : H5) : Except Err (Container d) :=
  andThen (readEntry h "coordinate_system" CoordSys.fromH5) fun cs =>
  andThen (readEntry h "minimization_results" (readList SRes.fromH5)) fun rs =>
  andThen (readEntry h "dist_cutoff" H5.asReal) fun dc =>
  andThen (readEntry h "gap_threshold" H5.asReal) fun g =>
  andThen (if h.has "refined_results" then readEntry h "refined_results" (readList fun x => andThen x.asFloats (NdArray.toVec d)) else .ok []) fun ps =>
  .ok (Container.create cs rs g dc ps)

/-- `np.array(self.objects)` of a queue of simplices, _queue.py:79-81 -/
def simplicesArray (l : List (Simplex d)) : Except Err NdArray :=
  andThen (collect (l.map fun s => NdArray.stack (s.map NdArray.ofVec))) NdArray.stack

/-- reading it back, _queue.py:73-77 and 140-144 (`tuple(coord) for coord in simplex`) -/
def readSimplices (a : NdArray) : Except Err (List (Simplex d)) :=
  andThen a.rows fun l => collect (l.map (NdArray.toVecs d))

/-- _queue.py:79-81, `to_hdf5` of the queue of simplices; `enum` is the order of the set of running simplices -/
def simplexQueueToH5 (q : RunQueue (Simplex d)) (enum : List (Simplex d)) : Except Err H5 :=
  andThen (simplicesArray (q.objects enum)) fun a => .ok (.tagged "nodefinder.simplex_queue" [(.name "objects", .floats a)])

/-- _queue.py:73-77, `from_hdf5` of the queue of simplices -/
def simplexQueueFromH5 (h : H5) : Except Err (RunQueue (Simplex d)) :=
  andThen (readEntry h "objects" fun x => andThen x.asFloats readSimplices) fun l => .ok (RunQueue.create (normalizeSimplices l))

/-- _queue.py:79-81, `to_hdf5` of the queue of positions -/
def positionQueueToH5 (q : ObjQueue (Vec d)) : Except Err H5 :=
  andThen (NdArray.stack (q.objects.map NdArray.ofVec)) fun a => .ok (.tagged "nodefinder.position_queue" [(.name "objects", .floats a)])

/-- _queue.py:73-77, `from_hdf5` of the queue of positions -/
def positionQueueFromH5 (h : H5) : Except Err (ObjQueue (Vec d)) :=
  andThen (readEntry h "objects" fun x => andThen x.asFloats (NdArray.toVecs d)) fun l => .ok (ObjQueue.create l)

/-- result/_controller_state.py:19: the attributes that are written.  This is `io.save(self.state, ...)`, _controller.py:316. -/
def CtlState.toH5 (s : CtlState d) (enum : List (Simplex d)) : Except Err H5 :=
  andThen s.result.toH5 fun r =>
  andThen (simplexQueueToH5 s.simplexQueue enum) fun sq =>
  andThen (positionQueueToH5 s.positionQueue) fun pq =>
  .ok (.tagged "nodefinder.controller_state" [(.name "result", r), (.name "simplex_queue", sq), (.name "position_queue", pq)])

/-- result/_controller_state.py:21-24, called with what has been read.  This is `io.load(self.save_file)`, _controller.py:141. -/
def CtlState.fromH5 (h : H5) : Except Err (CtlState d) :=
  andThen (readEntry h "result" Container.fromH5) fun r =>
  andThen (readEntry h "simplex_queue" simplexQueueFromH5) fun sq =>
  andThen (readEntry h "position_queue" positionQueueFromH5) fun pq =>
  .ok ⟨r, sq, pq⟩

/-- What `create_state` takes from a state that has been loaded (_controller.py:145-158); no simplex of a loaded queue is running. -/
def CtlState.toSaved (s : CtlState d) : Saved d where
  results := s.result.minimizationResults
  refined := s.result.refined.values
  simplices := s.simplexQueue.objects []
  positions := s.positionQueue.objects

/-! ## Results of the identification -/

/-- `to_hdf5` of `None` -/
def h5None : H5 := .tagged "builtins.none" []

/-- `to_hdf5` of a degree count: the items of a mapping -/
def counterH5 (c : Counter) : H5 := .tagged "builtins.dict" [(.name "items", .ofList (c.map fun e => .group [(.name "key", .int e.1), (.name "value", .int e.2)]))]

/-- `from_hdf5` of a degree count -/
def readCounter (h : H5) : Except Err Counter :=
  readEntry h "items" (readList fun x => andThen (readEntry x "key" H5.asInt) fun k => andThen (readEntry x "value" H5.asNat) fun v => .ok (k, v))

/-- _shapes.py:56-66, `NodalLine.to_hdf5`, given the lists of nodes and edges. -/
def SavedLine.toH5 (s : SavedLine (Vec d)) : Except Err H5 :=
  andThen (NdArray.stack (s.nodes.map NdArray.ofVec)) fun ns =>
  andThen (match s.edges with
    | none => .ok []
    | some es => andThen (collect (es.map fun e => NdArray.stack [NdArray.ofVec e.1, NdArray.ofVec e.2])) fun l =>
        andThen (NdArray.stack l) fun a => .ok [(.name "edges", .floats a)]) fun es =>
  .ok (.tagged "nodefinder.nodal_line" [(.name "graph", .group ((.name "nodes", .floats ns) :: es)), (.name "degree_count", counterH5 s.degreeCount)])

/-- a row of the array of edges: `p1, p2` (_shapes.py:77-78) -/
def readEdge (a : NdArray) : Except Err (Vec d × Vec d) :=
  andThen (a.toVecs d) fun l => match l with
    | [p, q] => .ok (p, q)
    | _ => .error .value

/-- _shapes.py:68-82, `NodalLine.from_hdf5`: the lists that are read. -/
def SavedLine.fromH5 (h : H5) : Except Err (SavedLine (Vec d)) :=
  andThen (h.entry "graph") fun g =>
  andThen (readEntry g "nodes" fun x => andThen x.asFloats (NdArray.toVecs d)) fun ns =>
  andThen (if g.has "edges" then readEntry g "edges" fun x => andThen x.asFloats fun a => andThen a.rows fun l =>
      andThen (collect (l.map readEdge)) fun es => .ok (some es) else .ok none) fun es =>
  andThen (readEntry h "degree_count" readCounter) fun dc =>
  .ok ⟨ns, es, dc⟩

/-- `to_hdf5(self.shape, ...)`, _containers.py:74: `h` is a possible content of the group.  _shapes.py:18-32 for a point. -/
inductive ShapeToH5 : Option (Shape d) → H5 → Prop
  | none : ShapeToH5 none h5None
  | point (p : Vec d) : ShapeToH5 (some (.point p)) (.tagged "nodefinder.nodal_point" [(.name "position", .floats (NdArray.ofVec p))])
  | line {l : NodalLine (Vec d)} {s : SavedLine (Vec d)} {h : H5} : LineToHdf5 l s → s.toH5 = .ok h → ShapeToH5 (some (.line l)) h

/-- `from_hdf5(hdf5_handle['shape'])`, _containers.py:78 -/
def readShape (h : H5) : Except Err (Option (Shape d)) :=
  andThen h.tag fun t =>
  if t = "builtins.none" then .ok none
  else if t = "nodefinder.nodal_point" then andThen (readEntry h "position" fun x => andThen x.asFloats (NdArray.toVec d)) fun p => .ok (some (.point p))
  else if t = "nodefinder.nodal_line" then andThen (SavedLine.fromH5 h) fun s => .ok (some (.line (lineFromHdf5 s)))
  else .error .key

/-- `to_hdf5(self.dimension, ...)`, _containers.py:72: a group, with the number or for `None`. -/
def dimensionH5 : Option ℤ → H5
  | none => h5None
  | some n => .tagged "builtins.number" [(.name "value", .int n)]

/-- `from_hdf5` of it -/
def readDimension (h : H5) : Except Err (Option ℤ) :=
  andThen h.tag fun t =>
  if t = "builtins.none" then .ok none
  else if t = "builtins.number" then andThen (readEntry h "value" H5.asInt) fun n => .ok (some n)
  else .error .key

/-- _containers.py:71-74, `IdentificationResult.to_hdf5`: `h` is a possible content of the group. -/
inductive IdResultToH5 (r : IdResult d) : H5 → Prop
  | mk {hs : H5} {a : NdArray} : ShapeToH5 r.shape hs → NdArray.stack (r.positions.map NdArray.ofVec) = .ok a →
      IdResultToH5 r (.tagged "nodefinder.identification_result" [(.name "dimension", dimensionH5 r.dimension), (.name "positions", .floats a), (.name "shape", hs)])

/-- `handle[()]`: the value of a dataset of integers.  On a group it raises an exception that depends on the version of `h5py`: `groupErr` (AttributeError in version 2.x, TypeError in version 3.x). -/
def unitItemInt (groupErr : Err) : H5 → Except Err ℤ
  | .group _ => .error groupErr
  | h => h.asInt

/-- _containers.py:79-82: `dimension`.  Only an AttributeError is caught. -/
def dimensionEntry (groupErr : Err) (h : H5) : Except Err (Option ℤ) :=
  andThen (h.entry "dimension") fun x =>
  match unitItemInt groupErr x with
  | .ok n => .ok (some n)
  | .error e => if e = .attribute then readDimension x else .error e

/-- _containers.py:76-87, `IdentificationResult.from_hdf5`.  `positions` is a dataset since `to_hdf5` writes an array, so the fallback of lines 85-86 (for old files) is not modelled. -/
def IdResult.fromH5 (groupErr : Err) (h : H5) : Except Err (IdResult d) :=
  andThen (readEntry h "shape" readShape) fun shape =>
  andThen (dimensionEntry groupErr h) fun dim =>
  andThen (readEntry h "positions" fun x => andThen x.asFloats (NdArray.toVecs d)) fun ps =>
  .ok ⟨ps, dim, shape⟩

/-- _containers.py:28, the attributes of an `IdentificationResultContainer` that are written: `h` is a possible content of the file. -/
inductive IdContainerToH5 (c : IdContainer d) : H5 → Prop
  | mk {cs : H5} {rs : List H5} : c.coord.toH5 = .ok cs → List.Forall₂ IdResultToH5 c.results rs →
      IdContainerToH5 c (.tagged "nodefinder.identification_result_container" [(.name "coordinate_system", cs), (.name "results", .ofList rs), (.name "feature_size", .real c.featureSize)])

/-- _containers.py:30-33, called with what has been read. -/
def IdContainer.fromH5 (groupErr : Err) (h : H5) : Except Err (IdContainer d) :=
  andThen (readEntry h "coordinate_system" CoordSys.fromH5) fun cs =>
  andThen (readEntry h "results" (readList (IdResult.fromH5 groupErr))) fun rs =>
  andThen (readEntry h "feature_size" H5.asReal) fun fs =>
  .ok ⟨cs, fs, rs⟩

end
end NF
