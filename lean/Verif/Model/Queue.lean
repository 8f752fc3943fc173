import Verif.Model.Coord
import Mathlib.Data.Finset.Card
import Mathlib.Data.Finset.Insert

/-!
# Model of `nodefinder/search/_queue.py`

Queued objects are tuples (of tuples) of floats: here, elements of an arbitrary type `α`.
`queue.Queue` is a list, oldest element first.  The Python `set`s are a `Set` (only membership tests) and a `Finset`.
-/

noncomputable section
open Classical

namespace NF

/-- _queue.py:17-81, `ObjectQueue`: `_queued_objects`, `_all_objects`, `needs_saving`. -/
structure ObjQueue (α : Type) where
  queued : List α
  all : Set α
  needsSaving : Bool

namespace ObjQueue
variable {α : Type}

/-- _queue.py:25-31, `__init__`, given the already normalized objects. -/
def create (objects : List α) : ObjQueue α where
  queued := objects
  all := {x | x ∈ objects}
  needsSaving := true

/-- _queue.py:44-63, `add_objects`, given the normalized objects.  The filter uses the set as it was before the
call, so duplicates inside one call are not removed. -/
def addObjects (q : ObjQueue α) (objects : List α) : ObjQueue α :=
  let new := objects.filter fun o => decide (o ∉ q.all)
  if new = [] then q
  else { queued := q.queued ++ new, all := q.all ∪ {x | x ∈ new}, needsSaving := true }

/-- _queue.py:41-42, `pop_queued`: `none` models the exception `queue.Empty`.  `needs_saving` is not changed. -/
def popQueued (q : ObjQueue α) : Option (α × ObjQueue α) :=
  match q.queued with
  | [] => none
  | x :: rest => some (x, { q with queued := rest })

/-- _queue.py:65-70, `has_queued`. -/
def hasQueued (q : ObjQueue α) : Bool := !q.queued.isEmpty

/-- _queue.py:37-39, `objects`. -/
def objects (q : ObjQueue α) : List α := q.queued

end ObjQueue

/-- _queue.py:84-93, `RunningQueue`: an `ObjectQueue` with `_running_objects`. -/
structure RunQueue (α : Type) where
  base : ObjQueue α
  running : Finset α

namespace RunQueue
variable {α : Type}

/-- _queue.py:91-93, `__init__`. -/
def create (objects : List α) : RunQueue α := ⟨ObjQueue.create objects, ∅⟩

/-- `add_objects`, inherited. -/
def addObjects (q : RunQueue α) (objects : List α) : RunQueue α :=
  { q with base := q.base.addObjects objects }

/-- _queue.py:101-107, `pop_queued`. -/
def popQueued (q : RunQueue α) : Option (α × RunQueue α) :=
  match q.base.popQueued with
  | none => none
  | some (x, base) => some (x, { base := base, running := insert x q.running })

/-- _queue.py:109-114, `set_finished`: `set.remove` raises KeyError if the object is absent. -/
def setFinished (q : RunQueue α) (x : α) : Except Err (RunQueue α) :=
  if x ∈ q.running then
    .ok { base := { q.base with needsSaving := true }, running := q.running.erase x }
  else .error .key

/-- _queue.py:95-99, `objects`: the running objects in the iteration order `enum` of the set, then the queued ones.
`enum` is an arbitrary duplicate-free enumeration of the set (hypothesis where used). -/
def objects (q : RunQueue α) (enum : List α) : List α := enum ++ q.base.queued

/-- _queue.py:116-121, `finished`: `not self.objects`. -/
def finished (q : RunQueue α) : Prop := q.running = ∅ ∧ q.base.queued = []

/-- _queue.py:123-128, `num_running`. -/
def numRunning (q : RunQueue α) : ℕ := q.running.card

/-- inherited `has_queued`. -/
def hasQueued (q : RunQueue α) : Bool := q.base.hasQueued

end RunQueue

/-- Python's `<=` on tuples of floats: equal, or smaller at the first component that differs. -/
def lexLe {d : ℕ} (p q : Vec d) : Prop := p = q ∨ ∃ i, (∀ j < i, p j = q j) ∧ p i < q i

/-- _queue.py:137-142, `SimplexQueue.normalize` of one simplex: `tuple(sorted(tuple(coord) for coord in simplex))`.
A simplex is the list of its vertices. -/
def normalizeSimplex {d : ℕ} (simplex : List (Vec d)) : List (Vec d) :=
  simplex.mergeSort fun p q => decide (lexLe p q)

/-- _queue.py:137-142, `SimplexQueue.normalize`. -/
def normalizeSimplices {d : ℕ} (objects : List (List (Vec d))) : List (List (Vec d)) :=
  objects.map normalizeSimplex

end NF
