import Verif.Model.Queue

/-! # Specification vocabulary for queues: histories of calls and what they have handed out -/

noncomputable section
open Classical
namespace NF.Spec
variable {α : Type}

/-- A call on a running queue. -/
inductive QOp (α : Type)
  | add (objects : List α)
  | pop
  | finish (x : α)

/-- The queue together with a record of what was handed out (in order), and which `set_finished` calls succeeded / failed. -/
structure QTrace (α : Type) where
  queue : RunQueue α
  handedOut : List α
  finishedOk : List α
  keyErrors : List α

/-- The effect of one call. Popping an empty queue raises and changes nothing; a failing `set_finished` changes nothing. -/
def qStep (t : QTrace α) : QOp α → QTrace α
  | .add objs => { t with queue := t.queue.addObjects objs }
  | .pop => match t.queue.popQueued with
    | none => t
    | some (x, q) => { t with queue := q, handedOut := t.handedOut ++ [x] }
  | .finish x => match t.queue.setFinished x with
    | .ok q => { t with queue := q, finishedOk := t.finishedOk ++ [x] }
    | .error _ => { t with keyErrors := t.keyErrors ++ [x] }

/-- A history of calls on a new queue with the given initial objects. -/
def qRun (init : List α) (ops : List (QOp α)) : QTrace α :=
  ops.foldl qStep ⟨RunQueue.create init, [], [], []⟩

/-- All objects given to `add_objects` in a history, oldest first. -/
def addedBy : List (QOp α) → List α
  | [] => []
  | .add objs :: ops => objs ++ addedBy ops
  | _ :: ops => addedBy ops

/-- No single call hands the same object in twice. -/
def DistinctBatches (init : List α) (ops : List (QOp α)) : Prop :=
  init.Nodup ∧ ∀ objs, QOp.add objs ∈ ops → objs.Nodup

/-- A list with all but the first occurrence of each element removed. -/
def firstOccurrences : List α → List α
  | [] => []
  | x :: xs => x :: (firstOccurrences xs).filter fun y => decide (y ≠ x)

/-- `l` lists the elements of `s`, each once: a possible iteration order of the Python set `s`. -/
def IsEnum (l : List α) (s : Finset α) : Prop := l.Nodup ∧ ∀ x, x ∈ l ↔ x ∈ s

end NF.Spec
