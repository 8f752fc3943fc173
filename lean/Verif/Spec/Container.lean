import Verif.Model.Container
import Verif.Spec.Lattice

/-!
# Specification vocabulary for cell lists and result containers

Histories of calls, and what was put in, independent of how the containers store it.
-/

noncomputable section
open Classical
namespace NF.Spec
variable {d : ℕ}

/-- A call on a `CellList`: store a value, or look up neighbours. -/
inductive CellOp (d : ℕ) (α : Type)
  | add (frac : Vec d) (value : α)
  | lookup (frac : Vec d)

/-- The values stored by a history, oldest first. -/
def addedValues {α : Type} : List (CellOp d α) → List α
  | [] => []
  | .add _ v :: ops => v :: addedValues ops
  | .lookup _ :: ops => addedValues ops

/-- Execute a history with the code's caching lookup; collects the results of the lookups. -/
def runCached {α : Type} (c : CellList d α) : List (CellOp d α) → CellList d α × List (List α)
  | [] => (c, [])
  | .add f v :: ops => runCached (c.addPoint f v) ops
  | .lookup f :: ops =>
    let r := c.getNeighbourValues f
    let rest := runCached r.2 ops
    (rest.1, r.1 :: rest.2)

/-- Execute a history with a lookup that recomputes the neighbouring cells each time. -/
def runUncached {α : Type} (c : CellList d α) : List (CellOp d α) → CellList d α × List (List α)
  | [] => (c, [])
  | .add f v :: ops => runUncached (c.addPoint f v) ops
  | .lookup f :: ops =>
    let rest := runUncached c ops
    (rest.1, c.neighbourValues f :: rest.2)

/-- A state-changing call on a `SearchResultContainer`. -/
inductive ContainerOp (d : ℕ)
  | addResult (r : SRes d)
  | setRefined (p : Vec d)

/-- The effect of one call. -/
def applyOp (c : Container d) : ContainerOp d → Container d
  | .addResult r => (c.addResult r).1
  | .setRefined p => c.setRefined p

/-- The container after a history of calls on a new container. -/
def history (cs : CoordSys d) (gapThreshold distCutoff : ℝ) (ops : List (ContainerOp d)) : Container d :=
  ops.foldl applyOp (Container.create cs [] gapThreshold distCutoff [])

/-- The results given to `add_result` in a history, oldest first. -/
def resultsOf : List (ContainerOp d) → List (SRes d)
  | [] => []
  | .addResult r :: ops => r :: resultsOf ops
  | .setRefined _ :: ops => resultsOf ops

/-- The positions given to `set_refined`, oldest first. -/
def refinedOf : List (ContainerOp d) → List (Vec d)
  | [] => []
  | .addResult _ :: ops => refinedOf ops
  | .setRefined p :: ops => p :: refinedOf ops

/-- What makes a result a node: it is successful and its value is not above the threshold. -/
def IsNode (gapThreshold : ℝ) (r : SRes d) : Prop :=
  r.success = true ∧ ¬ FVal.gt r.value (FVal.ofReal gapThreshold)

/-- The same result, with its position moved to `p`. -/
def movedTo (r : SRes d) (p : Vec d) : SRes d := r.setPos p

end NF.Spec
