import Verif.Model.Identify

/-! # Specification vocabulary for C111: two samples of the same nodes -/

noncomputable section
open Classical

namespace NF.Spec
variable {d : ℕ}

/-- Each position of one list is within `ε` of a position of the other. -/
def Close (cs : CoordSys d) (ε : ℝ) (positions positions' : List (Vec d)) : Prop :=
  (∀ x ∈ positions, ∃ x' ∈ positions', cs.distance x x' ≤ ε) ∧ ∀ x' ∈ positions', ∃ x ∈ positions, cs.distance x x' ≤ ε

/-- No two of the positions are about `fs` apart: their distance is either at most `fs - 2 ε` or more than `fs + 2 ε`. -/
def NoneBetween (cs : CoordSys d) (fs ε : ℝ) (positions : List (Vec d)) : Prop :=
  ∀ x ∈ positions, ∀ y ∈ positions, cs.distance x y ≤ fs - 2 * ε ∨ fs + 2 * ε < cs.distance x y

/-- The results correspond one to one, and positions that are within `ε` of each other are in corresponding results. -/
def SameObjects (cs : CoordSys d) (ε : ℝ) (positions positions' : List (Vec d)) (out out' : IdContainer d) : Prop :=
  ∃ e : Fin out.results.length ≃ Fin out'.results.length, ∀ i, ∀ x ∈ positions, ∀ x' ∈ positions', cs.distance x x' ≤ ε →
    (x ∈ (out.results.get i).positions ↔ x' ∈ (out'.results.get (e i)).positions)

end NF.Spec
