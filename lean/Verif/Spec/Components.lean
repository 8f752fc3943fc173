import Verif.Model.Identify
import Mathlib.Topology.Connected.Basic
import Mathlib.Topology.Instances.Real.Lemmas

/-! # Specification vocabulary for the connected pieces of the nodal set -/

noncomputable section
open Classical

namespace NF.Spec
variable {d : ℕ} {ι : Type}

/-- The set `⋃ i, Z i` consists of connected pieces which are well separated, and the positions sample it: each of them is within `ε` of it, and each point of it is within `R` of one of them. -/
structure Sampled (cs : CoordSys d) (fs ε R : ℝ) (Z : ι → Set (Vec d)) (positions : List (Vec d)) : Prop where
  nonempty : ∀ i, (Z i).Nonempty
  connected : ∀ i, IsPreconnected (Z i)
  apart : ∀ i j, i ≠ j → ∀ z ∈ Z i, ∀ z' ∈ Z j, fs + 2 * ε < cs.distance z z'
  near : ∀ x ∈ positions, ∃ i, ∃ z ∈ Z i, cs.distance x z ≤ ε
  dense : ∀ i, ∀ z ∈ Z i, ∃ x ∈ positions, cs.distance x z ≤ R
  fine : 2 * R < fs
  precise : ε + R ≤ fs

/-- There is exactly one result for each piece of the set: the one whose positions are those near the piece. -/
def OnePerPiece (cs : CoordSys d) (ε : ℝ) (Z : ι → Set (Vec d)) (positions : List (Vec d)) (out : IdContainer d) : Prop :=
  ∃ e : ι ≃ Fin out.results.length, ∀ i x, x ∈ (out.results.get (e i)).positions ↔ x ∈ positions ∧ ∃ z ∈ Z i, cs.distance x z ≤ ε

end NF.Spec
