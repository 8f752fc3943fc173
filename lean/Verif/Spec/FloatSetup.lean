import Verif.Model.FloatSetup
import Verif.Spec.FloatController

/-! # Specification vocabulary for the set-up of a search in floating-point arithmetic (C104) -/

noncomputable section
open Classical
namespace NF.Spec
variable {d : ℕ}

/-- The two lists of simplices agree, vertex by vertex, up to `err k` in coordinate `k`. -/
def NearSimplices (err : Vec d) (st st' : List (Simplex d)) : Prop :=
  List.Forall₂ (fun s s' : Simplex d => List.Forall₂ (fun v v' : Vec d => ∀ k, |v k - v' k| ≤ err k) s s') st st'

/-- Of any two simplices in the list, one has a vertex that differs from all vertices of the other by more than `gap k` in some coordinate `k`. -/
def Separated (gap : Vec d) (st : List (Simplex d)) : Prop :=
  st.Pairwise fun s s' => (∃ v ∈ s, ∀ w ∈ s', ∃ k, gap k < |v k - w k|) ∨ (∃ w ∈ s', ∀ v ∈ s, ∃ k, gap k < |v k - w k|)

/-- The bound of the error of the mesh. -/
def meshError (cs : CoordSys d) : Vec d := fun k => (2 * |cs.lower k| + 16 * (cs.upper k - cs.lower k)) / 2 ^ 53

/-- The mesh is not finer than the rounding: the spacing of the points is more than twice the error (and there are fewer than `2 ^ 50` points in a row). -/
def MeshResolved (cs : CoordSys d) (m : Fin d → ℕ) : Prop :=
  ∀ k, m k < 2 ^ 50 ∧ 2 * m k * meshError cs k < cs.upper k - cs.lower k

end NF.Spec
