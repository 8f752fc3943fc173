import Verif.Model.Coord

/-!
# Specification vocabulary for coordinate systems

Independent of how `CoordinateSystem` computes anything: lattice images, the box, the ordinary
Euclidean distance.
-/

noncomputable section
namespace NF.Spec
variable {d : ℕ}

/-- The box has positive extent in every dimension (the only boxes the code supports: it divides by
`size`). -/
def ProperBox (c : CoordSys d) : Prop := ∀ i, c.lower i < c.upper i

/-- `q` shifted by `k i` box lengths in dimension `i`. -/
def shift (c : CoordSys d) (k : Fin d → ℤ) (q : Vec d) : Vec d :=
  fun i => q i + (k i : ℝ) * (c.upper i - c.lower i)

/-- `p` and `q` are images of each other under moves by whole box lengths. -/
def Congr (c : CoordSys d) (p q : Vec d) : Prop := ∃ k : Fin d → ℤ, q = shift c k p

/-- The same point of space: equal, or images of each other if the space is periodic. -/
def SamePoint (c : CoordSys d) (p q : Vec d) : Prop :=
  if c.periodic then Congr c p q else p = q

/-- Inside the half-open box `[lower, upper)`. -/
def InBox (c : CoordSys d) (p : Vec d) : Prop := ∀ i, c.lower i ≤ p i ∧ p i < c.upper i

/-- Ordinary Euclidean length. -/
def len (v : Vec d) : ℝ := Real.sqrt (∑ i, v i ^ 2)

/-- Ordinary Euclidean distance. -/
def eucl (p q : Vec d) : ℝ := Real.sqrt (∑ i, (p i - q i) ^ 2)

end NF.Spec
