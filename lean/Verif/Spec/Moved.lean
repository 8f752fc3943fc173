import Verif.Spec.Identify
import Verif.Spec.Frame

/-! # Specification vocabulary for the identification of moved positions -/

noncomputable section
open Classical

namespace NF.Spec
variable {d : ℕ}

/-- `r'` says about the positions moved by `f` what `r` says about the original ones.  `P p q`: a point at `p` becomes a point at `q`. -/
structure MovedResult (f : Vec d → Vec d) (P : Vec d → Vec d → Prop) (r r' : IdResult d) : Prop where
  positions : r'.positions = r.positions.map f
  dimension : r'.dimension = r.dimension
  none : r.shape = none ↔ r'.shape = none
  point : ∀ p, r.shape = some (.point p) → ∃ q, r'.shape = some (.point q) ∧ P p q
  line : ∀ l, r.shape = some (.line l) → ∃ l', r'.shape = some (.line l') ∧ l'.graph.nodes = l.graph.nodes.map f ∧
    l'.graph.edges = (l.graph.edges.map fun e => (f e.1, f e.2.1, ())) ∧ l'.degreeCount = l.degreeCount

/-- The same exception, or results about the moved positions in the same order. -/
inductive MovedOutcome (f : Vec d → Vec d) (P : Vec d → Vec d → Prop) : Except Err (IdContainer d) → Except Err (IdContainer d) → Prop
  | error (e : Err) : MovedOutcome f P (.error e) (.error e)
  | ok {out out' : IdContainer d} : List.Forall₂ (MovedResult f P) out.results out'.results → MovedOutcome f P (.ok out) (.ok out')

/-- Two calls have the same possible outcomes, up to the relation. -/
def SameOutcomes {R : Type} (rel : R → R → Prop) (call call' : R → Prop) : Prop := (∀ r, call r → ∃ r', call' r' ∧ rel r r') ∧ ∀ r', call' r' → ∃ r, call r ∧ rel r r'

/-- The argument of `identify.run` in other units. -/
def Units.input (u : Units d) : IdInput d → IdInput d
  | .container c => .container (u.container c)
  | .state c => .state (u.container c)

end NF.Spec
