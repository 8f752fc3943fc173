import Verif.Model.FloatRun
import Verif.Spec.FloatIdentify
import Verif.Spec.FloatBallistic
import Verif.Spec.FloatShortestPath
import Verif.Spec.FloatController
import Verif.Spec.Identify

/-! # Specification vocabulary for the identification with lines in double precision -/

noncomputable section
open Classical

namespace NF.Spec
variable {d : ℕ}

/-- The path that networkx returns in the dominating-set method is a path in the given graph (nothing else is needed of it). -/
def DSPaths {V : Type} (L : FL.DSLib V) : Prop := ∀ {g f s t p}, L.path g f s t p → g.IsPath s t p

/-- networkx finds a path if there is one and no length is negative, it finds a length only if there is a path, and the fourth power of a number is not negative. -/
structure DSTotal {V : Type} (L : FL.DSLib V) : Prop where
  pow4 : ∀ x, 0 ≤ L.pow4 x
  length : ∀ {g f s t x}, L.length g f s t = some x → ∃ p, g.IsPath s t p
  path : ∀ {g f s t}, GoodGraph g → s ∈ g.nodes → (∃ p, g.IsPath s t p) → (∀ x y, g.hasEdge x y → 0 ≤ f x y) → ∃ p, L.path g f s t p

/-- What the result of the identification says about the positions, if distances are computed with an error of up to `δ`, in the rounding `rnd`. -/
structure IdentifiedNearly (rnd : ℝ → ℝ) (positions : List (Vec d)) (cs : CoordSys d) (fs δ : ℝ) (out : IdContainer d) : Prop where
  coord : out.coord = cs
  featureSize : out.featureSize = fs
  /-- Every position is in exactly one of the results. -/
  once : ∀ x ∈ positions, ∃! i : Fin out.results.length, x ∈ (out.results.get i).positions
  /-- No result lists a position twice, or one which was not given; no result is empty. -/
  given : ∀ r ∈ out.results, r.positions ≠ [] ∧ r.positions.Nodup ∧ ∀ x ∈ r.positions, x ∈ positions
  /-- Two positions between which there is a chain with steps of at most `fs - δ` are in the same result. -/
  joined : ∀ x ∈ positions, ∀ y ∈ positions, Chain cs (fs - δ) positions x y → ∃ r ∈ out.results, x ∈ r.positions ∧ y ∈ r.positions
  /-- Between two positions in the same result there is a chain with steps of at most `fs + δ`. -/
  chained : ∀ r ∈ out.results, ∀ x ∈ r.positions, ∀ y ∈ r.positions, Chain cs (fs + δ) positions x y
  dimension : ∀ r ∈ out.results, ∀ k, r.dimension = some k → 0 ≤ k ∧ k ≤ 3 ∧ k ≤ d
  /-- Clusters of dimension zero become a point, at a computed average of the positions. -/
  point : ∀ r ∈ out.results, r.dimension = some 0 → ∃ p, r.shape = some (.point p) ∧ FL.Average rnd cs r.positions (.ok p)
  /-- A shape of a cluster of dimension one is a line through its positions. -/
  line : ∀ r ∈ out.results, r.dimension = some 1 → ∀ s, r.shape = some s → ∃ l, s = .line l ∧ LineThrough cs (fs + δ) r.positions l
  /-- Other clusters have no shape. -/
  other : ∀ r ∈ out.results, r.dimension ≠ some 0 → r.dimension ≠ some 1 → r.shape = none

end NF.Spec
