import Verif.Model.FloatDominatingSet
import Verif.Spec.FloatShortestPath

/-! # Specification vocabulary for the dominating-set line evaluation in double precision -/

noncomputable section
open Classical

namespace NF.Spec

/-- What networkx computes for lengths that are not negative is accurate to a tenth of a per cent: the length of the shortest path, and the length of the path it returns compared to the shortest one.  (Adding up the lengths of a path with
`n` edges in double precision has a relative error of about `n / 2 ^ 53`.) -/
structure DSAccurate {V : Type} (L : FL.DSLib V) : Prop where
  paths : ∀ {g f s t p}, L.path g f s t p → g.IsPath s t p
  length : ∀ {g f s t x}, (∀ x y, 0 ≤ f x y) → L.length g f s t = some x →
    (∃ p, g.IsPath s t p ∧ pathLength f p ≤ 1.001 * x) ∧ ∀ p, g.IsPath s t p → x ≤ 1.001 * pathLength f p
  shortest : ∀ {g f s t p}, (∀ x y, 0 ≤ f x y) → L.path g f s t p → ∀ q, g.IsPath s t q → pathLength f p ≤ 1.001 * pathLength f q

end NF.Spec
