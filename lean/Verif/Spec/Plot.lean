import Verif.Model.Plot
import Verif.Spec.Graph
import Verif.Spec.Lattice
import Verif.Spec.PlotPaths

/-! # Specification vocabulary for the plots -/

noncomputable section
open Classical

namespace NF.Spec
variable {d : ℕ}

/-- The coordinate arrays `coords` (all x, all y, ...) are those of the points `ps`. -/
def Coordinates (coords : List (List ℝ)) (ps : List (Fin d → ℝ)) : Prop :=
  coords.length = d ∧ ∀ i : Fin d, coords[(i : ℕ)]? = some (ps.map fun p => p i)

/-- The artist shows a dot at each of the points, in this order. -/
def Dots (a : Artist) (ps : List (Fin d → ℝ)) (ink : Ink) : Prop := ∃ coords, a = .scatter coords ink ∧ Coordinates coords ps

/-- The artist shows the line through the points, in this order. -/
def Polyline (a : Artist) (ps : List (Fin d → ℝ)) (ink : Ink) : Prop := ∃ coords, a = .line coords ink ∧ Coordinates coords ps

/-- The artists show the edges of the simplex, each of them (each pair of vertices) exactly once. -/
def DrawsEdges (ink : Ink) (vertices : List (Fin d → ℝ)) (as : List Artist) : Prop :=
  ∃ pairs : List (Fin vertices.length × Fin vertices.length), pairs.Nodup ∧ (∀ p, p ∈ pairs ↔ p.1 < p.2) ∧
    List.Forall₂ (fun p a => Polyline a [vertices.get p.1, vertices.get p.2] ink) pairs as

/-- All the points are inside of the limits of the plot. -/
def Visible (limits : Fin d → ℝ × ℝ) (ps : List (Fin d → ℝ)) : Prop := ∀ p ∈ ps, ∀ i, (limits i).1 ≤ p i ∧ p i ≤ (limits i).2

/-- The call succeeds: it returns a new figure exactly if no axes were given, keeps what is on the axes (nothing, on new ones), sets the limits and adds the artists `new`. -/
def Plotted (axis : Option (Axes d)) (out : PlotOut d) (limits : Fin d → ℝ × ℝ) (new : List Artist) : Prop :=
  ∃ ax', out = ⟨.ok axis.isNone, some ax'⟩ ∧ ax'.limits = some limits ∧ ax'.artists = (match axis with | none => [] | some ax => ax.artists) ++ new

/-- The edges of the line, except those of length more than twice `fs` (which leave the box on one side and come back on the other). -/
def ShortEdges (fs : ℝ) (g : NxGraph (Fin d → ℝ) Unit) (x y : Fin d → ℝ) : Prop := g.hasEdge x y ∧ ¬ LongEdge (some fs) x y

/-- The segments list each of the (undirected) edges exactly once, and nothing else. -/
def EdgesOnce (edge : (Fin d → ℝ) → (Fin d → ℝ) → Prop) (segments : List ((Fin d → ℝ) × (Fin d → ℝ))) : Prop :=
  (∀ p ∈ segments, edge p.1 p.2) ∧ (∀ x y, edge x y → (x, y) ∈ segments ∨ (y, x) ∈ segments) ∧
    segments.Pairwise fun p q => ¬ (q = p ∨ q = (p.2, p.1))

/-- The segments of a line through the points. -/
def segmentsOf {α : Type} (p : List α) : List (α × α) := p.zip p.tail

/-- What has to be drawn for an identified object. -/
def DrawsObject (fs : ℝ) (ink : Ink) (r : IdResult d) (as : List Artist) : Prop :=
  match r.shape with
  /- without a shape: all its positions -/
  | none => ∃ a, as = [a] ∧ Dots a r.positions ink
  /- a point -/
  | some (.point p) => ∃ a, as = [a] ∧ Dots a [p] ink
  /- a line: its edges, or its node if there is no edge -/
  | some (.line l) =>
    if l.graph.edges = [] then ∃ a, as = [a] ∧ Dots a l.graph.nodes ink
    else ∃ paths, List.Forall₂ (fun a p => Polyline a p ink) as paths ∧ EdgesOnce (ShortEdges fs l.graph) (paths.flatMap segmentsOf) ∧ ∀ p ∈ paths, ∀ x ∈ p, x ∈ l.graph.nodes

/-- The artists show points of the unit circle, joined by lines, or a surface made of points of the unit sphere. -/
def DrawsUnitSphere (d : ℕ) (ink : Ink) (as : List Artist) : Prop :=
  (d = 2 → ∃ a, ∃ ps : List (Fin d → ℝ), as = [a] ∧ Polyline a ps ink ∧ ps ≠ [] ∧ ∀ p ∈ ps, ∑ i, p i ^ 2 = 1) ∧
  (d = 3 → ∃ grid : List (List (Fin d → ℝ)), as = [.surface (List.ofFn fun i => grid.map fun row => row.map fun p => p i) ink] ∧ grid ≠ [] ∧
    ∀ row ∈ grid, row ≠ [] ∧ ∀ p ∈ row, ∑ i, p i ^ 2 = 1)

/-- The artist shows the point `p`, as a dot or on a line. -/
def ShowsPoint (a : Artist) (p : Fin d → ℝ) : Prop := ∃ ps ink, (Dots a ps ink ∨ Polyline a ps ink) ∧ p ∈ ps

/-- An object that is not empty, with a simple graph if it is a line. -/
def Drawable (r : IdResult d) : Prop :=
  r.positions ≠ [] ∧ ∀ l, r.shape = some (.line l) → GoodGraph l.graph ∧ l.graph.nodes ≠ []

end NF.Spec
