import Verif.Model.PlotPaths
import Verif.Model.Controller
import Mathlib.Analysis.Complex.Trigonometric
import Mathlib.Analysis.Real.Pi.Bounds

/-!
# Model of the plots: `nodefinder/_common_plot.py`, `search/plot.py` and `identify/plot.py`

An axes object of matplotlib is the list of the artists that have been added to it, with its limits and its position in the colour cycle.  The calls `axis.scatter`, `axis.plot` and
`axis.plot_surface` each add one artist, which keeps the coordinate arrays it was given.  Matplotlib itself is not modelled: how the artists become pixels, and the failure of its import.
It is assumed that a given axes object has the dimension of the result.
-/

noncomputable section
open Classical

namespace NF
variable {d : ℕ}

/-- The colour keyword arguments of a matplotlib call. -/
inductive Ink
  /-- `c=vals`: one number per point, mapped to colours -/
  | values (vals : List FVal)
  /-- `color=color`, with this entry of the colour cycle -/
  | cycle (k : ℕ)
  /-- keyword arguments of the user, `**settings` -/
  | settings (s : String)

/-- What one call adds to the axes: the coordinate arrays (all x, all y, ...) and the colour. -/
inductive Artist
  /-- `axis.scatter(*coords, ...)` -/
  | scatter (coords : List (List ℝ)) (ink : Ink)
  /-- `axis.plot(*coords, ...)`: the points are joined by straight lines -/
  | line (coords : List (List ℝ)) (ink : Ink)
  /-- `axis.plot_surface(x, y, z, ...)` with two-dimensional arrays -/
  | surface (coords : List (List (List ℝ))) (ink : Ink)

/-- A matplotlib axes object.  `limits` is `none` until `set_xlim` etc. are called. -/
structure Axes (d : ℕ) where
  limits : Option (Fin d → ℝ × ℝ)
  artists : List Artist
  /-- the number of entries in the colour cycle (`axes.prop_cycle`, 10 by default) -/
  cycleLength : ℕ
  /-- how many colours have been taken from the cycle -/
  nextColour : ℕ

/-- `fig.add_subplot(111)`, _common_plot.py:25-27 -/
def Axes.fresh (d : ℕ) : Axes d := ⟨none, [], 10, 0⟩

/-- One artist is added to the axes. -/
def Axes.draw (a : Axes d) (l : List Artist) : Axes d := { a with artists := a.artists ++ l }

/-- _common_plot.py:10-35, `_setup_plot`: whether a figure was created, and the axes. -/
def setupPlot (limits : Fin d → ℝ × ℝ) (axis : Option (Axes d)) : Except Err (Bool × Axes d) :=
  if d = 3 ∨ d = 2 then .ok (axis.isNone, { axis.getD (Axes.fresh d) with limits := some limits })
  else .error .assertion

/-- What a plot function returns, and the axes at the end: those that were given, or the new ones. -/
structure PlotOut (d : ℕ) where
  /-- an exception, or whether the returned figure is a new one (it is `None` otherwise) -/
  result : Except Err Bool
  axes : Option (Axes d)

/-- coordinate_system.py:36-37: attribute `limits` -/
def CoordSys.limits (c : CoordSys d) : Fin d → ℝ × ℝ := fun i => (c.lower i, c.upper i)

/-! ## `search/plot.py` -/

/-- search/plot.py:36-43: the loop over the nodes, which collects the coordinates and the values. -/
def collectPoints (is3d : Bool) (nodes : List (SRes d)) : Except Err ((List ℝ × List ℝ × List ℝ) × List FVal) :=
  nodes.foldl (fun acc node =>
    match acc with
    | .error e => .error e
    | .ok ((xs, ys, zs), vals) =>
      match List.ofFn node.pos with
      | x :: y :: z =>
        if is3d then
          match z with
          | z0 :: _ => .ok ((xs ++ [x], ys ++ [y], zs ++ [z0]), vals ++ [node.value])
          | [] => .error .index
        else .ok ((xs ++ [x], ys ++ [y], zs), vals ++ [node.value])
      | _ => .error .value) (.ok (([], [], []), []))

/-- search/plot.py:18-52, `points` -/
def plotPoints (c : Container d) (axis : Option (Axes d)) : PlotOut d :=
  match setupPlot c.coord.limits axis with
  | .error e => ⟨.error e, axis⟩
  | .ok (fig, ax) =>
    match collectPoints (decide (d = 3)) c.nodes.values with
    | .error e => ⟨.error e, some ax⟩
    | .ok ((xs, ys, zs), vals) => ⟨.ok fig, some (ax.draw [.scatter (if d = 3 then [xs, ys, zs] else [xs, ys]) (.values vals)])⟩

/-- `itertools.combinations(l, 2)` -/
def combinations2 {α : Type} : List α → List (α × α)
  | [] => []
  | x :: xs => xs.map (fun y => (x, y)) ++ combinations2 xs

/-- `list(np.array(points).T)` of a list of positions.  For an empty list this is the empty list. -/
def transposed (points : List (Vec d)) : List (List ℝ) :=
  if points = [] then [] else List.ofFn fun i => points.map fun p => p i

/-- search/plot.py:118-121, `_plot_simplex` -/
def plotSimplex (settings : String) (simplex : List (Vec d)) : List Artist :=
  (combinations2 simplex).map fun p => .line (transposed [p.1, p.2]) (.settings settings)

/-- search/plot.py:54-80, `simplices` -/
def plotSimplices (c : Container d) (nodes : List (SRes d)) (axis : Option (Axes d)) (lineSettings : String) : PlotOut d :=
  match setupPlot c.coord.limits axis with
  | .error e => ⟨.error e, axis⟩
  | .ok (fig, ax) => ⟨.ok fig, some (ax.draw (nodes.flatMap fun node => node.simplexHistory.flatMap fun s => plotSimplex lineSettings (List.ofFn s)))⟩

/-- `np.linspace(0, b, 200)` -/
def linspace200 (b : ℝ) : List ℝ := (List.range 200).map fun k : ℕ => b * (k : ℝ) / 199

/-- search/plot.py:105-114, the circle or sphere -/
def plotSphere (d : ℕ) (settings : String) : List Artist :=
  if d = 2 then
    [.line [(linspace200 (2 * Real.pi)).map Real.cos, (linspace200 (2 * Real.pi)).map Real.sin] (.settings settings)]
  else if d = 3 then
    [.surface [
      (linspace200 (2 * Real.pi)).map fun p => (linspace200 Real.pi).map fun t => Real.cos p * Real.sin t,
      (linspace200 (2 * Real.pi)).map fun p => (linspace200 Real.pi).map fun t => Real.sin p * Real.sin t,
      (linspace200 (2 * Real.pi)).map fun _ => (linspace200 Real.pi).map fun t => 1 * Real.cos t] (.settings settings)]
  else []

/-- search/plot.py:96-98: smallest and largest coordinates.  ValueError for an empty array. -/
def stencilLimits (stencil : List (List (Vec d))) : Except Err (Fin d → ℝ × ℝ) :=
  match stencil.flatten with
  | [] => .error .value
  | v :: vs => .ok fun i => (vs.foldl (fun m w => min m (w i)) (v i), vs.foldl (fun m w => max m (w i)) (v i))

/-- search/plot.py:83-115, `stencil`.  `originSettings = none` stands for `None`.  Line 103 passes scalars, which matplotlib turns into arrays of length one. -/
def plotStencil (stencil : List (List (Vec d))) (axis : Option (Axes d)) (lineSettings : String) (originSettings : Option String) (sphere : Bool) (sphereSettings : String) : PlotOut d :=
  match stencilLimits stencil with
  | .error e => ⟨.error e, axis⟩
  | .ok limits =>
    match setupPlot limits axis with
    | .error e => ⟨.error e, axis⟩
    | .ok (fig, ax) =>
      let ax := ax.draw (stencil.flatMap (plotSimplex lineSettings))
      let ax := match originSettings with
        | some s => ax.draw [.scatter (List.ofFn fun _ : Fin d => [0]) (.settings s)]
        | none => ax
      ⟨.ok fig, some (if sphere then ax.draw (plotSphere d sphereSettings) else ax)⟩

/-! ## `identify/plot.py` -/

/-- identify/plot.py:47-49, `_plot_positions`.  Without positions, `axis.scatter` is called without arguments: TypeError. -/
def plotPositions (positions : List (Vec d)) (colour : ℕ) : Except Err (List Artist) :=
  if transposed positions = [] then .error .type else .ok [.scatter (transposed positions) (.cycle colour)]

/-- identify/plot.py:52-108, `_plot_result`: `r` can be drawn. -/
inductive PlotShape (fs : Option ℝ) (colour : ℕ) : Shape d → Except Err (List Artist) → Prop
  /-- `nodal_point`, lines 57-76 -/
  | point {p} : PlotShape fs colour (.point p) (.ok [.scatter (List.ofFn fun i => [p i]) (.cycle colour)])
  /-- `nodal_line`, lines 104-106 -/
  | lines {l paths} : NodalLinePlot l fs (.lines paths) → PlotShape fs colour (.line l) (.ok (paths.map fun p => .line (transposed p) (.cycle colour)))
  /-- `nodal_line`, lines 107-108 -/
  | points {l ps} : NodalLinePlot l fs (.points ps) → PlotShape fs colour (.line l) (plotPositions ps colour)

/-- identify/plot.py:34-43, what is drawn for one result. -/
def PlotObject (fs : Option ℝ) (colour : ℕ) (r : IdResult d) (out : Except Err (List Artist)) : Prop :=
  match r.shape with
  | none => out = plotPositions r.positions colour
  | some s => PlotShape fs colour s out

/-- `axis._get_lines.get_next_color()`: the colour, and the axes afterwards. -/
def Axes.takeColour (a : Axes d) : ℕ × Axes d := (a.nextColour % a.cycleLength, { a with nextColour := a.nextColour + 1 })

/-- identify/plot.py:33-43, the loop: the axes after drawing, and the exception, if there is one. -/
inductive PlotLoop (fs : Option ℝ) : List (IdResult d) → Axes d → Except Err Unit → Axes d → Prop
  | nil {a} : PlotLoop fs [] a (.ok ()) a
  | error {r rs e} {a : Axes d} : PlotObject fs a.takeColour.1 r (.error e) → PlotLoop fs (r :: rs) a (.error e) a.takeColour.2
  | cons {r rs l out a'} {a : Axes d} : PlotObject fs a.takeColour.1 r (.ok l) → PlotLoop fs rs (a.takeColour.2.draw l) out a' → PlotLoop fs (r :: rs) a out a'

/-- identify/plot.py:20-44, `result`: `out` is a possible outcome. -/
inductive PlotIdentified (c : IdContainer d) (axis : Option (Axes d)) : PlotOut d → Prop
  | setup {e} : setupPlot c.coord.limits axis = .error e → PlotIdentified c axis ⟨.error e, axis⟩
  | error {fig ax e ax'} : setupPlot c.coord.limits axis = .ok (fig, ax) → PlotLoop (some c.featureSize) c.results ax (.error e) ax' → PlotIdentified c axis ⟨.error e, some ax'⟩
  | ok {fig ax ax'} : setupPlot c.coord.limits axis = .ok (fig, ax) → PlotLoop (some c.featureSize) c.results ax (.ok ()) ax' → PlotIdentified c axis ⟨.ok fig, some ax'⟩

end NF
