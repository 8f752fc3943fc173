import Verif.Model.Identify

/-!
# Model of the splitting of lines into paths, `nodefinder/identify/plot.py:80-147`

A transition system; the order of nodes and neighbours is arbitrary.  The drawing is in `Model/Plot`.
-/

noncomputable section
open Classical

namespace NF
variable {d : ℕ}

/-- plot.py:128-130: the edge is longer than twice `feature_size`.  `none` stands for `np.inf` (plot.py:97-98). -/
def tooLong (fs : Option ℝ) (a b : Vec d) : Prop := ∃ f, fs = some f ∧ CoordSys.norm (fun i => b i - a i) > 2 * f

/-- plot.py:144-147: `key(a) <= key(b)` for the degrees `a` and `b`, where `key(2)` is infinite. -/
def degreeKeyLe (a b : ℕ) : Prop := b = 2 ∨ (a ≠ 2 ∧ a ≤ b)

/-- plot.py:141-147, `_get_next_starting_point`: `x` is a possible result. -/
def IsStart (g : NxGraph (Vec d) Unit) (x : Vec d) : Prop :=
  x ∈ g.nodes ∧ 0 < g.degree x ∧ ∀ y ∈ g.nodes, 0 < g.degree y → degreeKeyLe (g.degree x) (g.degree y)

/-- A point in the execution of `_get_graph_paths`. -/
inductive PState (d : ℕ)
  /-- line 119, with `working_graph` and `paths` -/
  | outer (wg : NxGraph (Vec d) Unit) (paths : List (List (Vec d)))
  /-- line 122, with `curr_node` and `curr_path` -/
  | inner (wg : NxGraph (Vec d) Unit) (paths : List (List (Vec d))) (node : Vec d) (path : List (Vec d))
  /-- line 138 -/
  | done (paths : List (List (Vec d)))

/-- plot.py:119-138, one step of `_get_graph_paths`. -/
inductive PStep (fs : Option ℝ) : PState d → PState d → Prop
  | finish {wg paths} : wg.edges = [] → PStep fs (.outer wg paths) (.done paths)
  | start {wg paths x} : wg.edges ≠ [] → IsStart wg x → PStep fs (.outer wg paths) (.inner wg paths x [x])
  | stop {wg paths x path} : wg.neighbors x = [] → PStep fs (.inner wg paths x path) (.outer wg (paths ++ [path]))
  | cut {wg paths x path y} : y ∈ wg.neighbors x → tooLong fs x y → PStep fs (.inner wg paths x path) (.inner (wg.removeEdge x y) (paths ++ [path]) y [y])
  | extend {wg paths x path y} : y ∈ wg.neighbors x → ¬ tooLong fs x y → PStep fs (.inner wg paths x path) (.inner (wg.removeEdge x y) paths y (path ++ [y]))

/-- plot.py:111-138, executions of `_get_graph_paths` with the number of steps. -/
inductive PRun (fs : Option ℝ) (g : NxGraph (Vec d) Unit) : ℕ → PState d → Prop
  | init : PRun fs g 0 (.outer g [])
  | step {n s s'} : PRun fs g n s → PStep fs s s' → PRun fs g (n + 1) s'

/-- What plot.py:80-108, `nodal_line`, puts on the axes. -/
inductive Drawn (d : ℕ)
  | lines (paths : List (List (Vec d)))
  | points (positions : List (Vec d))

/-- plot.py:80-108, `nodal_line`: `r` can be drawn. -/
def NodalLinePlot (l : NodalLine (Vec d)) (fs : Option ℝ) (r : Drawn d) : Prop :=
  ∃ n paths, PRun fs l.graph n (.done paths) ∧ r = if paths = [] then .points l.graph.nodes else .lines paths

end NF
