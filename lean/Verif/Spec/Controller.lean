import Verif.Model.Controller
import Verif.Spec.Container
import Mathlib.Algebra.Order.Floor.Semiring

/-! # Specification vocabulary for searches -/

noncomputable section
open Classical
namespace NF.Spec
variable {d : ℕ}

/-- The simplices that were dealt with in this session: skipped, or completed. -/
def handled : List (LogEntry d) → List (Simplex d)
  | [] => []
  | .skipped s :: l => s :: handled l
  | .completed s _ :: l => s :: handled l
  | _ :: l => handled l

/-- The simplices whose minimization was completed in this session. -/
def completedSimplices : List (LogEntry d) → List (Simplex d)
  | [] => []
  | .completed s _ :: l => s :: completedSimplices l
  | _ :: l => completedSimplices l

/-- The results of the minimizations completed in this session, oldest first. -/
def completedResults : List (LogEntry d) → List (SRes d)
  | [] => []
  | .completed _ r :: l => r :: completedResults l
  | _ :: l => completedResults l

/-- The simplices for which a minimization was started in this session. -/
def scheduledSimplices : List (LogEntry d) → List (Simplex d)
  | [] => []
  | .scheduled s :: l => s :: scheduledSimplices l
  | _ :: l => scheduledSimplices l

/-- The positions around which a refinement was performed in this session. -/
def refinedPositions : List (LogEntry d) → List (Vec d)
  | [] => []
  | .refined p :: l => p :: refinedPositions l
  | _ :: l => refinedPositions l

/-- No two simplices of the list have the same vertices. -/
def DistinctSimplices (l : List (Simplex d)) : Prop := l.Pairwise fun a b => ¬ a.Perm b

/-- The initial mesh and the stencil do not contain the same simplex twice. -/
def DistinctInput (p : CtlParams d) : Prop :=
  DistinctSimplices p.mesh ∧ ∀ st, p.stencil = some st → DistinctSimplices st

/-- What every `ControllerState` made by the program satisfies: the outstanding simplices have sorted vertices (`SimplexQueue` sorts them when
they are added) and are different. -/
structure WellFormedSaved (sv : Saved d) : Prop where
  nodup : sv.simplices.Nodup
  norm : ∀ s ∈ sv.simplices, ∃ s0, s = normalizeSimplex s0

/-- Everything that a search can reach which is started with any (or no) save file content and any (or no) initial state, with any
number of crashes and restarts. -/
inductive ReachAny (p : CtlParams d) : Ctl d → Prop
  | start (disk initial : Option (Saved d)) (h1 : ∀ sv, disk = some sv → WellFormedSaved sv)
      (h2 : ∀ sv, initial = some sv → WellFormedSaved sv) : ReachAny p (startFrom p disk initial)
  | tail {c c' : Ctl d} (h : ReachAny p c) (hs : CrashStep p c c') : ReachAny p c'

/-- A reachable state, or one that occurs during a scheduling round that starts in a reachable state. -/
inductive InRound (p : CtlParams d) : Ctl d → Prop
  | reached {c : Ctl d} (h : ReachAny p c) : InRound p c
  | next {c c' : Ctl d} (h : InRound p c) (hs : fillStep p c = .next c') : InRound p c'

/-- The geometric hypotheses under which neighbour lookups are complete (C08): a proper box, a positive cutoff, and a non-periodic box at least
as long as the cutoff. -/
def GoodGeometry (p : CtlParams d) : Prop :=
  ProperBox p.coord ∧ 0 < p.featureSize ∧
    (p.coord.periodic = true ∨ ∀ i, p.featureSize / 3 ≤ p.coord.upper i - p.coord.lower i)

/-- The simplices with which a search starts: those of the initial mesh, or the outstanding ones of the initial state and, if this is forced, those of
the initial mesh. -/
def startSimplices (p : CtlParams d) : Option (Saved d) → List (Simplex d)
  | none => p.mesh
  | some sv => sv.simplices ++ if p.forceInitialMesh then p.mesh else []

/-- The results with which a search starts. -/
def startResults : Option (Saved d) → List (SRes d)
  | none => []
  | some sv => sv.results

/-- The positions to be refined with which a search starts. -/
def startPositions : Option (Saved d) → List (Vec d)
  | none => []
  | some sv => sv.positions

/-- The simplices added by the refinement of the given positions. -/
def stencilSimplices (p : CtlParams d) (positions : List (Vec d)) : List (Simplex d) :=
  match p.stencil with
  | none => []
  | some st => positions.flatMap fun x => st.map fun s => s.map fun v => x + v

/-- The minimizations that are queued or running. -/
def outstanding (c : Ctl d) : List (Simplex d) :=
  c.tasks ++ c.failed.map Prod.fst ++ c.state.simplexQueue.base.queued

/-- The save file content `sv` describes the current state of the search `c`: it has the same results and refined positions and
lists exactly the outstanding simplices.  It lists the positions waiting for refinement, possibly after some which have been
dropped since, all of which the current state would drop again (or, without a refinement stencil, on which the search has failed). -/
structure UpToDate (p : CtlParams d) (c : Ctl d) (sv : Saved d) : Prop where
  results : sv.results = c.state.result.minimizationResults.map SRes.reload
  refined : sv.refined = c.state.result.refined.values
  nodup : sv.simplices.Nodup
  simplices : ∀ s, s ∈ sv.simplices ↔ s ∈ outstanding c
  positions : ∃ stale, sv.positions = stale ++ c.state.positionQueue.queued ∧
    ∀ x ∈ stale, p.stencil = none ∨
      (p.recheckPosDist = true ∧ checkPosRefinement p c.state.result x p.recheckCountCutoff = false)

/-- The step from `c` to `c'` is a turn of the main loop: it ends the search, or it is a scheduling round. -/
def Turn (p : CtlParams d) (c c' : Ctl d) : Prop :=
  c'.phase ≠ .running ∨ (c.failed = [] ∧ loopCondition c ∧ fill p c = (none, c'))

/-- An infinite execution without crashes that is fair: the main loop gets its turn again and again, and every running minimization
ends at some time. -/
structure FairRun (p : CtlParams d) (f : ℕ → Ctl d) : Prop where
  step : ∀ n, Step p (f n) (f (n + 1))
  turns : ∀ n, ∃ m ≥ n, Turn p (f m) (f (m + 1))
  tasks : ∀ n, ∀ s ∈ (f n).tasks, ∃ m ≥ n, s ∉ (f m).tasks

/-- An upper bound on the number of points in the box such that each has at most `K` earlier ones nearer than `dc`:
`K + 1` times the number of cells of a grid with spacing `dc / (dim + 1)`. -/
def packingBound (cs : CoordSys d) (dc : ℝ) (K : ℕ) : ℕ :=
  (K + 1) * ∏ i, (⌊(cs.upper i - cs.lower i) * (d + 1) / dc⌋₊ + 1)

end NF.Spec
