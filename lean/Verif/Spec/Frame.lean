import Verif.Spec.NelderMead
import Verif.Model.Setup

/-! # Specification vocabulary for changes of coordinates and units -/

noncomputable section
open Classical
namespace NF.Spec
variable {d : ℕ}

/-- Another way of describing the same problem: the coordinates are listed in another order, each of them may be counted in the opposite direction, from another origin, in
another unit (the same for all of them), and the gap is measured in another unit. -/
structure Frame (d : ℕ) where
  scale : ℝ
  energy : ℝ
  perm : Equiv.Perm (Fin d)
  sign : Fin d → ℝ
  origin : Vec d
  scale_pos : 0 < scale
  energy_pos : 0 < energy
  sign_eq : ∀ k, sign k = 1 ∨ sign k = -1

namespace Frame

/-- The new coordinates of the position `x`. -/
def pos (u : Frame d) (x : Vec d) : Vec d := fun k => u.scale * (u.sign k * x (u.perm k)) + u.origin k

/-- The function value `v` in the new unit; infinities and NaN stay what they are. -/
def val (u : Frame d) (v : FVal) : FVal :=
  match v with
  | none => FVal.nan
  | some x => if x = ⊤ then FVal.inf else if x = ⊥ then FVal.ninf else FVal.ofReal (u.energy * x.toReal)

/-- The options of the minimizer in the new units. -/
def nm (u : Frame d) (P : NMParams) : NMParams :=
  { P with xtol := u.scale * P.xtol, ftol := u.val P.ftol, fprimeCutoff := P.fprimeCutoff.map fun c => u.energy / u.scale * c }

/-- A result of the minimizer: positions and values are in the new units, everything else is the same. -/
def minRes (u : Frame d) (r : MinRes d) : MinRes d :=
  { r with
    pos := u.pos r.pos
    value := u.val r.value
    simplexHistory := r.simplexHistory.map fun s i => u.pos (s i)
    funHistory := r.funHistory.map fun h => h.map fun v i => u.val (v i) }

/-- The same for the result of `run_minimization`. -/
def sres (u : Frame d) : SRes d → SRes d
  | .plain r => .plain (u.minRes r)
  | .joined child ancestor p => .joined (u.minRes child) (u.minRes ancestor) (p.map u.pos)

/-- The calls of the function, in the new units. -/
def evals (u : Frame d) (l : List (Vec d × FVal)) : List (Vec d × FVal) := l.map fun e => (u.pos e.1, u.val e.2)

/-- `f'` is the function `f` in the new units. -/
def SameFunction (u : Frame d) (f f' : ℕ → Vec d → FVal) : Prop := ∀ n x, f' n (u.pos x) = u.val (f n x)

/-- The possible values of the gap function in the new units. -/
def gap (u : Frame d) (G : Vec d → FVal → Prop) (x' : Vec d) (v' : FVal) : Prop := ∃ x v, x' = u.pos x ∧ v' = u.val v ∧ G x v

end Frame

/-- A change of the origin, of the unit of length and of the unit of the gap. -/
structure Units (d : ℕ) where
  scale : ℝ
  energy : ℝ
  origin : Vec d
  scale_pos : 0 < scale
  energy_pos : 0 < energy

namespace Units

/-- as a change of coordinates -/
def frame (u : Units d) : Frame d := ⟨u.scale, u.energy, 1, fun _ => 1, u.origin, u.scale_pos, u.energy_pos, fun _ => .inl rfl⟩

/-- The new coordinates of the position `x`. -/
def pos (u : Units d) (x : Vec d) : Vec d := fun k => u.scale * x k + u.origin k

/-- A simplex in the new coordinates. -/
def simplex (u : Units d) (s : Simplex d) : Simplex d := s.map u.pos

/-- `coordinate_system` with the limits in the new coordinates. -/
def coord (u : Units d) (cs : CoordSys d) : CoordSys d := ⟨u.pos cs.lower, u.pos cs.upper, cs.periodic⟩

/-- The arguments of a search in the new units: limits, `gap_threshold`, `feature_size`, and the options of the minimizer, as far as they are given.  (A refinement stencil is given in units
of a third of `feature_size`, so it stays the same.) -/
def args (u : Units d) (a : SearchArgs d) : SearchArgs d :=
  { a with
    limits := fun i => (u.scale * (a.limits i).1 + u.origin i, u.scale * (a.limits i).2 + u.origin i)
    gapThreshold := u.energy * a.gapThreshold
    featureSize := u.scale * a.featureSize
    nelderMead := { a.nelderMead with
      xtol := a.nelderMead.xtol.map fun x => u.scale * x
      ftol := a.nelderMead.ftol.map u.frame.val
      fprimeCutoff := a.nelderMead.fprimeCutoff.map fun o => o.map fun c => u.energy / u.scale * c } }

/-- The parameters of the search loop in the new units. -/
def params (u : Units d) (p : CtlParams d) : CtlParams d :=
  { p with
    coord := u.coord p.coord
    gapThreshold := u.energy * p.gapThreshold
    featureSize := u.scale * p.featureSize
    stencil := p.stencil.map fun st => st.map fun s => s.map fun v k => u.scale * v k
    mesh := p.mesh.map u.simplex }

/-- A table of cells, with other values in the same cells. -/
def cellList {α β : Type} (g : α → β) (c : CellList d α) : CellList d β :=
  ⟨c.periodic, c.numCells, fun i => (c.cells i).map g, c.flat.map g, c.cache⟩

/-- The results in the new units. -/
def container (u : Units d) (c : Container d) : Container d where
  coord := u.coord c.coord
  gapThreshold := u.energy * c.gapThreshold
  distCutoff := u.scale * c.distCutoff
  nodes := cellList u.frame.sres c.nodes
  rejected := c.rejected.map u.frame.sres
  refined := cellList u.pos c.refined
  needsSaving := c.needsSaving

/-- A queue with other objects. -/
def queue {α β : Type} (g : α → β) (q : ObjQueue α) : ObjQueue β := ⟨q.queued.map g, g '' q.all, q.needsSaving⟩

/-- The same for a queue with running objects. -/
def runQueue {α β : Type} (g : α → β) (q : RunQueue α) : RunQueue β := ⟨queue g q.base, q.running.image g⟩

/-- The state of the controller in the new units. -/
def state (u : Units d) (s : CtlState d) : CtlState d := ⟨u.container s.result, runQueue u.simplex s.simplexQueue, queue u.pos s.positionQueue⟩

/-- The content of a save file in the new units. -/
def saved (u : Units d) (s : Saved d) : Saved d := ⟨s.results.map u.frame.sres, s.refined.map u.pos, s.simplices.map u.simplex, s.positions.map u.pos⟩

/-- An event in the new units. -/
def logEntry (u : Units d) : LogEntry d → LogEntry d
  | .scheduled s => .scheduled (u.simplex s)
  | .skipped s => .skipped (u.simplex s)
  | .completed s r => .completed (u.simplex s) (u.frame.sres r)
  | .failed s => .failed (u.simplex s)
  | .refined p => .refined (u.pos p)
  | .discarded p => .discarded (u.pos p)

/-- A search in the new units: its state, running minimizations, save file, and what it has done so far. -/
def ctl (u : Units d) (c : Ctl d) : Ctl d where
  state := u.state c.state
  tasks := c.tasks.map u.simplex
  failed := c.failed.map fun t => (u.simplex t.1, t.2)
  disk := c.disk.map u.saved
  phase := c.phase
  log := c.log.map u.logEntry
  base := c.base.map u.frame.sres

/-- The opposite change. -/
def inv (u : Units d) : Units d := ⟨u.scale⁻¹, u.energy⁻¹, fun k => -(u.scale⁻¹ * u.origin k), inv_pos.2 u.scale_pos, inv_pos.2 u.energy_pos⟩

end Units

end NF.Spec
