import Verif.Model.FloatDistance
import Verif.Model.Ballistic

/-!
# Model of `nodefinder/identify/_evaluate/_line/_ballistic.py` in floating-point arithmetic

As `Model/Ballistic`, with every arithmetic operation followed by a rounding `rnd`.  The matrix products and the norm of a single vector are computed by BLAS, which is not modelled: `Blas` says which results are possible.
-/

noncomputable section
open Classical

namespace NF.FL

variable {d : ℕ}

/-- The possible results of `u @ v` (`numpy.matmul`: lines 151 and 160) and of `scipy.linalg.norm(v)` for a vector (line 73), which call the BLAS library. -/
structure Blas (d : ℕ) where
  dot : Vec d → Vec d → ℝ → Prop
  nrm2 : Vec d → ℝ → Prop

/-- `la.norm(deltas, axis=-1)`, which numpy computes as `sqrt(add.reduce(v * v))` (_ballistic.py:138): `x` is a possible result for one row. -/
def NormOf (rnd : ℝ → ℝ) (v : Vec d) (x : ℝ) : Prop := ∃ s, RndSum rnd (List.ofFn fun i => rnd (v i ^ 2)) s ∧ x = rnd (Real.sqrt s)

/-- _ballistic.py:140-147: the `neighbors` whose norm (`nrm`) is positive, as `NF.usableNeighbors`. -/
def usableNeighbors (g : NxGraph (Vec d) ℝ) (nrm : Vec d → ℝ) (node : Vec d) : List (Vec d) :=
  (g.neighbors node).filter fun n => decide (0 < nrm n)

/-- _ballistic.py:147, `delta / delta_norm`. -/
def unitVec (rnd : ℝ → ℝ) (cs : CoordSys d) (nrm : Vec d → ℝ) (node n : Vec d) : Vec d := fun i => rnd (connectingVector rnd cs node n i / nrm n)

/-- _ballistic.py:154, 157: `candidate_nodes`, where `angle` are the `direction_angles`; as `NF.candidateNodes`. -/
def candidateNodes (g : NxGraph (Vec d) ℝ) (nrm angle : Vec d → ℝ) (node : Vec d) : List (Vec d) :=
  (usableNeighbors g nrm node).filter fun n => decide (0 < angle n)

/-- _ballistic.py:184-187: the entry of `distances_normalized` for one candidate. -/
def distanceNormalized (rnd : ℝ → ℝ) (g : NxGraph (Vec d) ℝ) (fs : ℝ) (node n : Vec d) : ℝ := rnd (g.edgeAttr node n / fs)

/-- _ballistic.py:163-192: the entry of `weights` for one candidate, where `s` is the sum of line 162 and `angle` the entry of `direction_angles`; as `NF.ballisticWeight`. -/
def ballisticWeight (rnd : ℝ → ℝ) (g : NxGraph (Vec d) ℝ) (fs : ℝ) (rg : NxGraph (Vec d) Unit) (node n : Vec d) (s angle : ℝ) : ℝ :=
  let w1 := rnd (s * angle)
  let w2 := rnd (w1 * rnd (1 + rnd (rnd 0.2 * (if n ∈ rg.nodes then 1 else 0))))
  let w3 := rnd (w2 * (1 + 1 * (if n ∈ rg.nodes ∧ rg.degree n > 2 then 1 else 0)))
  let w4 := rnd (w3 * (1 + 1 * (if n ∈ rg.nodes ∧ rg.degree n = 1 then 1 else 0)))
  let w5 := rnd (w4 / rnd (1 + rnd (5 * distanceNormalized rnd g fs node n)))
  rnd (w5 * (1 - (if distanceNormalized rnd g fs node n < rnd 1e-3 then 1 else 0)))

/-- What is computed in one call of `get_next_pos` before the choice is made: `nrm` are the `delta_norms_all` (_ballistic.py:138), `angle` the `direction_angles` (150-153), `mat` the `angle_weight_matrix` (160) and
`sums` the `weights` of line 162. -/
structure Computed (B : Blas d) (rnd : ℝ → ℝ) (g : NxGraph (Vec d) ℝ) (cs : CoordSys d) (node : Vec d) (prev : Option (Vec d)) (nrm angle : Vec d → ℝ) (mat : Vec d → Vec d → ℝ) (sums : Vec d → ℝ) : Prop where
  vectors : ∀ n ∈ g.neighbors node, Connecting rnd cs node n (.ok (connectingVector rnd cs node n))
  norms : ∀ n ∈ g.neighbors node, NormOf rnd (connectingVector rnd cs node n) (nrm n)
  angles : ∀ n ∈ usableNeighbors g nrm node, match prev with
    | some p => B.dot (unitVec rnd cs nrm node n) p (angle n)
    | none => angle n = 1
  matrix : ∀ n ∈ candidateNodes g nrm angle node, ∀ m ∈ candidateNodes g nrm angle node, B.dot (unitVec rnd cs nrm node n) (unitVec rnd cs nrm node m) (mat n m)
  summed : ∀ n ∈ candidateNodes g nrm angle node, RndSum rnd ((candidateNodes g nrm angle node).map fun m => max (mat n m) 0) (sums n)

/-- _ballistic.py:128-197, `get_next_pos`, as `NF.NextPos`: `r` is a possible result.  `connecting_vector` may raise.  `np.argmax` gives the first position with the largest weight; as the order of neighbours is
arbitrary, any of them can be chosen.  Without neighbours, and if all norms are zero while there is a previous direction, the shape of `np.array([])` leads to an error, as in the exact model. -/
inductive NextPos (B : Blas d) (rnd : ℝ → ℝ) (g : NxGraph (Vec d) ℝ) (cs : CoordSys d) (fs : ℝ) (rg : NxGraph (Vec d) Unit) (node : Vec d) (prev : Option (Vec d)) :
    Except Err (Option (Vec d × Vec d)) → Prop
  | noNeighbors : g.neighbors node = [] → NextPos B rnd g cs fs rg node prev (.error (if d = 1 then .type else .value))
  | raises {n e} : n ∈ g.neighbors node → Connecting rnd cs node n (.error e) → NextPos B rnd g cs fs rg node prev (.error e)
  | allCoincide {nrm angle mat sums} : g.neighbors node ≠ [] → Computed B rnd g cs node prev nrm angle mat sums → usableNeighbors g nrm node = [] → prev ≠ none →
      NextPos B rnd g cs fs rg node prev (.error .value)
  | nothing {nrm angle mat sums} : g.neighbors node ≠ [] → Computed B rnd g cs node prev nrm angle mat sums → (usableNeighbors g nrm node ≠ [] ∨ prev = none) → candidateNodes g nrm angle node = [] →
      NextPos B rnd g cs fs rg node prev (.ok none)
  | chosen {nrm angle mat sums n} : Computed B rnd g cs node prev nrm angle mat sums → n ∈ candidateNodes g nrm angle node →
      (∀ m ∈ candidateNodes g nrm angle node, ballisticWeight rnd g fs rg node m (sums m) (angle m) ≤ ballisticWeight rnd g fs rg node n (sums n) (angle n)) →
      NextPos B rnd g cs fs rg node prev (.ok (some (n, unitVec rnd cs nrm node n)))

/-- One step of `run` / `find_loop` (_ballistic.py:52-126), as `NF.BStep`.  If the norm in line 73 is zero, numpy gives NaN and the direction has no positive angle with anything; here the division by zero gives the zero vector. -/
inductive BStep (B : Blas d) (rnd : ℝ → ℝ) (g : NxGraph (Vec d) ℝ) (cs : CoordSys d) (fs : ℝ) : BState d → BState d → Prop
  /-- line 59 -/
  | finish {rg ev} : g.isDominatingSet (fun x => x ∈ rg.nodes) → BStep B rnd g cs fs (.outer rg ev) (.done rg)
  /-- lines 66-76 and 98-101 -/
  | endNode {rg ev node nbr x} : ¬ g.isDominatingSet (fun x => x ∈ rg.nodes) → node ∈ newEndNodes rg ev → (rg.neighbors node).head? = some nbr →
      Connecting rnd cs node nbr (.ok (connectingVector rnd cs node nbr)) → B.nrm2 (connectingVector rnd cs node nbr) x →
      BStep B rnd g cs fs (.outer rg ev) (.loop (rg.addNode node) ev (some node) node (some fun i => -(rnd (connectingVector rnd cs node nbr i / x))) false)
  /-- line 69, `connecting_vector` raises -/
  | endNodeRaises {rg ev node nbr e} : ¬ g.isDominatingSet (fun x => x ∈ rg.nodes) → node ∈ newEndNodes rg ev → (rg.neighbors node).head? = some nbr →
      Connecting rnd cs node nbr (.error e) → BStep B rnd g cs fs (.outer rg ev) (.error e)
  /-- lines 80-86 and 98-101 -/
  | newStart {rg ev node} : ¬ g.isDominatingSet (fun x => x ∈ rg.nodes) → newEndNodes rg ev = [] → node ∈ startCandidates g rg →
      BStep B rnd g cs fs (.outer rg ev) (.loop (rg.addNode node) ev none node none false)
  /-- line 85, `pop` from an empty set -/
  | noStart {rg ev} : ¬ g.isDominatingSet (fun x => x ∈ rg.nodes) → newEndNodes rg ev = [] → startCandidates g rg = [] →
      BStep B rnd g cs fs (.outer rg ev) (.error .key)
  /-- lines 103-126 -/
  | next {rg ev pending node prev onGraph r} : NextPos B rnd g cs fs rg node prev r →
      BStep B rnd g cs fs (.loop rg ev pending node prev onGraph) (afterNext rg ev pending node prev onGraph r)

/-- Executions with the number of steps (_ballistic.py:52), as `NF.BRun`. -/
inductive BRun (B : Blas d) (rnd : ℝ → ℝ) (g : NxGraph (Vec d) ℝ) (cs : CoordSys d) (fs : ℝ) : ℕ → BState d → Prop
  | init : BRun B rnd g cs fs 0 .init
  | step {n s s'} : BRun B rnd g cs fs n s → BStep B rnd g cs fs s s' → BRun B rnd g cs fs (n + 1) s'

end NF.FL
