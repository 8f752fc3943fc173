import Verif.Model.FloatFake
import Verif.Spec.FloatController
import Verif.Spec.FloatNM

/-! # Specification vocabulary: minimizations in floating-point arithmetic that see the nodes found so far (C106, C107, C108) -/

noncomputable section
open Classical
namespace NF.Spec
variable {d : ℕ}

/-- The fake potential as a minimization sees it: a call returns 0, unless the computed distance to one of `nodes`, those that are known when the minimization ends, is below the cutoff. -/
def FloatLiveFake (A : FL.CtlArith d) (p : CtlParams d) (nodes : List (SRes d)) (fake : ℕ → Vec d → FVal) : Prop :=
  ∀ n x, fake n x = FVal.ofReal 0 ∨ ∃ r ∈ nodes, ∃ v, FL.Distance A.rnd p.coord x r.pos v ∧ v < FL.distCutoff A p

/-- The results of minimizations of the gap function `G` that start from `s`, with or without a fake potential, with all arithmetic rounded. -/
def FloatLiveMinimization (A : FL.CtlArith d) (p : CtlParams d) (P : NMParams) (G : Vec d → FVal) (nodes : List (SRes d)) (s : Simplex d) (r : SRes d) : Prop :=
  ∃ (B : FL.Arith d) (fake : Option (ℕ → Vec d → FVal)) (sim0 : Sim d), B.rnd = A.rnd ∧ B.Valid ∧
    (∀ q, fake = some q → FloatLiveFake A p nodes q) ∧ s = List.ofFn sim0 ∧ IsFloatTwoStep B P (fun _ => G) fake sim0 r

/-- Everything that a fresh search in floating-point arithmetic can reach with at most `n` crashes and restarts, if a minimization of a simplex `s` that is completed when `nodes` are the nodes returns some `r` with `R nodes s r`. -/
inductive FloatReachLive (A : FL.CtlArith d) (p : CtlParams d) (R : List (SRes d) → Simplex d → SRes d → Prop) : ℕ → Ctl d → Prop
  | start {n : ℕ} {c : Ctl d} (h : FL.startFrom A p none none = .ok c) : FloatReachLive A p R n c
  | step {n : ℕ} {c c' : Ctl d} (h : FloatReachLive A p R n c) (hs : FL.Step A p (R c.state.result.nodes.values) c c') : FloatReachLive A p R n c'
  | crash {n : ℕ} {c c' : Ctl d} (h : FloatReachLive A p R n c) (hs : FL.startFrom A p c.disk c.disk = .ok c') : FloatReachLive A p R (n + 1) c'

/-- What a search can reach from `c` without a crash. -/
def FloatContinues (A : FL.CtlArith d) (p : CtlParams d) (R : List (SRes d) → Simplex d → SRes d → Prop) : Ctl d → Ctl d → Prop :=
  Relation.ReflTransGen fun c c' => FL.Step A p (R c.state.result.nodes.values) c c'

/-- The result of some minimization of the search. -/
def AnyNodes (R : List (SRes d) → Simplex d → SRes d → Prop) (s : Simplex d) (r : SRes d) : Prop := ∃ nodes, R nodes s r

end NF.Spec
