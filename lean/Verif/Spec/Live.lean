import Verif.Spec.NelderMead

/-! # Specification vocabulary: minimizations that see the nodes found so far -/

noncomputable section
open Classical
namespace NF.Spec
variable {d : ℕ}

/-- Everything that a fresh search can reach, with any number of crashes and restarts, if every completed minimization of a simplex `s` returns
some `r` with `R nodes s r`, where `nodes` are the nodes known when it is completed (or later). -/
inductive ReachLive (p : CtlParams d) (R : List (SRes d) → Simplex d → SRes d → Prop) : Ctl d → Prop
  | start : ReachLive p R (startFresh p)
  | tail {c c' : Ctl d} (h : ReachLive p R c) (hs : CrashStep p c c')
      (hr : ∀ s r, LogEntry.completed s r ∈ c'.log → R c'.state.result.nodes.values s r) : ReachLive p R c'

/-- The fake potential as a minimization sees it: a call returns 0, unless the point is nearer than `feature_size / 3` to one of `nodes`, those that are
known when the minimization ends. -/
def LiveFake (p : CtlParams d) (nodes : List (SRes d)) (fake : ℕ → Vec d → FVal) : Prop :=
  ∀ n x, fake n x = FVal.ofReal 0 ∨ ∃ r ∈ nodes, p.coord.distance x r.pos < p.featureSize / 3

/-- The results of minimizations of the gap function `G` that start from `s`, with or without a fake potential. -/
def LiveMinimization (p : CtlParams d) (P : NMParams) (G : Vec d → FVal) (nodes : List (SRes d)) (s : Simplex d) (r : SRes d) : Prop :=
  ∃ (fake : Option (ℕ → Vec d → FVal)) (sim0 : Sim d),
    (∀ q, fake = some q → LiveFake p nodes q) ∧ s = List.ofFn sim0 ∧ IsTwoStep P (fun _ => G) fake sim0 r

end NF.Spec
