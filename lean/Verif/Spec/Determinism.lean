import Verif.Model.Controller

/-! # Specification vocabulary: searches with a deterministic gap function -/

noncomputable section
open Classical
namespace NF.Spec
variable {d : ℕ}

/-- A deterministic minimization: its outcome (a result, or the number of an exception of the gap function) depends only on the nodes known so far (in the
order in which the container lists them; they determine the fake potential, see `C70_fake_potential`) and on the initial simplex. -/
abbrev Minimizer (d : ℕ) := List (SRes d) → Simplex d → Except ℕ (SRes d)

/-- The minimizations that end in the step from `c` to `c'` have the outcome that `R` gives. -/
def Obeys (R : Minimizer d) (c c' : Ctl d) : Prop :=
  ∀ new, c'.log = c.log ++ new →
    (∀ s r, .completed s r ∈ new → R c.state.result.nodes.values s = .ok r) ∧
    (∀ s, .failed s ∈ new → ∃ id, R c.state.result.nodes.values s = .error id ∧ (s, .gap id) ∈ c'.failed)

/-- Everything that a search with the minimization `R`, started from `c0`, can reach without crashing, whatever the times at which the minimizations end, the
main loop gets its turn and the state is saved. -/
inductive ReachDet (p : CtlParams d) (R : Minimizer d) (c0 : Ctl d) : Ctl d → Prop
  | refl : ReachDet p R c0 c0
  | tail {c c' : Ctl d} (h : ReachDet p R c0 c) (hs : Step p c c') (ho : Obeys R c c') : ReachDet p R c0 c'

/-- `create_tasks` has ended, normally or with an exception. -/
def Ended (c : Ctl d) : Prop := c.phase ≠ .running

end NF.Spec
