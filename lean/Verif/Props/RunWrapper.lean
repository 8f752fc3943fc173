import Verif.Model.RunWrapper
import Verif.Lemmas.Demo
import Verif.Props.Controller

/-!
# Properties of `search.run` (C67)
-/

noncomputable section
open Classical

namespace NF
open Spec
variable {R : Type} {d : ℕ}

/-- **C67.**  Without an event loop, in a thread with an idle one or inside a running one, `search.run` returns what `run_async` returns and raises the `Exception` that it raises. -/
theorem C67_same_outcome (ctx : LoopContext) (hctx : ctx ≠ .closed) (o : Outcome R) (ho : o ≠ .baseException) : (runWrapper ctx o).final = Final.ofOutcome o := by
  cases ctx with
  | noLoop => rfl
  | idle => rfl
  | closed => exact absurd rfl hctx
  | running => cases o with
    | value => rfl
    | exception => rfl
    | baseException => exact absurd rfl ho

/-- **C67**, the loop of the caller is never closed, and no new loop is left open if the search returns. -/
theorem C67_loops (ctx : LoopContext) (o : Outcome R) : (runWrapper ctx o).closedCaller = false ∧ ((runWrapper ctx o).leakedLoops ≠ 0 ↔ ctx = .running ∧ ∀ r, o ≠ .value r) := by
  cases ctx <;> cases o <;> simp [runWrapper, runInThread]

/-- **C67 is false of the code** for a `BaseException` which is not an `Exception`: inside a running event loop `search.run` then waits forever.  (In the other contexts it is raised.) -/
theorem C67_base_exception_blocks (ctx : LoopContext) (hctx : ctx ≠ .closed) :
    ((runWrapper ctx (.baseException : Outcome R)).final = .blocked ↔ ctx = .running) ∧ ((runWrapper ctx (.baseException : Outcome R)).final = .raisedBase ↔ ctx ≠ .running) := by
  cases ctx <;> simp_all [runWrapper, runInThread, Final.ofOutcome]

/-- `search.run` only waits forever in that case. -/
theorem C67_blocks_only {ctx : LoopContext} {o : Outcome R} (h : (runWrapper ctx o).final = .blocked) : ctx = .running ∧ o = .baseException := by
  cases ctx <;> cases o <;> simp [runWrapper, runInThread, Final.ofOutcome] at h ⊢

/-- **C67** together with C24 and C25: if `search.run` returns, the search is finished, and what is returned is its result; if it raises `e`, the search has raised `e`. -/
theorem C67_of_search {p : CtlParams d} (hd : DistinctInput p) {c : Ctl d} (h : ReachAny p c) (ctx : LoopContext) (hctx : ctx ≠ .closed) {o : Outcome (Container d)} (ho : runAsyncOutcome c = some o) :
    (∀ r, (runWrapper ctx o).final = .returned r → r = c.state.result ∧ c.phase = .returned ∧ c.state.simplexQueue.base.queued = [] ∧ c.tasks = [] ∧ c.state.positionQueue.queued = []) ∧
    (∀ e, (runWrapper ctx o).final = .raised e → c.phase = .raised e) ∧ (runWrapper ctx o).final ≠ .blocked := by
  unfold runAsyncOutcome at ho
  cases hph : c.phase with
  | running => rw [hph] at ho; cases ho
  | returned =>
    rw [hph] at ho
    cases ho
    rw [C67_same_outcome ctx hctx _ (by simp)]
    obtain ⟨h1, h2, -, h4, -⟩ := C24_return_means_finished hd h hph
    refine ⟨fun r hr => ?_, fun e he => ?_, ?_⟩
    · cases hr
      exact ⟨rfl, rfl, h1, h2, h4⟩
    · cases he
    · simp [Final.ofOutcome]
  | raised e =>
    rw [hph] at ho
    cases ho
    rw [C67_same_outcome ctx hctx _ (by simp)]
    refine ⟨fun r hr => (by cases hr), fun e he => (by cases he; rfl), (by simp [Final.ofOutcome])⟩

/-- The hypotheses of `C67_of_search` are met by the search in `Lemmas/Demo.lean`, in a running event loop. -/
example : ∃ o r, runAsyncOutcome Demo.c5 = some o ∧ (runWrapper .running o).final = .returned r := ⟨_, _, rfl, rfl⟩
example : ∃ o, runAsyncOutcome Demo.c5f = some o ∧ (runWrapper .running o).final = .raised (.gap 7) := ⟨_, rfl, rfl⟩

end NF
