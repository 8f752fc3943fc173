import Verif.Model.Controller

/-!
# Model of `nodefinder/search/_run.py`: `run`, `run_async` and `_run_in_thread`

What happens inside `run_async` is in `Model/Controller.lean`.  Here only its outcome matters, and the event loops, the thread and the queues around it.
-/

noncomputable section
open Classical

namespace NF

/-- How a call of `run_async` ends: it returns, raises an `Exception`, or raises another `BaseException` (`KeyboardInterrupt`, `SystemExit`, `asyncio.CancelledError`). -/
inductive Outcome (R : Type)
  | value (r : R)
  | exception (e : Err)
  | baseException

/-- What `asyncio.get_event_loop()` finds (_run.py:147-153): nothing (it raises a `RuntimeError`), or an event loop. -/
inductive LoopContext
  | noLoop
  | idle
  | running
  | closed
  deriving DecidableEq

/-- How the call of `run` ends.  `blocked`: it waits forever. -/
inductive Final (R : Type)
  | returned (r : R)
  | raised (e : Err)
  | raisedBase
  | blocked

/-- `blocked` aside, the same ending as the given outcome. -/
def Final.ofOutcome {R : Type} : Outcome R → Final R
  | .value r => .returned r
  | .exception e => .raised e
  | .baseException => .raisedBase

/-- What a thread that runs `_run_in_thread` leaves behind when it has ended: the content of the two queues, and whether the event loop it made is still open. -/
structure ThreadEnd (R : Type) where
  resQueue : List R
  excQueue : List Err
  loopOpen : Bool

/-- _run.py:185-197, `_run_in_thread`.  The exception handler catches an `Exception` only; line 193 is not reached if `run_async` raises. -/
def runInThread {R : Type} : Outcome R → ThreadEnd R
  | .value r => ⟨[r], [], false⟩
  | .exception e => ⟨[], [e], true⟩
  | .baseException => ⟨[], [], true⟩

/-- The end of a call of `run`: its ending; how many event loops it has made that are still open; whether the loop of the caller (if any) was closed. -/
structure RunEnd (R : Type) where
  final : Final R
  leakedLoops : ℕ
  closedCaller : Bool

/-- _run.py:136-182, `run`, where `o` is how `run_async` ends.  With a closed event loop `run_until_complete` raises a `RuntimeError` (here: `Err.value`) without running anything. -/
def runWrapper {R : Type} (ctx : LoopContext) (o : Outcome R) : RunEnd R :=
  match ctx with
  | .noLoop => ⟨Final.ofOutcome o, 0, false⟩          -- lines 152-153, 178, 180-181
  | .idle => ⟨Final.ofOutcome o, 0, false⟩            -- line 178
  | .closed => ⟨.raised .value, 0, false⟩
  | .running =>                                       -- lines 157-175; the thread has ended at line 173
    let t := runInThread o
    let leaked := if t.loopOpen then 1 else 0
    match t.excQueue with
    | e :: _ => ⟨.raised e, leaked, false⟩            -- lines 173-174
    | [] => match t.resQueue with
      | r :: _ => ⟨.returned r, leaked, false⟩        -- line 175
      | [] => ⟨.blocked, leaked, false⟩               -- line 175, `get` of an empty queue to which nobody puts anything any more

/-- _run.py:22-133, `run_async`: it returns `controller.state.result` when `controller.run()` has returned, and raises what that raises. -/
def runAsyncOutcome {d : ℕ} (c : Ctl d) : Option (Outcome (Container d)) :=
  match c.phase with
  | .running => none
  | .returned => some (.value c.state.result)
  | .raised e => some (.exception e)

end NF
