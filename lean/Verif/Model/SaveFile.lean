import Verif.Model.Controller

/-!
# Model of `Controller.save` (`nodefinder/search/_controller.py:307-321`) at the level of file-system operations

One call of `save`, instruction by instruction.  Between any two instructions the process can be killed, so what matters is the
file system in *every* intermediate state.  Every instruction that can fail does so nondeterministically.

Trusted about the environment: `NamedTemporaryFile` creates a file that did not exist (O_EXCL) under a name different
from the save file; `os.rename` inside one directory is atomic (POSIX).  Losing cached writes in a power failure (no fsync) is not modelled.
-/

noncomputable section
open Classical

namespace NF

/-- What is in a file: anything that is not a complete HDF5 file of a state, or a complete one. -/
inductive FileContent (σ : Type)
  | incomplete (bytes : ℕ)
  | complete (s : σ)

/-- `io.load` of a file content: fails on anything incomplete (`none`). -/
def FileContent.load {σ : Type} : FileContent σ → Option σ
  | .incomplete _ => none
  | .complete s => some s

/-- A directory: file names and contents. -/
abbrev Dir (σ : Type) := String → Option (FileContent σ)

/-- The two kinds of Python exceptions: `Exception` (caught by line 319), and the others such as `KeyboardInterrupt`. -/
inductive PyExc
  | exception (id : ℕ)
  | baseException (id : ℕ)

/-- Program counter of `save`. -/
inductive SavePc
  | start             -- line 311
  | writing           -- inside `io.save`, line 316
  | beforeRename          -- before line 317
  | marking           -- before line 318
  | handler (e : PyExc)  -- before line 320, `e` has been caught
  | returned
  | raised (e : PyExc)
  | cleanupRaised (id : ℕ)  -- line 320 itself has raised

/-- The state of one call: program counter, directory, and the attribute `state.needs_saving`. -/
structure SaveState (σ : Type) where
  pc : SavePc
  dir : Dir σ
  needsSaving : Bool

/-- One instruction of `save`.  `saveFile` is the name of the save file (`none`: no save file), `tmp` the name chosen by
`NamedTemporaryFile`, `new` the state to be saved. -/
inductive SaveStep {σ : Type} (saveFile : Option String) (tmp : String) (new : σ) : SaveState σ → SaveState σ → Prop
  /-- line 311, the condition is false -/
  | skip (D : Dir σ) (n : Bool) (h : saveFile = none ∨ n = false) :
      SaveStep saveFile tmp new ⟨.start, D, n⟩ ⟨.returned, D, n⟩
  /-- lines 312-314: the temporary file is created, empty -/
  | create (D : Dir σ) (f : String) (hf : saveFile = some f) (hfresh : D tmp = none) (hne : tmp ≠ f) :
      SaveStep saveFile tmp new ⟨.start, D, true⟩ ⟨.writing, Function.update D tmp (some (.incomplete 0)), true⟩
  /-- lines 312-314 fail (outside of `try`) -/
  | createFail (D : Dir σ) (f : String) (hf : saveFile = some f) (e : PyExc) :
      SaveStep saveFile tmp new ⟨.start, D, true⟩ ⟨.raised e, D, true⟩
  /-- line 316: `io.save` writes something to the temporary file -/
  | write (D : Dir σ) (n : Bool) (bytes : ℕ) :
      SaveStep saveFile tmp new ⟨.writing, D, n⟩ ⟨.writing, Function.update D tmp (some (.incomplete bytes)), n⟩
  /-- line 316: `io.save` is finished -/
  | writeEnd (D : Dir σ) (n : Bool) :
      SaveStep saveFile tmp new ⟨.writing, D, n⟩ ⟨.beforeRename, Function.update D tmp (some (.complete new)), n⟩
  /-- line 316 raises, line 319 -/
  | writeFail (D : Dir σ) (n : Bool) (id : ℕ) :
      SaveStep saveFile tmp new ⟨.writing, D, n⟩ ⟨.handler (.exception id), D, n⟩
  /-- line 317: atomic rename -/
  | rename (D : Dir σ) (n : Bool) (f : String) (hf : saveFile = some f) :
      SaveStep saveFile tmp new ⟨.beforeRename, D, n⟩ ⟨.marking, Function.update (Function.update D f (D tmp)) tmp none, n⟩
  /-- line 317 raises, line 319 -/
  | renameFail (D : Dir σ) (n : Bool) (id : ℕ) :
      SaveStep saveFile tmp new ⟨.beforeRename, D, n⟩ ⟨.handler (.exception id), D, n⟩
  /-- line 318 (attribute assignments cannot fail), then closing the temporary file -/
  | mark (D : Dir σ) (n : Bool) : SaveStep saveFile tmp new ⟨.marking, D, n⟩ ⟨.returned, D, false⟩
  /-- lines 320-321 -/
  | remove (D : Dir σ) (n : Bool) (e : PyExc) :
      SaveStep saveFile tmp new ⟨.handler e, D, n⟩ ⟨.raised e, Function.update D tmp none, n⟩
  /-- line 320 itself raises (the temporary file has been removed by someone else, or cannot be removed) -/
  | removeFail (D : Dir σ) (n : Bool) (e : PyExc) (id : ℕ) :
      SaveStep saveFile tmp new ⟨.handler e, D, n⟩ ⟨.cleanupRaised id, D, n⟩
  /-- a `KeyboardInterrupt` or the like, anywhere: not caught -/
  | interrupt (pc : SavePc) (D : Dir σ) (n : Bool) (id : ℕ) (h : ∀ e, pc ≠ .raised e) (h' : pc ≠ .returned)
      (h'' : ∀ id, pc ≠ .cleanupRaised id) :
      SaveStep saveFile tmp new ⟨pc, D, n⟩ ⟨.raised (.baseException id), D, n⟩

end NF
