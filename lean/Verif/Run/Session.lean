import Verif.Run.Progress
/-!
# The prompt loop

`CLI.run` (`src/utils/cli.py:67-86`) around the runs of `Verif/Run/Model.lean`. A schedule says who makes the next step; a second
sequence says what the user has done when `prompt` looks for it.

What a line does (whether `load` accepts it, what `solve` and `conclude` do) may depend on all lines before it: it is given by a
`World`, which is arbitrary.

Simplified: `prompt` turns SIGINT into `KeyboardInterrupt`, as the comment in `src/utils/cli.py:75` says, and raises nothing but
`KeyboardInterrupt` and `EOFError`. `load` is one step of the main thread: before that step and after it a signal may arrive.
A signal that arrives while the handler runs is ignored. The log file is closed without error (`src/solver.py:430-432`).
-/

namespace Satis.Run

/-- What the user does at the prompt. -/
inductive Answer
  | line (text : List Char)
  | eof
  deriving DecidableEq, Repr

/-- What the lines do: given the lines so far, the last one included, does `load` accept it, and what do `solve` and `conclude` do? -/
structure World where
  accept : List (List Char) → Bool
  program : List (List Char) → Program

/-- Where `CLI.run` is: the next thing it does. -/
inductive CPc
  | setRunning
  | check
  | prompt
  | compare
  | load
  | inRun
  | resetInput
  | close
  | clear
  | ended
  deriving DecidableEq, Repr

/-- `userInput` is `CLI.user_input`; `flags` are the shared flags and the threads of the current run. For the theorems: `mains` are the
lines for which `main` was called, `closes` counts the calls of `close`. -/
structure Session where
  pc : CPc
  flags : State
  userInput : Option (List Char)
  mains : List (List Char)
  closes : Nat
  deriving DecidableEq, Repr

/-- After `CLI.__init__` (`src/utils/cli.py:13-23`). -/
def Session.init : Session where
  pc := .setRunning
  flags := { Run.init with cli := false }
  userInput := none
  mains := []
  closes := 0

/-- `src/utils/cli.py:80`. -/
def exitWords : List (List Char) := [['e', 'x', 'i', 't'], ['q', 'u', 'i', 't'], ['q']]

/-- `src/utils/cli.py:67-86`, one step of the main thread; `a` is what the user has done. The handler runs in this thread. -/
def Session.stepMain (W : World) (a : Option Answer) (s : Session) : Session :=
  if s.flags.handler ≠ .idle then { s with flags := stepHandler s.flags }
  else match s.pc with
    | .setRunning => { s with pc := .check, flags := { s.flags with cli := true } }
    | .check => if s.flags.cli then { s with pc := .prompt } else { s with pc := .close }
    | .prompt => match a with
      | none => s
      | some .eof => { s with pc := .close }
      | some (.line l) => { s with pc := .compare, userInput := some l }
    | .compare => match s.userInput with
      | none => { s with pc := .load }
      | some l => if l ∈ exitWords then { s with pc := .close } else { s with pc := .load, mains := s.mains ++ [l] }
    | .load => if W.accept s.mains then { s with pc := .inRun, flags := { Run.init with cli := s.flags.cli } } else { s with pc := .resetInput }
    | .inRun => if s.flags.main = .returned then { s with pc := .resetInput } else { s with flags := Run.stepMain s.flags }
    | .resetInput => { s with pc := .check, userInput := none }
    | .close => { s with pc := .clear, closes := s.closes + 1 }
    | .clear => { s with pc := .ended, flags := { s.flags with cli := false } }
    | .ended => s

/-- SIGINT: `prompt` raises `KeyboardInterrupt`, which ends the loop (`src/utils/cli.py:74-76`); elsewhere the handler
`CLI.exit` (`src/utils/cli.py:61-65`) is called. -/
def Session.signal (s : Session) : Session :=
  if s.flags.handler ≠ .idle then s
  else match s.pc with
    | .prompt => { s with pc := .close }
    | .ended => s
    | _ => { s with flags := { s.flags with handler := .readRunning } }

/-- One step. The backend thread belongs to the last line. -/
def Session.step (W : World) (a : Option Answer) (s : Session) : Event → Session
  | .backend => { s with flags := stepBackend (W.program s.mains) s.flags }
  | .main => s.stepMain W a
  | .sigint => s.signal

/-- The session after `n` steps of a schedule. -/
def sessionAt (W : World) (u : Nat → Option Answer) (σ : Nat → Event) : Nat → Session
  | 0 => Session.init
  | n + 1 => (sessionAt W u σ n).step W (u n) (σ n)

end Satis.Run
