import Mathlib.Data.List.Basic
/-!
# The threads of a run

Two threads: the main thread in `CLI.main` (`src/utils/cli.py:31-59`), which also runs the signal handler `CLI.exit`, and the backend
thread in `catching_run` (`src/utils/cli.py:41-46`), which runs `SatisSolver.run`. A step is one access to a shared flag; a schedule
says which thread makes the next step, and when SIGINT arrives. What `solve` and `conclude` do between two reads of their flag does not
touch the shared flags, so they are arbitrary programs that read the flag, return or raise, depending on what they have read so far.

Simplified: a signal that arrives while the handler runs, or while `main` is not running, is ignored. `print` and `time.sleep` are no
steps. `Thread.start` does not fail. `solve` does not call `stop()` itself: the only call (`src/solver.py:298`) is not reached, the
field `stopped` of `Search` stays `false` (`C34_best_size`).
-/

namespace Satis.Run

/-- What a program does next. -/
inductive Act
  | read
  | ret
  | raise
  deriving DecidableEq, Repr

/-- `solve` and `conclude`: the next action, given the values of the flag read so far. -/
structure Program where
  solve : List Bool → Act
  conclude : List Bool → Act

/-- Where the backend thread is: the next thing it does. -/
inductive BPc
  | notStarted
  | setSolving
  | inSolve
  | clearSolving
  | setDoneSolving
  | setConcluding
  | inConclude
  | clearConcluding
  | setDoneConcluding
  | lower
  | crash
  | report
  | finished
  deriving DecidableEq, Repr

/-- Where the main thread is. -/
inductive MPc
  | raise
  | start
  | poll
  | join
  | returned
  deriving DecidableEq, Repr

/-- Where the signal handler is. -/
inductive HPc
  | idle
  | readRunning
  | readSolving
  | clearSolving
  | readDoneSolving
  | readConcluding
  | clearConcluding
  | clearCli
  deriving DecidableEq, Repr

/-- The shared flags and the threads. `solveReads` and `concludeReads` are the values read so far by the two programs; `cli` is the
event `CLI.running`. -/
structure State where
  running : Bool
  solving : Bool
  doneSolving : Bool
  concluding : Bool
  doneConcluding : Bool
  cli : Bool
  backend : BPc
  main : MPc
  handler : HPc
  solveReads : List Bool
  concludeReads : List Bool
  deriving DecidableEq, Repr

/-- After `load` has returned `True` (`reset`, `src/solver.py:105-109`, has cleared the flags) and before `self.backend.running = True`
(`src/utils/cli.py:50`). -/
def init : State where
  running := false
  solving := false
  doneSolving := false
  concluding := false
  doneConcluding := false
  cli := true
  backend := .notStarted
  main := .raise
  handler := .idle
  solveReads := []
  concludeReads := []

/-- `src/solver.py:417-428` `run()` inside of `catching_run` (`src/utils/cli.py:41-46`); a bare `except` catches everything, also
`SystemExit`. -/
def stepBackend (P : Program) (s : State) : State :=
  match s.backend with
  | .notStarted => s
  | .setSolving => { s with solving := true, backend := .inSolve }
  | .inSolve =>
    match P.solve s.solveReads with
    | .read => { s with solveReads := s.solveReads ++ [s.solving] }
    | .ret => { s with backend := .clearSolving }
    | .raise => { s with backend := .crash }
  | .clearSolving => { s with solving := false, backend := .setDoneSolving }
  | .setDoneSolving => { s with doneSolving := true, backend := .setConcluding }
  | .setConcluding => { s with concluding := true, backend := .inConclude }
  | .inConclude =>
    match P.conclude s.concludeReads with
    | .read => { s with concludeReads := s.concludeReads ++ [s.concluding] }
    | .ret => { s with backend := .clearConcluding }
    | .raise => { s with backend := .crash }
  | .clearConcluding => { s with concluding := false, backend := .setDoneConcluding }
  | .setDoneConcluding => { s with doneConcluding := true, backend := .lower }
  | .lower => { s with running := false, backend := .finished }
  | .crash => { s with running := false, backend := .report }
  | .report => { s with backend := .finished }
  | .finished => s

/-- `src/utils/cli.py:61-65` `exit` and `src/solver.py:411-415` `stop`. -/
def stepHandler (s : State) : State :=
  match s.handler with
  | .idle => s
  | .readRunning => if s.running then { s with handler := .readSolving } else { s with handler := .clearCli }
  | .readSolving => if s.solving then { s with handler := .clearSolving } else { s with handler := .readDoneSolving }
  | .clearSolving => { s with solving := false, handler := .idle }
  | .readDoneSolving => if s.doneSolving then { s with handler := .readConcluding } else { s with handler := .idle }
  | .readConcluding => if s.concluding then { s with handler := .clearConcluding } else { s with handler := .idle }
  | .clearConcluding => { s with concluding := false, handler := .idle }
  | .clearCli => { s with cli := false, handler := .idle }

/-- `src/utils/cli.py:50-59`; the handler runs in this thread. (`join` waits until the thread has ended.) -/
def stepMain (s : State) : State :=
  if s.handler ≠ .idle then stepHandler s
  else match s.main with
    | .raise => { s with running := true, main := .start }
    | .start => { s with main := .poll, backend := .setSolving }
    | .poll => if s.running then s else { s with main := .join }
    | .join => if s.backend = .finished then { s with main := .returned } else s
    | .returned => s

/-- SIGINT. -/
def signal (s : State) : State :=
  if s.handler = .idle ∧ s.main ≠ .returned then { s with handler := .readRunning } else s

/-- Who makes the next step. -/
inductive Event
  | backend
  | main
  | sigint
  deriving DecidableEq, Repr

/-- One step. -/
def step (P : Program) (s : State) : Event → State
  | .backend => stepBackend P s
  | .main => stepMain s
  | .sigint => signal s

/-- The state after `n` steps of a schedule. -/
def stateAt (P : Program) (σ : Nat → Event) : Nat → State
  | 0 => init
  | n + 1 => step P (stateAt P σ n) (σ n)

/-- The state after a finite list of steps. -/
def after (P : Program) (l : List Event) : State := l.foldl (step P) init

end Satis.Run
