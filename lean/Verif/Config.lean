import Mathlib.Data.List.Sort
/-!
# `config.py`
-/

namespace Satis

/-- `config.py:5-30` (`SatisSolverConfig.__init__`): only the fields the algorithms read.  `speeds` is the *sorted*
list `self.conveyor_speeds` (line 16). -/
structure Config where
  speeds : List Nat
  deriving Repr

/-- `config.py:25`: `self.conveyor_speed_limit = self.conveyor_speeds[-1]`.  (`getD 0` stands for the `IndexError`
raised at construction time by an empty list; a configuration object with no speeds cannot exist.) -/
def Config.limit (cfg : Config) : Nat := cfg.speeds.getLast?.getD 0

/-- `config.py:32-42`: the configuration shipped with the program. -/
def config : Config := ⟨[60, 120, 270, 480, 780, 1200].insertionSort (· ≤ ·)⟩

end Satis
