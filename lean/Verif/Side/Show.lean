import Mathlib.Data.Rat.Defs
import Mathlib.Algebra.Order.Ring.Rat
import Mathlib.Algebra.Field.Rat

/-!
Model of `tests/show.py`: the flows in a small network with a belt looped back, round by round, until they look like 2.0 to `float`.
`float` is an arbitrary function on the rationals.
-/

namespace Satis.Show

/-- tests/show.py 3: the eight variables. -/
structure Flows where
  a : ℚ
  b : ℚ
  c : ℚ
  d : ℚ
  e : ℚ
  f : ℚ
  g : ℚ
  h : ℚ
  deriving DecidableEq, Repr

/-- tests/show.py 3. -/
def start : Flows := ⟨0, 0, 0, 0, 0, 0, 0, 0⟩

/-- tests/show.py 5-10: one round. -/
def round (s : Flows) : Flows :=
  let a := 10 + s.b / 3
  let b := a / 2
  let c := a / 2
  let d := b / 3
  let e := b / 3
  let f := c / 3
  ⟨a, b, c, d, e, f, f, f⟩

/-- tests/show.py 4: the condition of the loop. -/
def goesOn (float : ℚ → ℚ) (s : Flows) : Bool :=
  decide (float s.d ≠ 2) || decide (float s.e ≠ 2) || decide (float s.f ≠ 2) || decide (float s.g ≠ 2) || decide (float s.h ≠ 2)

/-- tests/show.py 4-10: the loop, `none` if it has not ended after `fuel` rounds; the number of rounds and the variables. -/
def loop (float : ℚ → ℚ) : ℕ → ℕ → Flows → Option (ℕ × Flows)
  | 0, n, s => if goesOn float s then none else some (n, s)
  | fuel + 1, n, s => if goesOn float s then loop float fuel (n + 1) (round s) else some (n, s)

end Satis.Show
