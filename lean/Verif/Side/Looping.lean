import Verif.Cost.FindNML
import Verif.Cost.Costs
import Mathlib.Tactic.Linarith
import Mathlib.Tactic.FieldSimp
import Mathlib.Tactic.Ring

/-!
Model of the experiments about looped-back branches in `test.py`: the check of 257-275, `compute` (649-653) and
`count_merges` (660-667).  Divisions are exact rationals.
-/

namespace Satis.Looping
open Cost

/-- test.py 262-265 and 274: the belt after the first splitter, as the experiment computes it; `n_children` is 271. -/
def firstBelt (x : ℚ) (n m l : ℕ) : ℚ :=
  let nChildren : ℚ := if n > 0 then 2 else 3
  let toLoop : ℚ := l * (x / (2 ^ n * 3 ^ m))
  x / nChildren + toLoop / nChildren

/-- test.py 261-276: does the experiment leave with 'please no' for this `x` and `d`?  `none`: `find_n_m_l` raised. -/
def pleaseNo (limit : ℚ) (x : ℚ) (d : ℕ) : Option Bool :=
  match findNML d with
  | .error _ => none
  | .ok (n, m, l, _) =>
    if x + l * (x / (2 ^ n * 3 ^ m)) > limit then some (decide (firstBelt x n m l > limit)) else some false

/-- test.py 649-653 `compute(x, n, m, l)`; `none`: division by zero. -/
def compute (x : ℚ) (n m : ℕ) (l : ℤ) : Option ℚ :=
  let d : ℤ := 2 ^ n * 3 ^ m
  let b : ℚ := x / d
  if d - l = 0 then none else some (b + l * b / (d - l : ℤ))

/-- test.py 664-666 (first argument: fuel). -/
def mergesLoop : ℕ → ℤ → ℕ → ℕ
  | 0, _, r => r
  | fuel + 1, l, r => if l > 1 then mergesLoop fuel (l - 2) (r + 1) else r

/-- test.py 660-667 `count_merges(n, m, l)`; the first two arguments are not used. -/
def countMerges (l : ℤ) : Py ℤ :=
  if l < 0 then .error .valueError
  else if l ≤ 1 then .ok l
  else .ok (mergesLoop l.toNat l 0)

theorem mergesLoop_eq : ∀ (fuel l r : ℕ), l ≤ fuel → mergesLoop fuel (l : ℤ) r = r + l / 2 := by
  intro fuel
  induction fuel with
  | zero => intro l r h; rw [mergesLoop]; omega
  | succ fuel ih =>
    intro l r h
    rw [mergesLoop]
    by_cases hl : (l : ℤ) > 1
    · rw [if_pos hl, show (l : ℤ) - 2 = ((l - 2 : ℕ) : ℤ) by omega, ih (l - 2) (r + 1) (by omega)]
      omega
    · rw [if_neg hl]; omega

theorem countMerges_eq (l : ℕ) : countMerges l = .ok (if l = 1 then 1 else (l / 2 : ℕ)) := by
  unfold countMerges
  rw [if_neg (by omega)]
  by_cases h : (l : ℤ) ≤ 1
  · rw [if_pos h]
    have : l = 0 ∨ l = 1 := by omega
    rcases this with rfl | rfl <;> rfl
  · rw [if_neg h, mergesLoop_eq _ _ _ (by omega), if_neg (by omega)]
    simp

end Satis.Looping
