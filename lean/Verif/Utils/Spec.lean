import Mathlib.Data.Rat.Floor
import Mathlib.Algebra.Order.Floor.Ring
import Mathlib.Algebra.BigOperators.Group.List.Basic
import Mathlib.Order.Bounds.Basic
/-!
# Specifications for the helper functions

Nothing here refers to the model.
-/

namespace Satis.Utils.Spec

/-- Equal values are next to each other: anything between two copies of `x` is `x`. -/
def Adjacent {α : Type} (l : List α) : Prop := ∀ u v w : List α, ∀ x, l = u ++ x :: v ++ x :: w → ∀ y ∈ v, y = x

/-- `x` is an integer. -/
def Integral (x : ℚ) : Prop := ∃ z : ℤ, x = z

/-- `f` is written exactly with `k` decimals. -/
def ExactWith (f : ℚ) (k : ℕ) : Prop := Integral (f * 10 ^ k)

/-- `i`-th decimal of a non-negative number (`i = 0` is the first one after the point). -/
def digit (x : ℚ) (i : ℕ) : ℤ := ⌊x * 10 ^ (i + 1)⌋ % 10

/-- After the first `m` decimals the decimals repeat with some period. -/
def PeriodicAfter (x : ℚ) (m : ℕ) : Prop := ∃ p : ℕ, 1 ≤ p ∧ ∀ i, m ≤ i → digit x (i + p) = digit x i

/-- `∑ cᵢ xᵢ`. -/
def dot (c x : List ℤ) : ℤ := (List.zipWith (· * ·) c x).sum

/-- `c` is a combination of the values `x` that gives `y`: one non-negative coefficient per value. -/
structure Combination (x : List ℤ) (y : ℤ) (c : List ℤ) : Prop where
  length : c.length = x.length
  nonneg : ∀ a ∈ c, 0 ≤ a
  total : dot c x = y

/-- `s` is the sum of `n` of the numbers (of a sub-multiset of size `n`). -/
def SubSum (numbers : List ℤ) (s : ℤ) (n : ℕ) : Prop := ∃ sub : List ℤ, sub.Sublist numbers ∧ sub.sum = s ∧ sub.length = n

/-- How many numbers are taken to make `s`, going through the numbers from the last to the first and taking each one that leaves
something the numbers before it can make. -/
inductive Taken : List ℤ → ℤ → ℕ → Prop
  | none : Taken [] 0 0
  | take {l : List ℤ} {x s : ℤ} {n : ℕ} : (∃ m, SubSum l (s - x) m) → Taken l (s - x) n → Taken (l ++ [x]) s (n + 1)
  | leave {l : List ℤ} {x s : ℤ} {n : ℕ} : (¬ ∃ m, SubSum l (s - x) m) → Taken l s n → Taken (l ++ [x]) s n

end Satis.Utils.Spec
