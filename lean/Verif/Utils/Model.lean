import Verif.Dict
import Mathlib.Data.Rat.Defs
import Mathlib.Data.Int.GCD
/-!
# Transcription of `src/utils/other.py`, `src/utils/math.py`, `src/utils/solver.py` (helpers) and the arithmetic part of
`src/utils/fractions.py`
-/

namespace Satis.Utils
open Satis

/-! ### `src/utils/other.py` -/

/-- `collections.Counter(l)`: occurrences, keys in order of first occurrence. Also the explicit counting loop of
`src/utils/fractions.py:25-31`. -/
def counter {α : Type} [DecidableEq α] (l : List α) : Dict α Nat :=
  l.foldl (fun d x => d.set x ((d.get? x).getD 0 + 1)) []

/-- `src/utils/other.py:10-13`: `for item, count in d.items(): remaining.extend([item] * count)`. -/
def elements {α : Type} (d : Dict α Nat) : List α := d.flatMap fun kv => List.replicate kv.2 kv.1

/-- `src/utils/other.py:6-9`: body of the loop over the keys of `count_a`; state `(count_a, count_b)`. -/
def cancelStep {α : Type} [DecidableEq α] (s : Dict α Nat × Dict α Nat) (x : α) : Dict α Nat × Dict α Nat :=
  match s.2.get? x with
  | none => s
  | some nb =>
    let k := min ((s.1.get? x).getD 0) nb
    (s.1.set x ((s.1.get? x).getD 0 - k), s.2.set x (nb - k))

/-- `src/utils/other.py:1-14` `remove_pairs(list_a, list_b)`. -/
def removePairs {α : Type} [DecidableEq α] (a b : List α) : List α × List α :=
  let s := (counter a).keys.foldl cancelStep (counter a, counter b)
  (elements s.1, elements s.2)

/-! ### `src/utils/fractions.py` (arithmetic) -/

/-- `src/utils/fractions.py:3-4`: `math.lcm` of the denominators. -/
def commonDenominator (fs : List ℚ) : Nat := (fs.map fun f => f.den).foldl Nat.lcm 1

/-- `src/utils/fractions.py:1-6` `fractions_to_integers`. -/
def fractionsToIntegers (fs : List ℚ) : List Int × Nat :=
  let d := commonDenominator fs
  (fs.map fun f => f.num * ((d / f.den : Nat) : Int), d)

/-- `src/utils/fractions.py:12-17`: `while denominator % p == 0: denominator //= p; power += 1` (first explicit
argument after `p`: fuel). -/
def factorOut (p : Nat) : Nat → Nat → Nat → Nat × Nat
  | 0, d, k => (d, k)
  | fuel + 1, d, k => if d % p = 0 then factorOut p fuel (d / p) (k + 1) else (d, k)

/-- `src/utils/fractions.py:8-21` `decimal_representation_info(fraction)`. A denominator is positive, and each round of a
loop at least halves it, so the denominator itself is enough fuel. -/
def decimalInfo (f : ℚ) : Bool × Option Nat :=
  let (d2, p2) := factorOut 2 f.den f.den 0
  let (d5, p5) := factorOut 5 d2 d2 0
  let m := max p2 p5
  if d5 = 1 then (true, some m)
  else if p2 = 0 ∧ p5 = 0 then (false, none)
  else (false, some m)

/-! ### `src/utils/math.py` -/

/-- `src/utils/math.py:1-2` `get_divisors(n)`; also the inline generator of `src/solver.py:159`. -/
def getDivisors (n : Int) : List Nat := (List.range' 2 (n - 1).toNat).filter fun d => decide (n % (d : Int) = 0)

/-- `src/utils/math.py:4-7` `compute_gcd(*values)`. -/
def computeGcd : List Int → Py Int
  | [] => .error .typeError
  | x :: xs => .ok (xs.foldl (fun a b => (Int.gcd a b : Int)) x)

/-- `src/utils/math.py:9-18` `_find_linear_combinations(x, y, idx, current_solution)`: the list of vectors yielded and
`current_solution` afterwards. The first argument is `x[idx:]`. Simplification: vectors yielded before an exception are
dropped. -/
def flc : List Int → Nat → Int → List Int → Py (List (List Int) × List Int)
  | [], _, y, cur => if y = 0 then .ok ([cur], cur) else .ok ([], cur)
  | a :: xs, idx, y, cur =>
    if y = 0 then .ok ([cur], cur)
    else if a = 0 then .error .zeroDivision
    else (List.range (Int.fdiv y a + 1).toNat).foldlM (fun (s : List (List Int) × List Int) (c : Nat) => do
      let r ← flc xs (idx + 1) (y - c * a) (s.2.set idx c)
      return (s.1 ++ r.1, r.2)) ([], cur)

/-- `src/utils/math.py:20-23` `find_linear_combinations(x, y)`. -/
def findLinearCombinations (x : List Int) (y : Int) : Py (List (List Int)) :=
  if x = [] ∨ y < 0 then .ok []
  else (flc x 0 y (List.replicate x.length 0)).map Prod.fst

/-- `src/utils/math.py:27-29`: one round of the loop of `all_sums`. -/
def sumsStep (sums : Dict Int Nat) (num : Int) : Dict Int Nat :=
  let new : Dict Int Nat := sums.foldl (fun d kv => d.set (kv.1 + num) (kv.2 + 1)) []
  sums.update new

/-- `src/utils/math.py:25-31` `all_sums(numbers)`. -/
def allSums (numbers : List Int) : Py (Dict Int Nat) :=
  match Dict.erase (numbers.foldl sumsStep [(0, 0)]) 0 with
  | none => .error .keyError
  | some d => .ok d

/-! ### `src/utils/solver.py` (helpers) -/

/-- `src/utils/solver.py:1-6` `gcd_incompatible(gcd, value)`. -/
def gcdIncompatible (gcd value : Int) : Bool := decide (value < gcd)

/-- `src/utils/solver.py:95-98` `get_sim_without(value, values)`; `list.remove` raises `ValueError`. -/
def simWithout (value : Int) (values : List Int) : Py (List Int) :=
  if value ∈ values then .ok (values.erase value) else .error .valueError

end Satis.Utils
