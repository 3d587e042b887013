import Verif.Cost.Model
import Verif.Utils.Model
/-!
# Transcription of `src/score.py`

Simplifications. Python's `/` on integers gives a floating point number; here the quotients are exact. The tests of
`self.solver.solving` are left out: after a stop request a score may come out smaller, which the model of the search allows
for by taking the scores from an oracle. The caches (`individual_cache`, `score_cache`) only avoid repeated computation.
`score_merge` is never called.
-/

namespace Satis.Solver.Score
open Satis Satis.Utils Satis.Cost

/-- `1 if x in self.targets else 0`. -/
def hit (targets : List Int) (x : Int) : ℚ := if x ∈ targets then 1 else 0

/-- Python's `a / b` for numbers. -/
def pyDiv (a : ℚ) (b : Int) : Py ℚ := if b = 0 then .error .zeroDivision else .ok (a / (b : ℚ))

/-- `if new_score > score: score = new_score`. -/
def better (score new : ℚ) : ℚ := if new > score then new else score

/-- `src/score.py:10-23` `score_extract(src)`. -/
def scoreExtract (cfg : Config) (targets : List Int) (src : Int) : Py ℚ :=
  (List.range ((src - 1) / 2).toNat).foldlM (fun (score : ℚ) (k : Nat) => do
    let c : Int := (k : Int) + 1
    let overflow := src - c
    if c = overflow then return score
    let cost ← extractCost cfg src c
    let new ← pyDiv (hit targets c + hit targets overflow) cost
    return better score new) 0

/-- `src/score.py:25-33` `score_divide(src)`. -/
def scoreDivide (cfg : Config) (targets : List Int) (src : Int) : Py ℚ :=
  (getDivisors src).foldlM (fun (score : ℚ) (d : Nat) => do
    let cost ← divideCost cfg src d
    let new ← pyDiv (targets.count (src / (d : Int)) : ℚ) cost
    return better score new) 0

/-- `src/score.py:35-46` `score_split(src)`. -/
def scoreSplit (cfg : Config) (targets : List Int) (src : Int) : Py ℚ :=
  match cfg.speeds.find? (fun (c : Nat) => decide ((c : Int) > src)) with
  | none => .ok 0
  | some c =>
    if c = 0 then .ok 0
    else
      let value : Int := (c : Int) / 3
      let tmp := value * 2
      if src ≤ tmp then .ok 0
      else
        let overflow := src - tmp
        if value = overflow then .ok 0
        else pyDiv ((targets.count value : ℚ) + hit targets overflow) splitCost

/-- `src/score.py:52-56` `compute_individual(src)`. -/
def individual (cfg : Config) (targets : List Int) (src : Int) : Py ℚ :=
  if src ∈ targets then .ok 1
  else do
    let e ← scoreExtract cfg targets src
    let d ← scoreDivide cfg targets src
    let s ← scoreSplit cfg targets src
    return max e (max d s)

/-- `src/score.py:65-72`: one term of the sum; `merge_cost(n, 1) or 1`. -/
def term (cfg : Config) (targets : List Int) (summed : Int) (n : Nat) : Py ℚ := do
  let i ← individual cfg targets summed
  let m := mergeCost (n : Int) 1
  pyDiv i (if m = 0 then 1 else (m : Int))

/-- `src/score.py:58-75` `compute(given_sources)`. -/
def compute (cfg : Config) (targets given : List Int) : Py ℚ := do
  let (sources, left) := removePairs given targets
  let n := sources.length
  let matching : Int := (targets.length : Int) - left.length
  if n > 0 then
    let sums ← allSums sources
    let total ← sums.foldlM (fun (acc : ℚ) (kv : Int × Nat) => do
      let x ← term cfg targets kv.1 kv.2
      return acc + x) 0
    let mean ← pyDiv total ((2 ^ n - 1 : Nat) : Int)
    return (matching * matching : Int) + mean
  else return ((matching * matching : Int) : ℚ)

end Satis.Solver.Score
