import Verif.Utils.Pairs
import Verif.Cost.Model
import Mathlib.Data.List.Sort
import Mathlib.Algebra.BigOperators.Group.List.Basic

/-!
Model of the greedy solver in `test.py` 297-534: `group_values`, the three greedy steps, `solve`, `run_operations` and the
assertion of `run_problem`.  (`src/tree.py` 88-180 holds copies of the steps that refer to names it does not import.)

Costs only choose between candidates: `extract_cost` is a parameter `ec`, which may raise; the order in which Python
lists a set is a parameter `order`.  `find_linear_combinations` of `test.py` returns the list that the generator of
`src/utils/math.py` yields (`Utils/Model.lean`).  Values are integers; requests are rationals.
-/

namespace Satis.Greedy

/-- One entry of `logs` or `divisions`. -/
inductive Op
  | merge (srcs : List ℤ)
  | extract (src : ℤ) (parts : List ℤ)
  | divide (value : ℤ) (n : ℕ)
  deriving DecidableEq, Repr

/-- test.py 307-308: a run of equal values is logged. -/
def logged (ref : ℤ) (n : ℕ) : List Op := if 1 < n then [.divide (n * ref) n] else []

/-- test.py 301-309: `n` values `ref` met so far; the rest of the list, the divisions appended. -/
def scan (ref : ℤ) (n : ℕ) : List ℤ → List ℤ × List Op
  | [] => ([n * ref], logged ref n)
  | y :: l =>
    if y = ref then scan ref (n + 1) l
    else
      let r := scan y 1 l
      (n * ref :: r.1, logged ref n ++ r.2)

/-- test.py 297-310 `group_values(L, divisions)`: the list afterwards and what is appended; the result `grouped` is true
exactly if something is appended. -/
def groupValues : List ℤ → List ℤ × List Op
  | [] => ([], [])
  | ref :: l => scan ref 1 l

/-- test.py 455-456: `while group_values(targets, divisions): continue`; `none`: not finished with this fuel. -/
def groupAll : ℕ → List ℤ → Option (List ℤ × List Op)
  | 0, _ => none
  | fuel + 1, l =>
    let r := groupValues l
    if r.2 = [] then some (r.1, [])
    else (groupAll fuel r.1).map (fun s => (s.1, r.2 ++ s.2))

/-- `list.remove(value)`; `none`: `ValueError`. -/
def remove (l : List ℤ) (v : ℤ) : Option (List ℤ) := if v ∈ l then some (l.erase v) else none

/-- test.py 509-520: one operation of `run_operations`. -/
def apply (op : Op) (sources : List ℤ) : Option (List ℤ) :=
  match op with
  | .extract src parts => (remove sources src).map (· ++ parts)
  | .divide v n => (remove sources v).map (· ++ List.replicate n (v / n))
  | .merge srcs => (srcs.foldlM remove sources).map (· ++ [srcs.sum])

/-- test.py 508-520: the loop of `run_operations`. -/
def run (ops : List Op) (sources : List ℤ) : Option (List ℤ) := ops.foldlM (fun l op => apply op l) sources

/-- test.py 521 `sorted`. -/
def sorted (l : List ℤ) : List ℤ := l.insertionSort (· ≤ ·)

/-- What a greedy step does: the lists afterwards and the entry of `logs`; `none`: it returns `False`. -/
abbrev Step := Option (List ℤ × List ℤ × Op)

/-- `cost < min_cost`, where `min_cost` starts as infinity. -/
def better {α : Type} (cost : ℤ) (best : Option (ℤ × α)) : Bool :=
  match best with
  | none => true
  | some b => decide (cost < b.1)

/-- test.py 377-378: the pairs `t1`, `t2` in order. -/
def pairsOf : List ℤ → List (ℤ × ℤ)
  | [] => []
  | t :: ts => ts.map (fun u => (t, u)) ++ pairsOf ts

/-- test.py 379-385. -/
def tryTwo (ec : ℤ → ℤ → Py ℤ) (best : Option (ℤ × ℤ × ℤ × ℤ)) (c : ℤ × ℤ × ℤ) : Py (Option (ℤ × ℤ × ℤ × ℤ)) :=
  if c.1 ≠ c.2.1 + c.2.2 ∨ c.2.1 = c.2.2 then .ok best
  else do
    let cost ← ec c.1 c.2.1
    return if better cost best then some (cost, c) else best

/-- test.py 371-394 `apply_best_extract_two_targets(sources, targets, logs)`. -/
def extractTwo (ec : ℤ → ℤ → Py ℤ) (sources targets : List ℤ) : Py Step :=
  match targets.min? with
  | none => .error .valueError
  | some least => do
    let best ← ((sources.filter (fun s => decide (least < s))).flatMap
      (fun s => (pairsOf targets).map (fun p => (s, p)))).foldlM (tryTwo ec) none
    match best with
    | none => return none
    | some (_, s, t1, t2) =>
      return some (sources.erase s, (targets.erase t1).erase t2, .extract s [t1, t2])

/-- test.py 403-409. -/
def tryOne (ec : ℤ → ℤ → Py ℤ) (best : Option (ℤ × ℤ × ℤ)) (c : ℤ × ℤ) : Py (Option (ℤ × ℤ × ℤ)) :=
  if c.1 ≤ c.2 then .ok best
  else do
    let cost ← ec c.1 c.2
    return if better cost best then some (cost, c) else best

/-- test.py 396-418 `apply_best_extract_one_target(sources, targets, logs)`; `not best_t` holds for `0` too. -/
def extractOne (ec : ℤ → ℤ → Py ℤ) (sources targets : List ℤ) : Py Step := do
  let best ← (sources.flatMap (fun s => targets.map (fun t => (s, t)))).foldlM (tryOne ec) none
  match best with
  | none => return none
  | some (_, s, t) =>
    if t = 0 then return none
    else if t = s - t then return none
    else return some (sources.erase s ++ [s - t], targets.erase t, .extract s [t, s - t])

/-- test.py 326-331 `has_sufficient_sources`. -/
def sufficient (coeffs srcs counted : List ℤ) : Bool :=
  (List.zip coeffs srcs).all (fun p => decide (p.1 ≤ counted.count p.2))

/-- test.py 361-362: the sources of a combination. -/
def taken (coeffs srcs : List ℤ) : List ℤ := (List.zip coeffs srcs).flatMap (fun p => List.replicate p.1.toNat p.2)

/-- The best merge so far: cost, sources, target, number of different sources. -/
abbrev BestMerge := Option (ℤ × List ℤ × ℤ × ℕ)

/-- test.py 353 `best_n_sources and n_sources == best_n_sources`. -/
def repeats (k : ℕ) (best : BestMerge) : Bool :=
  match best with
  | none => false
  | some b => decide (b.2.2.2 ≠ 0) && decide (k = b.2.2.2)

/-- test.py 347-362: the loop over the combinations of one target, with its `break`. -/
def mergeCombos (t : ℤ) (srcs counted : List ℤ) : List (ℕ × List ℤ) → BestMerge → BestMerge
  | [], best => best
  | (k, coeffs) :: rest, best =>
    if ¬ sufficient coeffs srcs counted then mergeCombos t srcs counted rest best
    else if repeats k best then best
    else if better (Cost.mergeCost coeffs.sum 1) best then
      mergeCombos t srcs counted rest (some (Cost.mergeCost coeffs.sum 1, taken coeffs srcs, t, k))
    else mergeCombos t srcs counted rest best

/-- test.py 338-362: one target; `order` lists the set of the sources. -/
def mergeTarget (order : List ℤ → List ℤ) (sources : List ℤ) (best : BestMerge) (t : ℤ) : Py BestMerge :=
  let counted := sources.filter (fun s => decide (s < t))
  if counted = [] then .ok best
  else do
    let srcs := order counted
    let combos ← Utils.findLinearCombinations srcs t
    let all := combos.map (fun c => (srcs.length - c.count 0, c))
    return mergeCombos t srcs counted (all.insertionSort (fun a b => b.1 ≤ a.1)) best

/-- test.py 333-369 `apply_best_merge(sources, targets, logs)`; `none` inside: a `remove` raised. -/
def mergeStep (order : List ℤ → List ℤ) (sources targets : List ℤ) : Py Step := do
  let best ← targets.foldlM (mergeTarget order sources) none
  match best with
  | none => return none
  | some (_, srcs, t, _) =>
    if srcs = [] then return none
    else
      match srcs.foldlM remove sources with
      | none => .error .valueError
      | some rest => return some (rest, targets.erase t, .merge srcs)

/-- How `solve` ends. -/
inductive Outcome
  | exit (code : ℕ)
  | ret (sources targets : List ℤ) (ops : List Op)
  deriving DecidableEq, Repr

/-- test.py 422-430: the request, sorted, with the difference appended. -/
def balance (sources targets : List ℚ) : List ℚ × List ℚ :=
  let s := sources.insertionSort (· ≤ ·)
  let t := targets.insertionSort (· ≤ ·)
  (if s.sum < t.sum then s ++ [t.sum - s.sum] else s, if t.sum < s.sum then t ++ [s.sum - t.sum] else t)

/-- test.py 420-467 `solve(sources, targets)`; the loop leaves in its first round: line 458 is `exit(0)`. -/
def solve (sources targets : List ℚ) : Outcome :=
  let b := balance sources targets
  let r := (Utils.fractionsToIntegers (b.1 ++ b.2)).1
  let origSources := r.take b.1.length
  let origTargets := r.drop b.1.length
  let p := Utils.removePairs origSources origTargets
  if (p.1.length = 0 ∧ p.2.length ≠ 0) ∨ (p.1.length ≠ 0 ∧ p.2.length = 0) then .exit 1
  else if p.2.length = 1 then .ret origSources origTargets [.merge p.1]
  else .exit 0

/-- test.py 523-534 `run_problem`: `some true`: the assertion holds, `some false`: it fails, `none`: the program left
before or an operation raised. -/
def problem (sources targets : List ℚ) : Option Bool :=
  match solve sources targets with
  | .exit _ => none
  | .ret s t ops => (run ops s).map (fun r => decide (sorted r = t))

end Satis.Greedy
