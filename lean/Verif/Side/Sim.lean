import Verif.Side.Greedy

/-!
Model of `tests/sim.py`, the simulation of a greedy solver: `group_values`, the three greedy steps and `solve`.

`group_values` does to the list what the one of `test.py` does (`Greedy.groupValues`), without a log.  As in
`Side/Greedy.lean`, `extract_cost` is a parameter `ec`, which may raise.  Values are integers.
-/

namespace Satis.Sim
open Greedy (better remove pairsOf groupAll)

/-- `itertools.combinations(l, r)`, in its order (tests/sim.py 21). -/
def combinations : ℕ → List ℤ → List (List ℤ)
  | 0, _ => [[]]
  | _ + 1, [] => []
  | r + 1, x :: l => (combinations r l).map (x :: ·) ++ combinations (r + 1) l

/-- tests/sim.py 22-27. -/
def tryMerge (targets : List ℤ) (best : Option (ℤ × List ℤ)) (comb : List ℤ) : Option (ℤ × List ℤ) :=
  if comb.sum ∈ targets ∧ better (Cost.mergeCost comb.length 1) best then some (Cost.mergeCost comb.length 1, comb) else best

/-- tests/sim.py 20-21: the combinations of at least two sources. -/
def merges (sources : List ℤ) : List (List ℤ) :=
  (List.range' 2 (sources.length - 1)).flatMap fun r => combinations r sources

/-- tests/sim.py 16-33 `apply_best_merge(sources, targets)`: the sources afterwards; `none`: it returns `False`.  The targets stay. -/
def mergeStep (sources targets : List ℤ) : Py (Option (List ℤ)) :=
  match (merges sources).foldl (tryMerge targets) none with
  | none => .ok none
  | some (_, comb) =>
    if comb = [] then .ok none
    else
      match comb.foldlM remove sources with
      | none => .error .valueError
      | some rest => .ok (some rest)

/-- tests/sim.py 43-49. -/
def tryTwo (ec : ℤ → ℤ → Py ℤ) (best : Option (ℤ × ℤ × ℤ × ℤ)) (c : ℤ × ℤ × ℤ) : Py (Option (ℤ × ℤ × ℤ × ℤ)) :=
  if c.1 ≠ c.2.1 + c.2.2 then .ok best
  else do
    let cost ← ec c.1 c.2.1
    return if better cost best then some (cost, c) else best

/-- tests/sim.py 35-57 `apply_best_extract_two_targets(sources, targets)`. -/
def extractTwo (ec : ℤ → ℤ → Py ℤ) (sources targets : List ℤ) : Py (Option (List ℤ × List ℤ)) := do
  let best ← (sources.flatMap fun s => (pairsOf targets).map fun p => (s, p)).foldlM (tryTwo ec) none
  match best with
  | none => return none
  | some (_, s, t1, t2) => return some (sources.erase s, (targets.erase t1).erase t2)

/-- tests/sim.py 66-72. -/
def tryOne (ec : ℤ → ℤ → Py ℤ) (best : Option (ℤ × ℤ × ℤ)) (c : ℤ × ℤ) : Py (Option (ℤ × ℤ × ℤ)) :=
  if c.1 < c.2 then .ok best
  else do
    let cost ← ec c.1 c.2
    return if better cost best then some (cost, c) else best

/-- tests/sim.py 59-78 `apply_best_extract_one_target(sources, targets)`; without a candidate `sources.remove(None)` raises. -/
def extractOne (ec : ℤ → ℤ → Py ℤ) (sources targets : List ℤ) : Py (List ℤ × List ℤ) := do
  let best ← (sources.flatMap fun s => targets.map fun t => (s, t)).foldlM (tryOne ec) none
  match best with
  | none => .error .valueError
  | some (_, s, t) => return (sources.erase s ++ [s - t], targets.erase t)

/-- tests/sim.py 104-106: the step that is made. -/
def step (ec : ℤ → ℤ → Py ℤ) (sources targets : List ℤ) : Py (List ℤ × List ℤ) := do
  match ← mergeStep sources targets with
  | some rest => return (rest, targets)
  | none =>
    match ← extractTwo ec sources targets with
    | some r => return r
    | none => extractOne ec sources targets

/-- How `solve` ends, unless it raises. -/
inductive End
  | returned
  | oopsie
  deriving DecidableEq, Repr

/-- tests/sim.py 91-109: the loop; `none`: not finished with this fuel. -/
def loop (ec : ℤ → ℤ → Py ℤ) : ℕ → List ℤ → List ℤ → Option (Py End)
  | 0, _, _ => none
  | fuel + 1, sources, targets =>
    let p := Utils.removePairs sources targets
    if (p.1.length = 0 ∧ p.2.length ≠ 0) ∨ (p.1.length ≠ 0 ∧ p.2.length = 0) then some (.ok .oopsie)
    else if p.2.length = 1 then some (.ok .returned)
    else
      match groupAll (fuel + 1) p.2 with
      | none => none
      | some g =>
        match step ec p.1 g.1 with
        | .error e => some (.error e)
        | .ok r => if r.1 = r.2 then some (.ok .returned) else loop ec fuel r.1 r.2

/-- tests/sim.py 81-89: the lists the loop starts with. -/
def start (sources targets : List ℤ) : List ℤ × List ℤ :=
  let s := sources.insertionSort (· ≤ ·)
  let t := targets.insertionSort (· ≤ ·)
  (if s.sum < t.sum then s ++ [t.sum - s.sum] else s, if t.sum < s.sum then t ++ [s.sum - t.sum] else t)

/-- tests/sim.py 80-109 `solve(sources, targets)`. -/
def solve (ec : ℤ → ℤ → Py ℤ) (fuel : ℕ) (sources targets : List ℤ) : Option (Py End) :=
  loop ec fuel (start sources targets).1 (start sources targets).2

end Satis.Sim
