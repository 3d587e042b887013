import Verif.Py
import Verif.Config
import Mathlib.Data.Rat.Floor
/-!
# Transcription of `src/cost.py`
-/

namespace Satis.Cost
open Satis

/-- `src/cost.py:1-10` `count_splits(n, m)`; the loop variable pair is `(result, nodes)`. -/
def countSplits (n m : Nat) : Nat :=
  let s := (List.range n).foldl (fun s _ => (s.1 + (s.2 * 2) / 2, s.2 * 2)) (0, 1)
  ((List.range m).foldl (fun s _ => (s.1 + (s.2 * 3) / 3, s.2 * 3)) s).1

/-- `src/cost.py:19-20`: `while b ** k <= X: k += 1` (first argument: fuel). -/
def expLoop (b X : Nat) : Nat → Nat → Nat
  | 0, k => k
  | fuel + 1, k => if b ^ k ≤ X then expLoop b X fuel (k + 1) else k

/-- Loop state of `find_n_m_l` (`src/cost.py:21-22`): `min_splits` (`none` is `float('inf')`), `best_n`, `best_m`, `l`. -/
structure Best where
  minSplits : Option Nat
  n : Nat
  m : Nat
  l : Nat
  deriving DecidableEq, Repr

/-- `src/cost.py:25-32`: body of the double loop of `find_n_m_l`. -/
def fnmlStep (X : Nat) (st : Best) (m n : Nat) : Best :=
  let product := 2 ^ n * 3 ^ m
  if product < X then st
  else
    let splits := countSplits n m
    match st.minSplits with
    | some best => if splits ≥ best then st else ⟨some splits, n, m, product - X⟩
    | none => ⟨some splits, n, m, product - X⟩

/-- `src/cost.py:12-33` `find_n_m_l(X)` for `X ≥ 0` (the only values passed to it).
The result is `(best_n, best_m, l, min_splits)`. `getD 0` is unreachable (theorem `find_n_m_l_spec`). -/
def findNML (X : Nat) : Py (Nat × Nat × Nat × Nat) :=
  if X = 0 then .error .valueError
  else
    let maxN := expLoop 2 X (X + 1) 0
    let maxM := expLoop 3 X (X + 1) 0
    let st := (List.range (maxM + 1)).foldl
      (fun st m => (List.range (maxN + 1)).foldl (fun st n => fnmlStep X st m n) st) ⟨none, 0, 0, 0⟩
    .ok (st.n, st.m, st.l, st.minSplits.getD 0)

/-- `src/cost.py:35-39` `compute_splitters_count(n, m)`. The accumulator is kept in reverse, which the code undoes at
the end with `reversed`. -/
def splittersCount (n m : Nat) : List Nat :=
  let a := (List.range m).foldl (fun acc _ => (acc.headD 0 * 3 + 1) :: acc) [0]
  (List.range n).foldl (fun acc _ => (acc.headD 0 * 2 + 1) :: acc) a

/-- `src/cost.py:41-45` `compute_branches_count(n, m)`. -/
def branchesCount (n m : Nat) : List Nat :=
  let a := (List.range n).foldl (fun acc _ => acc ++ [acc.getLastD 0 / 2]) [2 ^ n * 3 ^ m]
  (List.range m).foldl (fun acc _ => acc ++ [acc.getLastD 0 / 3]) a

/-- `src/cost.py:47-48` `compute_tree_info(n, m)`. -/
def treeInfo (n m : Nat) : List Nat × List Nat := (splittersCount n m, branchesCount n m)

/-- `src/cost.py:53-54`: `i = 0; while branches_count[i] > l: i += 1`; `none` is the `IndexError` of running off the
end of the list. Returns `(i, branches_count[i])`. -/
def firstFit (l : Int) : List Nat → Nat → Option (Nat × Nat)
  | [], _ => none
  | b :: bs, i => if (b : Int) > l then firstFit l bs (i + 1) else some (i, b)

/-- `src/cost.py:50-59`: the `while l` loop of `compute_n_looping_branches`; first argument: fuel;
accumulator `(n_looping_branches, n_saved_splitters)`. -/
def nLoopingLoop (spl br : List Nat) : Nat → Int → Nat × Nat → Py (Nat × Nat)
  | fuel, l, acc =>
    if l = 0 then .ok acc
    else match fuel with
      | 0 => .error .diverge
      | fuel + 1 =>
        match firstFit l br 0 with
        | none => .error .indexError
        | some (i, b) =>
          match spl[i]? with
          | none => .error .indexError
          | some s => nLoopingLoop spl br fuel (l - b) (acc.1 + 1, acc.2 + s)

/-- `src/cost.py:50-59` `compute_n_looping_branches(l, splitters_count, branches_count)`. Each iteration lowers `l` by
at least one as long as no entry of `branches_count` is 0, so `|l|` is enough fuel. -/
def nLooping (l : Int) (spl br : List Nat) : Py (Nat × Nat) :=
  nLoopingLoop spl br l.natAbs l (0, 0)

/-- The dictionary built by `compute_looping_branches`, read only through `.get(key, (0, 0))`: a missing key is
represented by `(0, 0)`. -/
abbrev Plan := Nat × Nat → Nat × Nat

/-- `src/cost.py:64-72`: `i = 0; cur_n, cur_m = 0, 0; while branches_count[i] > l: …`.
Returns `(cur_n, cur_m, branches_count[i])`; `none` is the `IndexError`. -/
def descend (n : Nat) (l : Int) : List Nat → Nat → Nat → Option (Nat × Nat × Nat)
  | [], _, _ => none
  | b :: bs, cn, cm =>
    if (b : Int) > l then
      if cn < n then descend n l bs (cn + 1) cm else descend n l bs cn (cm + 1)
    else some (cn, cm, b)

/-- `src/cost.py:72-73`: `looping_branches[k] = (old_val[0] + 1, old_val[1])`. -/
def Plan.bump (p : Plan) (k : Nat × Nat) : Plan := fun k' => if k' = k then ((p k).1 + 1, (p k).2) else p k'

/-- `src/cost.py:78-79, 83-84`: `looping_branches[k] = (old_val[0], old_val[1] + to_add)`. -/
def Plan.ignore (p : Plan) (k : Nat × Nat) (a : Nat) : Plan :=
  fun k' => if k' = k then ((p k).1, (p k).2 + a) else p k'

/-- `src/cost.py:75-79`: `while cur_n < n: …`; first argument: number of iterations left, `n - cur_n`.
Returns the plan and `to_add`. -/
def ignoreN : Nat → Nat → Nat → Plan → Plan × Nat
  | 0, _, toAdd, p => (p, toAdd)
  | k + 1, cn, toAdd, p => ignoreN k (cn + 1) (toAdd * 2) (p.ignore (cn + 1, 0) (toAdd * 2))

/-- `src/cost.py:80-84`: `while cur_m < m: …`; first argument: number of iterations left, `m - cur_m`. -/
def ignoreM (n : Nat) : Nat → Nat → Nat → Plan → Plan
  | 0, _, _, p => p
  | k + 1, cm, toAdd, p => ignoreM n k (cm + 1) (toAdd * 3) (p.ignore (n, cm + 1) (toAdd * 3))

/-- `src/cost.py:61-86`: the `while l` loop of `compute_looping_branches`; second argument: fuel. -/
def planLoop (n m : Nat) (br : List Nat) : Nat → Int → Plan → Py Plan
  | fuel, l, p =>
    if l = 0 then .ok p
    else match fuel with
      | 0 => .error .diverge
      | fuel + 1 =>
        match descend n l br 0 0 with
        | none => .error .indexError
        | some (cn, cm, b) =>
          let p1 := p.bump (cn, cm)
          let (p2, toAdd) := ignoreN (n - cn) cn 1 p1
          let p3 := ignoreM n (m - cm) cm toAdd p2
          planLoop n m br fuel (l - b) p3

/-- `src/cost.py:61-86` `compute_looping_branches(n, m, l, branches_count)`. -/
def loopingBranches (n m : Nat) (l : Int) (br : List Nat) : Py Plan :=
  planLoop n m br l.natAbs l (fun _ => (0, 0))

/-- `src/cost.py:152-155`: `while n > t: r += 1; n -= 2` (first argument: fuel). -/
def mergeLoop (t : Int) : Nat → Int → Nat → Nat
  | 0, _, r => r
  | fuel + 1, n, r => if n > t then mergeLoop t fuel (n - 2) (r + 1) else r

/-- `src/cost.py:148-155` `merge_cost(n, t)`. -/
def mergeCost (n t : Int) : Nat :=
  if n ≤ t then 0 else mergeLoop t (n - t).toNat n 0

/-- `src/cost.py:157-158` `split_cost()`. -/
def splitCost : Nat := 3

/-- `src/cost.py:115`, `143`: the `2 if n > 0 else 3` in the over-limit surcharge. -/
def fanOut (n : Nat) : Nat := if n > 0 then 2 else 3

/-- `src/cost.py:88-119` `extract_cost(x, c)`. `x // math.gcd(x, x - c)` is positive here, so `toNat` loses nothing. -/
def extractCost (cfg : Config) (x c : Int) : Py Int :=
  if x ≤ 2 then .error .valueError
  else if c = 0 ∨ c = x then .ok 0
  else if c ∈ cfg.speeds.map (fun (s : Nat) => (s : Int)) then .ok 1
  else do
    let d : Nat := (x / (Int.gcd x (x - c) : Int)).toNat
    let (n, m, l, nSplitters) ← findNML d
    let nDivided : Nat := 2 ^ n * 3 ^ m
    let dividedValue : ℚ := (x : ℚ) / nDivided
    let toLoop : ℚ := l * dividedValue
    let newX : ℚ := x + toLoop
    let nExtract : Int := ⌊(c : ℚ) / ((x : ℚ) / (d : ℚ))⌋
    let (spl, br) := treeInfo n m
    let (kLoop, sLoop) ← nLooping l spl br
    let (kOver, sOver) ← nLooping ((d : Int) - nExtract) spl br
    let (kExtr, sExtr) ← nLooping nExtract spl br
    let r : Int := nSplitters - sLoop - sOver - sExtr
    let r := if newX > cfg.limit then r + mergeCost kLoop 1 + 1 + fanOut n else r + mergeCost (kLoop + 1) 1
    return r + mergeCost kOver 1 + mergeCost kExtr 1

/-- `src/cost.py:121-146` `divide_cost(x, d)` for `d ≥ 0`. -/
def divideCost (cfg : Config) (x : Int) (d : Nat) : Py Int :=
  if x ≤ 1 then .error .valueError
  else if d = 0 then .error .valueError
  else if d = 1 then .ok 0
  else if d = 2 ∨ d = 3 then .ok 1
  else do
    let (n, m, l, nSplitters) ← findNML d
    if l = 0 then return (nSplitters : Int)
    else if (l : Int) = x then return 0
    else if l < 3 then return (nSplitters : Int) + 1
    else
      let newX : ℚ := x + ((l * x : Int) : ℚ) / ((2 ^ n * 3 ^ m : Nat) : ℚ)
      let (spl, br) := treeInfo n m
      let (kLoop, sLoop) ← nLooping l spl br
      let r : Int := nSplitters - sLoop
      if newX > cfg.limit then return r + mergeCost kLoop 1 + 1 + fanOut n
      else return r + mergeCost (kLoop + 1) 1

end Satis.Cost
