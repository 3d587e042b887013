import Verif.Solver.Model
import Verif.Graph.Group
import Verif.Utils.Text
/-!
# Transcription of `SatisSolver.load` (`src/solver.py:20-117`) and the part of `CLI.main` that calls it
-/

namespace Satis.Solver
open Satis Satis.Graph Satis.Utils Satis.Cost

/-- The attributes of a `SatisSolver`. (Before the first `load` the attributes set there do not exist; the model has some value in
their place.) Not modelled: `score_cache` and `scoreCalculator` (see `Oracle.score`), the log file, `running`. The functions
`compute_cant_use` and `gcd_incompatible` are represented by the values they close over. -/
structure Attrs where
  solving : Bool
  doneSolving : Bool
  concluding : Bool
  doneConcluding : Bool
  solutions : List (TreeObj Int)
  solutionsCount : Nat
  problemStr : Str
  unitFlowRatio : Nat
  leaves : List Addr
  sizeOffset : Int
  targetValues : List Int
  nTargets : Nat
  minTarget : Int
  targetCounts : Dict Int Nat
  limit : Int
  treeSource : TreeObj Int
  bestSize : Int
  gcd : Int

/-- `src/solver.py:105-117` `reset()`. -/
def Attrs.reset (a : Attrs) : Attrs :=
  { a with
    solving := false
    doneSolving := false
    concluding := false
    doneConcluding := false
    solutions := []
    solutionsCount := 0 }

/-- `src/solver.py:39-52`: the side that is short gets one more value, inserted in order. -/
def balance (s t : List ℚ) : List ℚ × List ℚ :=
  if s.sum < t.sum then (insort id s (t.sum - s.sum), t)
  else if s.sum > t.sum then (s, insort id t (s.sum - t.sum))
  else (s, t)

/-- `min(values)`: `ValueError` on an empty list. -/
def pyMin : List Int → Py Int
  | [] => .error .valueError
  | x :: xs => .ok (xs.foldl min x)

/-- `src/solver.py:99-102`: extracting the targets one after the other from one belt of value `v`. -/
def extractAll (cfg : Config) : Int → List Int → Py Int
  | _, [] => .ok 0
  | v, t :: ts =>
    match extractCost cfg v t with
    | .error e => .error e
    | .ok c =>
      match extractAll cfg (v - t) ts with
      | .error e => .error e
      | .ok r => .ok (c + r)

/-- `src/solver.py:94-103` `best_size_upper_bond()`. -/
def upperBound (cfg : Config) (sources targets : List Int) : Py Int :=
  match extractAll cfg sources.sum targets with
  | .error e => .error e
  | .ok r => .ok ((mergeCost sources.length 1 : Nat) + r)

/-- What a call leaves behind: what it returned or raised, and the attributes and objects afterwards. -/
structure After where
  result : Py Bool
  attrs : Attrs
  heap : Heap Int

/-- `src/solver.py:37-92`: the rest of `load`, on the parsed values. Attributes assigned before an exception stay assigned; nodes
created by a call that raised are not reachable and are dropped. `set(self.target_values)` is iterated in some order, and only
looked up: the order does not matter. -/
def loadValues (cfg : Config) (s t : List ℚ) (a : Attrs) (h : Heap Int) : After :=
  let a := a.reset
  let b := balance (s.insertionSort (· ≤ ·)) (t.insertionSort (· ≤ ·))
  let p := removePairs b.1 b.2
  if p.1 = [] then ⟨if p.2 = [] then .ok false else .error .assertionError, a, h⟩
  else
    let r := fractionsToIntegers (p.1 ++ p.2)
    let sources := r.1.take p.1.length
    let a := { a with
      problemStr := problemName p.1 p.2
      unitFlowRatio := r.2
      targetValues := r.1.drop p.1.length }
    match groupValues cfg h a.targetValues with
    | .error e => ⟨.error e, a, h⟩
    | .ok (h, leaves, cost) =>
      let a := { a with
        leaves := leaves
        sizeOffset := cost
        targetValues := valuesOf h leaves
        nTargets := (valuesOf h leaves).length }
      match pyMin a.targetValues with
      | .error e => ⟨.error e, a, h⟩
      | .ok m =>
        let a := { a with
          minTarget := m
          targetCounts := a.targetValues.dedup.map fun v => (v, a.targetValues.count v)
          limit := (cfg.limit : Int) }
        match newNodes h [] none sources with
        | .error e => ⟨.error e, a, h⟩
        | .ok (h, roots) =>
          let (h, tree) := newTree h roots
          let a := { a with treeSource := tree }
          match upperBound cfg tree.sourceValues a.targetValues with
          | .error e => ⟨.error e, a, h⟩
          | .ok b =>
            let a := { a with bestSize := b + a.sizeOffset }
            match computeGcd (sources ++ a.targetValues) with
            | .error e => ⟨.error e, a, h⟩
            | .ok g => ⟨.ok true, { a with gcd := g }, h⟩

/-- `src/solver.py:20-92` `load(user_input)`. -/
def load (cfg : Config) (input : Str) (a : Attrs) (h : Heap Int) : After :=
  match parseUserInput input with
  | .error _ => ⟨.ok false, a, h⟩
  | .ok none => ⟨.ok false, a, h⟩
  | .ok (some (s, t)) => if s = [] ∨ t = [] then ⟨.ok false, a, h⟩ else loadValues cfg s t a h

/-- The attributes of a loaded problem that the search reads. -/
def Attrs.problem (cfg : Config) (a : Attrs) : Problem where
  cfg := cfg
  targetValues := a.targetValues
  minTarget := a.minTarget
  targetCounts := a.targetCounts
  limit := a.limit
  gcd := a.gcd

/-- `src/utils/cli.py:32-40`, the beginning of `CLI.main`: is the problem run? The `except:` catches whatever `load` raises. -/
def cliLoads (cfg : Config) (input : Str) (a : Attrs) (h : Heap Int) : Bool × Attrs × Heap Int :=
  let r := load cfg input a h
  match r.result with
  | .error _ => (false, r.attrs, r.heap)
  | .ok b => (b, r.attrs, r.heap)

end Satis.Solver
