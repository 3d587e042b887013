import Verif.Graph.Model
import Verif.Cost.Model
import Verif.Utils.Model
import Mathlib.Data.Prod.Lex
/-!
# Transcription of the search in `src/solver.py`

What the search does not control is a parameter (`Oracle`): when another thread clears `self.solving`, the scores, the
random choices, and the graph isomorphism test of `Tree.__eq__`. Every read of `self.solving` is a separate step
(`Search.read`), so a stop request can take effect between any two of them. Printing and logging (off in `config.py`) are not
modelled.
-/

namespace Satis.Solver
open Satis Satis.Graph Satis.Utils Satis.Cost

/-- The attributes set by `load` that the search only reads (`src/solver.py:68-88`). -/
structure Problem where
  cfg : Config
  targetValues : List Int
  minTarget : Int
  targetCounts : Dict Int Nat
  limit : Int
  gcd : Int

/-- What the environment decides. `stopAt = some k`: the flag `self.solving` is seen cleared from the `k`-th read on (nothing sets
it again during `solve`). `score now values`: the value `score_cache.get(values) or scoreCalculator.compute(values)` at time
`now`. `random now`: `none` is `pop(-1)`, `some k` is `pop(randrange(n - 1))` with outcome `k mod (n - 1)`. `iso`:
`networkx.is_isomorphic` on the graphs of two trees. -/
structure Oracle where
  stopAt : Option Nat
  score : Nat → List Int → ℚ
  random : Nat → Option Nat
  iso : Heap Int → TreeObj Int → TreeObj Int → Bool

/-- The state of a search: the heap, the number of reads of `self.solving` so far (also the clock of the oracle), whether
`stop()` was called by the search itself (`src/solver.py:302`), and the attributes `solutions`, `solutions_count`, `best_size`
with the local `queue` of `solve`. -/
structure Search where
  heap : Heap Int
  reads : Nat
  stopped : Bool
  solutions : List (TreeObj Int)
  solutionsCount : Nat
  bestSize : Int
  queue : List (TreeObj Int × ℚ)

/-- Reading `self.solving`. -/
def Search.read (O : Oracle) (s : Search) : Bool × Search :=
  (!s.stopped && (match O.stopAt with
    | none => true
    | some k => decide (s.reads < k)), { s with reads := s.reads + 1 })

/-! ### `src/utils/solver.py:75-89` -/

/-- `src/utils/solver.py:76-81`: counting the sources. -/
def sourceCounts (values : List Int) : Dict Int Nat :=
  values.foldl (fun d v => match d.get? v with
    | some k => d.set v (k + 1)
    | none => d.set v 1) []

/-- `src/utils/solver.py:85-88`: the test in the second loop; `if src_count and target_count` is false for `None` and for 0. -/
def needed (targetCounts sourceCounts : Dict Int Nat) (value : Int) : Bool :=
  match sourceCounts.get? value, targetCounts.get? value with
  | some s, some t => decide (s ≠ 0 ∧ t ≠ 0 ∧ max 0 ((s : Int) - t) = 0)
  | _, _ => false

/-- `src/utils/solver.py:75-89` `compute_cant_use(target_counts, sources)`, on the values of the sources. The result is a `set`,
of which only membership is used. -/
def computeCantUse (targetCounts : Dict Int Nat) (values : List Int) : List Int :=
  values.filter (needed targetCounts (sourceCounts values))

/-! ### Moves -/

/-- A move: the operation with the arguments found in `sim_metadata`. -/
inductive Op
  | extract (i : Nat) (c : Int)
  | divide (i : Nat) (d : Nat)
  | merge (indices : List Nat)
  | split (i : Nat) (c : Int)
  deriving DecidableEq, Repr

/-- What the generators yield: `(sim, sim_metadata, cost)`. -/
structure Move where
  sim : List Int
  op : Op
  cost : Int
  deriving DecidableEq, Repr

/-- `tree.past.contains(sim) or any(t.past.contains(sim) for t in self.solutions)`. -/
def seenState (s : Search) (t : TreeObj Int) (sim : List Int) : Bool :=
  t.past.contains sim || s.solutions.any fun t => t.past.contains sim

/-- `src/solver.py:131-153`: the part of `extract_sims` after the duplicate test, for source number `i` at `src`. -/
def extractMove (P : Problem) (t : TreeObj Int) (cantUse : List Int) (s : Search) (i : Nat) (src : Addr) (c : Int) :
    Py (Option Move) :=
  let value := (s.heap.get src).value
  if value ∈ cantUse then .ok none
  else if gcdIncompatible P.gcd c then .ok none
  else match extractCost P.cfg value c with
    | .error e => .error e
    | .ok cost =>
      if t.size + cost > s.bestSize then .ok none
      else
        let overflow := value - c
        if overflow = c then .ok none
        else if gcdIncompatible P.gcd overflow then .ok none
        else if [c, overflow].any (fun v => (s.heap.get src).past.contains v) then .ok none
        else match simWithout value t.sourceValues with
          | .error e => .error e
          | .ok rest =>
            let sim := insortAll id rest [c, overflow]
            if seenState s t sim then .ok none
            else .ok (some ⟨sim, .extract i c, cost⟩)

/-- `src/solver.py:165-182`: the part of `divide_sims` after the duplicate test. -/
def divideMove (P : Problem) (t : TreeObj Int) (cantUse : List Int) (s : Search) (i : Nat) (src : Addr) (d : Nat) :
    Py (Option Move) :=
  let value := (s.heap.get src).value
  if value ∈ cantUse then .ok none
  else match divideCost P.cfg value d with
    | .error e => .error e
    | .ok cost =>
      if t.size + cost > s.bestSize then .ok none
      else
        let v := value / (d : Int)
        if (s.heap.get src).past.contains v || gcdIncompatible P.gcd v then .ok none
        else match simWithout value t.sourceValues with
          | .error e => .error e
          | .ok rest =>
            let sim := insortAll id rest (List.replicate d v)
            if seenState s t sim then .ok none
            else .ok (some ⟨sim, .divide i d, cost⟩)

/-- `for value in to_sum_values: sim.remove(value)` (`src/solver.py:214`). -/
def removeAll (sim : List Int) : List Int → Py (List Int)
  | [] => .ok sim
  | v :: vs => if v ∈ sim then removeAll (sim.erase v) vs else .error .valueError

/-- `[l[i] for i in indices]`. -/
def pick {α : Type} (l : List α) : List Nat → Py (List α)
  | [] => .ok []
  | i :: is =>
    match l[i]? with
    | none => .error .indexError
    | some x =>
      match pick l is with
      | .error e => .error e
      | .ok xs => .ok (x :: xs)

/-- `src/solver.py:204-221`: the part of `merge_sims` after the duplicate test. -/
def mergeMove (P : Problem) (t : TreeObj Int) (cantUse : List Int) (cost : Int) (s : Search) (indices : List Nat)
    (values : List Int) : Py (Option Move) :=
  if values.any (fun v => decide (v ∈ cantUse)) then .ok none
  else
    let summed := values.foldl (· + ·) 0
    if gcdIncompatible P.gcd summed then .ok none
    else match pick t.sources indices with
      | .error e => .error e
      | .ok nodes =>
        if decide (summed > P.limit) || nodes.any (fun a => (s.heap.get a).past.contains summed) then .ok none
        else match removeAll t.sourceValues values with
          | .error e => .error e
          | .ok rest =>
            let sim := insort id rest summed
            if seenState s t sim then .ok none
            else .ok (some ⟨sim, .merge indices, cost⟩)

/-- `src/solver.py:236-260`: the part of `split_sims` after the duplicate test. All speeds are positive, so `if not
conveyor_speed` is the test for `None`. -/
def splitMove (P : Problem) (t : TreeObj Int) (cantUse : List Int) (s : Search) (i : Nat) (src : Addr) : Py (Option Move) :=
  let value := (s.heap.get src).value
  if value ∈ cantUse then .ok none
  else match P.cfg.speeds.find? (fun (c : Nat) => decide ((c : Int) > value)) with
    | none => .ok none
    | some speed =>
      let newValue := (speed : Int) / 3
      if value < newValue * 2 then .ok none
      else
        let overflow := value - newValue * 2
        if gcdIncompatible P.gcd newValue || gcdIncompatible P.gcd overflow then .ok none
        else if (s.heap.get src).past.contains newValue || (s.heap.get src).past.contains overflow then .ok none
        else match simWithout value t.sourceValues with
          | .error e => .error e
          | .ok rest =>
            let sim := insortAll id rest [newValue, newValue, overflow]
            if seenState s t sim then .ok none
            else .ok (some ⟨sim, .split i speed, splitCost⟩)

/-- `src/solver.py:350-366`: the local functions `extract`, `divide`, `split`, `merge` on the copied sources. While solving, sources
have no children, so the `Fraction` branch of `Node.merge` is not taken (theorem `C26_merge_share`); `Int` division stands in
for it. -/
def applyOp (cfg : Config) (h : Heap Int) (sources : List Addr) : Op → Py (Heap Int × List Addr)
  | .extract i c =>
    match sources[i]? with
    | none => .error .indexError
    | some a => extract cfg h a c
  | .divide i d =>
    match sources[i]? with
    | none => .error .indexError
    | some a => divide h a d
  | .split i c =>
    match sources[i]? with
    | none => .error .indexError
    | some a => split cfg h a c
  | .merge indices =>
    match pick sources indices with
    | .error e => .error e
    | .ok nodes =>
      match merge (fun v k => v / (k : Int)) h nodes with
      | .error e => .error e
      | .ok (h', m) => .ok (h', [m])

/-- `src/solver.py:344-346`: `tree_copy = tree.deepcopy()`, the operation, `tree_copy.add(result_nodes, cost)`. -/
def makeChild (cfg : Config) (h : Heap Int) (t : TreeObj Int) (op : Op) (cost : Int) : Py (Heap Int × TreeObj Int) :=
  match t.deepcopy h with
  | .error e => .error e
  | .ok (h1, t1) =>
    match applyOp cfg h1 t1.sources op with
    | .error e => .error e
    | .ok (h2, nodes) => t1.add h2 nodes cost

/-! ### The local functions of `solve` -/

/-- `src/solver.py:262-269` `is_solution(sources)`. -/
def isSolution (P : Problem) (h : Heap Int) (sources : List Addr) : Bool :=
  if sources.length ≠ P.targetValues.length then false
  else (List.range sources.length).all fun i =>
    decide ((sources[i]?.map fun a => (h.get a).value) = P.targetValues[i]?)

/-- `src/solver.py:274-279` `purge_queue`, on the queue in reverse (the loop runs from the last index to the first). -/
def purgeRev (O : Oracle) : List (TreeObj Int × ℚ) → Search → List (TreeObj Int × ℚ) × Search
  | [], s => ([], s)
  | e :: es, s =>
    let r := s.read O
    if r.1 = false then (e :: es, r.2)
    else
      let q := purgeRev O es r.2
      if e.1.size ≥ s.bestSize then q else (e :: q.1, q.2)

/-- `src/solver.py:274-279` `purge_queue`. -/
def purgeQueue (O : Oracle) (s : Search) : Search :=
  let q := purgeRev O s.queue.reverse s
  { q.2 with queue := q.1.reverse }

/-- `src/solver.py:281-302` `solution_found(tree)`. `self.stop()` at the end clears `self.solving` (or finds it cleared). -/
def solutionFound (O : Oracle) (s : Search) (t : TreeObj Int) : Bool × Search :=
  if s.solutionsCount = 0 ∨ t.size < s.bestSize then
    (true, { s with solutions := [t], bestSize := t.size, solutionsCount := 1 })
  else if t.size = s.bestSize then
    if s.solutions.any (fun t' => O.iso s.heap t' t) then (false, s)
    else (false, { s with solutions := s.solutions ++ [t], solutionsCount := s.solutionsCount + 1 })
  else (false, { s with stopped := true })

/-- The sorting key of the queue, `(x[1], -x[0].size)` (`src/solver.py:313`). -/
def queueKey (e : TreeObj Int × ℚ) : ℚ ×ₗ ℤ := toLex (e.2, -e.1.size)

/-- `src/solver.py:304-313` `enqueue(tree)`. -/
def enqueue (P : Problem) (O : Oracle) (s : Search) (t : TreeObj Int) : Search :=
  let r := s.read O
  if r.1 = false then r.2
  else if isSolution P r.2.heap t.sources then
    let f := solutionFound O r.2 t
    if f.1 then purgeQueue O f.2 else f.2
  else { r.2 with queue := insort queueKey r.2.queue (t, O.score r.2.reads t.sourceValues) }

/-- `src/solver.py:318,325`: which element `dequeue` pops from a queue of length `n`. -/
def popIndex (O : Oracle) (s : Search) (n : Nat) : Nat :=
  if n < 3 ∨ s.solutionsCount > 0 then n - 1
  else match O.random s.reads with
    | none => n - 1
    | some k => k % (n - 1)

/-- `src/solver.py:315-325` `dequeue()`; `none` is Python's `None`. (Popping from an empty queue would raise `IndexError`; the loop
only calls it with a non-empty queue.) -/
def dequeue (O : Oracle) (s : Search) : Py (Option (TreeObj Int) × Search) :=
  let r := s.read O
  if r.1 = false then .ok (none, r.2)
  else
    let i := popIndex O r.2 r.2.queue.length
    match r.2.queue[i]? with
    | none => .error .indexError
    | some e => .ok (some e.1, { r.2 with queue := r.2.queue.eraseIdx i })

/-! ### The main loop -/

/-- `src/solver.py:341-348`: body of `try_op` for one yielded move. -/
def tryMove (P : Problem) (O : Oracle) (t : TreeObj Int) (s : Search) (m : Move) : Py Search :=
  match makeChild P.cfg s.heap t m.op m.cost with
  | .error e => .error e
  | .ok (h, t') => .ok (enqueue P O { s with heap := h } t')

/-- A generator driven by `try_op` (`src/solver.py:341-348`): for each candidate the generator reads `self.solving` and returns if it
is cleared, skips duplicates (`seen`), applies its tests and yields; `try_op` then reads `self.solving` and returns if it is
cleared. The Boolean tells whether the generator ran to its end. -/
def tryLoop {C K : Type} [DecidableEq K] (P : Problem) (O : Oracle) (t : TreeObj Int) (key : C → K)
    (test : Search → C → Py (Option Move)) : List C → List K → Search → Py (Bool × Search)
  | [], _, s => .ok (true, s)
  | c :: cs, seen, s =>
    let r := s.read O
    if r.1 = false then .ok (false, r.2)
    else if key c ∈ seen then tryLoop P O t key test cs seen r.2
    else match test r.2 c with
      | .error e => .error e
      | .ok none => tryLoop P O t key test cs (key c :: seen) r.2
      | .ok (some m) =>
        let r2 := r.2.read O
        if r2.1 = false then .ok (false, r2.2)
        else match tryMove P O t r2.2 m with
          | .error e => .error e
          | .ok s' => tryLoop P O t key test cs (key c :: seen) s'

/-- `for i, src in enumerate(tree.sources): for conveyor_speed in range(1, (src.value - 1) // 2 + 1)`. The nodes of `tree` do not
change while the generator runs (only copies are modified), so the candidates can be listed in advance. -/
def extractCands (h : Heap Int) (t : TreeObj Int) : List (Nat × Addr × Int) :=
  t.sources.zipIdx.flatMap fun p =>
    (List.range (((h.get p.1).value - 1) / 2).toNat).map fun (k : Nat) => (p.2, p.1, (k : Int) + 1)

/-- `src/solver.py:119-153` `extract_sims` driven by `try_op`. -/
def tryExtract (P : Problem) (O : Oracle) (t : TreeObj Int) (cantUse : List Int) (s : Search) : Py Search :=
  (tryLoop P O t (fun (x : Nat × Addr × Int) => ((s.heap.get x.2.1).value, x.2.2))
    (fun s x => extractMove P t cantUse s x.1 x.2.1 x.2.2) (extractCands s.heap t) [] s).map Prod.snd

/-- `for i, src in enumerate(tree.sources): for divisor in (d for d in range(2, src.value + 1) if src.value % d == 0)`. -/
def divideCands (h : Heap Int) (t : TreeObj Int) : List (Nat × Addr × Nat) :=
  t.sources.zipIdx.flatMap fun p => (getDivisors (h.get p.1).value).map fun d => (p.2, p.1, d)

/-- `src/solver.py:155-182` `divide_sims` driven by `try_op`. -/
def tryDivide (P : Problem) (O : Oracle) (t : TreeObj Int) (cantUse : List Int) (s : Search) : Py Search :=
  (tryLoop P O t (fun (x : Nat × Addr × Nat) => ((s.heap.get x.2.1).value, x.2.2))
    (fun s x => divideMove P t cantUse s x.1 x.2.1 x.2.2) (divideCands s.heap t) [] s).map Prod.snd

/-- `src/solver.py:223-260` `split_sims` driven by `try_op`. -/
def trySplit (P : Problem) (O : Oracle) (t : TreeObj Int) (cantUse : List Int) (s : Search) : Py Search :=
  if t.size + splitCost > s.bestSize then .ok s
  else (tryLoop P O t (fun (x : Addr × Nat) => (s.heap.get x.1).value)
    (fun s x => splitMove P t cantUse s x.2 x.1) t.sources.zipIdx [] s).map Prod.snd

/-- `itertools.combinations(l, k)`: in lexicographic order of positions. -/
def combinations {α : Type} : List α → Nat → List (List α)
  | _, 0 => [[]]
  | [], _ + 1 => []
  | x :: xs, k + 1 => (combinations xs k).map (x :: ·) ++ combinations xs (k + 1)

/-- Candidates with their values, `tuple(source_values[i] for i in to_sum_indices)` (`src/solver.py:199-200`). -/
def mergeCands (t : TreeObj Int) (k : Nat) : Py (List (List Nat × List Int)) :=
  (combinations (List.range t.nSources) k).mapM fun idx =>
    match pick t.sourceValues idx with
    | .error e => .error e
    | .ok vs => .ok (idx, vs)

/-- `src/solver.py:190-221`: the loop over `to_sum_count` of `merge_sims`, driven by `try_op`. -/
def tryMergeCounts (P : Problem) (O : Oracle) (t : TreeObj Int) (cantUse : List Int) : List Nat → Search → Py Search
  | [], s => .ok s
  | k :: ks, s =>
    let cost : Int := (mergeCost (k : Int) 1 : Nat)
    if t.size + cost > s.bestSize then tryMergeCounts P O t cantUse ks s
    else match mergeCands t k with
      | .error e => .error e
      | .ok cands =>
        match tryLoop P O t (fun (x : List Nat × List Int) => x.2)
            (fun s x => mergeMove P t cantUse cost s x.1 x.2) cands [] s with
        | .error e => .error e
        | .ok (false, s') => .ok s'
        | .ok (true, s') => tryMergeCounts P O t cantUse ks s'

/-- `src/solver.py:184-221` `merge_sims` driven by `try_op`: `for to_sum_count in range(2, tree.n_sources + 1)`. -/
def tryMerge (P : Problem) (O : Oracle) (t : TreeObj Int) (cantUse : List Int) (s : Search) : Py Search :=
  tryMergeCounts P O t cantUse (List.range' 2 (t.nSources - 1)) s

/-- A list of `try_op(…)` calls, each followed by `if not self.solving: return`; the Boolean tells whether all were completed. -/
def tryOps (O : Oracle) : List (Search → Py Search) → Search → Py (Bool × Search)
  | [], s => .ok (true, s)
  | f :: fs, s =>
    match f s with
    | .error e => .error e
    | .ok s' =>
      let r := s'.read O
      if r.1 = false then .ok (false, r.2) else tryOps O fs r.2

/-- `max(values)`: `ValueError` on an empty tuple. -/
def pyMax : List Int → Py Int
  | [] => .error .valueError
  | x :: xs => .ok (xs.foldl max x)

/-- `src/solver.py:332-378`: what the loop does with the tree it took from the queue. -/
def process (P : Problem) (O : Oracle) (t : TreeObj Int) (s : Search) : Py (Bool × Search) :=
  let cantUse := computeCantUse P.targetCounts (valuesOf s.heap t.sources)
  match pyMax t.sourceValues with
  | .error e => .error e
  | .ok mx =>
    if mx ≤ P.minTarget then tryOps O [tryMerge P O t cantUse] s
    else if t.nSources = 1 then
      tryOps O [tryExtract P O t cantUse, tryDivide P O t cantUse, trySplit P O t cantUse] s
    else
      tryOps O [tryExtract P O t cantUse, tryDivide P O t cantUse, trySplit P O t cantUse, tryMerge P O t cantUse] s

/-- One round of the loop (`src/solver.py:329-378`); `false`: the loop is over. -/
def round (P : Problem) (O : Oracle) (s : Search) : Py (Bool × Search) :=
  let r := s.read O
  if r.1 = false then .ok (false, r.2)
  else if r.2.queue = [] then .ok (false, r.2)
  else match dequeue O r.2 with
    | .error e => .error e
    | .ok (none, _) => .error .typeError
    | .ok (some t, s') => process P O t s'

/-- `src/solver.py:329-378`: `while self.solving and queue: …` (first explicit argument after the oracle: fuel). -/
def solveLoop (P : Problem) (O : Oracle) : Nat → Search → Py Search
  | 0, _ => .error .diverge
  | fuel + 1, s =>
    match round P O s with
    | .error e => .error e
    | .ok (false, s') => .ok s'
    | .ok (true, s') => solveLoop P O fuel s'

/-- The state at the beginning of `solve` (after `reset` and `load`; `run` has set `self.solving`). -/
def initial (h : Heap Int) (bestSize : Int) : Search :=
  { heap := h, reads := 0, stopped := false, solutions := [], solutionsCount := 0, bestSize := bestSize, queue := [] }

/-- `src/solver.py:271-378` `solve()` with the given fuel. -/
def solve (P : Problem) (O : Oracle) (fuel : Nat) (h : Heap Int) (source : TreeObj Int) (bestSize : Int) : Py Search :=
  solveLoop P O fuel (enqueue P O (initial h bestSize) source)

end Satis.Solver
