import Verif.Graph.Attach
import Verif.Cost.Model
import Mathlib.Data.Rat.Floor
/-!
# Transcription of the expansion of moves into splitters and mergers (`src/node.py:204-548`)

Expanded networks carry fractions, so everything here works on `Heap ℚ`. Python's `int` and `Fraction` with denominator 1 are the same
rational here; they differ in one place only (`math.gcd`, which wants `int`s), see `pyGcd`.
-/

namespace Satis.Graph
open Satis Satis.Cost

/-- The same object with rational values. -/
def NodeObj.toRat (o : NodeObj Int) : NodeObj ℚ where
  value := o.value
  id := o.id
  level := o.level
  past := ⟨o.past.items.map fun (z : ℤ) => (z : ℚ), o.past.set.map fun (z : ℤ) => (z : ℚ)⟩
  parents := o.parents
  children := o.children
  expands := o.expands.map fun
    | .extract c => .extract c
    | .divide d => .divide d
    | .merge t => .merge t
    | .split c => .split c
  levelsToAdd := o.levelsToAdd

/-- The objects the search leaves, read as rationals. -/
def Heap.toRat (h : Heap Int) : Heap ℚ where
  get a := (h.get a).toRat
  next := h.next
  nextUid := h.nextUid

/-- The same tree with rational values. -/
def TreeObj.toRat (t : TreeObj Int) : TreeObj ℚ where
  roots := t.roots
  sources := t.sources
  levels := t.levels
  past := ⟨t.past.items.map fun l => l.map fun (z : ℤ) => (z : ℚ), t.past.set.map fun l => l.map fun (z : ℤ) => (z : ℚ)⟩
  currentLevel := t.currentLevel
  sourceValues := t.sourceValues.map fun (z : ℤ) => (z : ℚ)
  nSources := t.nSources
  size := t.size

/-- `math.gcd(v, w)` (`src/node.py:245`): `TypeError` unless both are integers. (A `Fraction` with denominator 1 also makes `math.gcd`
raise `TypeError`; here it passes.) -/
def pyGcd (v w : ℚ) : Py Nat := if v.den = 1 ∧ w.den = 1 then .ok (Int.gcd v.num w.num) else .error .typeError

/-- `l[i]` for `i ≥ 0`. -/
def item (l : List Addr) (i : Nat) : Py Addr :=
  match l[i]? with
  | some a => .ok a
  | none => .error .indexError

/-- `src/node.py:257-259,381-383`: `values`, the flow on each depth; position `i` is depth `i`. -/
def layerValues (v : ℚ) (n m : Nat) : List ℚ :=
  let a := (List.range n).foldl (fun acc _ => acc ++ [acc.getLastD 0 / 2]) [v]
  (List.range m).foldl (fun acc _ => acc ++ [acc.getLastD 0 / 3]) a

/-- `src/node.py:287-293,325-331,397-403,423-429`: `count` new nodes of one depth, hanging from the nodes `cur` from output number
`off` on, `k` outputs each. -/
def newLayer (k off : Nat) (value : ℚ) (level depth : Int) (cur : List Addr) (h : Heap ℚ) : Nat → Py (Heap ℚ × List Addr)
  | 0 => .ok (h, [])
  | j + 1 => do
    let (h, as) ← newLayer k off value level depth cur h j
    let (h, a) ← newNode h value [] none (some level)
    let h := h.modify a fun o => { o with levelsToAdd := -depth }
    let p ← item cur ((off + j) / k)
    let h := h.modify p fun o => { o with children := o.children ++ [a] }
    return (h.modify a fun o => { o with parents := [p] }, as ++ [a])

/-- `src/node.py:406-409,432-435`: the original children hang from the last depth; `j` is the number of the first of them. -/
def hangChildren (k off : Nat) (cur : List Addr) (h : Heap ℚ) (j : Nat) : List Addr → Py (Heap ℚ)
  | [] => .ok h
  | c :: cs => do
    let p ← item cur ((off + j) / k)
    hangChildren k off cur (adopt p h c) (j + 1) cs

/-- `src/node.py:297-300,302-305,307-310,411-414,440-443`: `count` outputs, from number `off` on, go to the node `target`. -/
def reroute (k off : Nat) (target : Addr) (cur : List Addr) (h : Heap ℚ) : Nat → Py (Heap ℚ)
  | 0 => .ok h
  | j + 1 => do
    let h ← reroute k off target cur h j
    let p ← item cur ((off + j) / k)
    return link h p target

/-- `src/node.py:394-416` and `419-445`: one depth of `expand_divide`; the state is the heap, `cur_level` and `cur_nodes`. `k` is 2 or 3,
`width` the number of positions on this depth, `plan` the pair of the looping and the ignored ones, `target` the node the looping
branches lead to, `last` tells that the original children hang on this depth. -/
def divideLayer (k width : Nat) (plan : Nat × Nat) (value : ℚ) (depth : Int) (target : Addr) (last : Bool) (original : List Addr)
    (s : Heap ℚ × Int × List Addr) : Py (Heap ℚ × Int × List Addr) := do
  let lvl := s.2.1 + 1
  let (h, new) ← if last then (hangChildren k plan.1 s.2.2 s.1 0 original).map fun h => (h, original)
    else newLayer k plan.1 value lvl depth s.2.2 s.1 (width - (plan.1 + plan.2))
  let h ← reroute k 0 target s.2.2 h plan.1
  return (h, lvl, new)

/-- `src/node.py:361-363,448-450`: `if len(loop_node.parents) > threshold: loop_node.tag_expand_merge(threshold)`. -/
def tagMerge (h : Heap ℚ) (a : Addr) (threshold : Nat) : Heap ℚ :=
  if (h.get a).parents.length > threshold then tagExpand h a (.merge threshold) else h

/-- `src/node.py:356-359,444-447`: the looped flow joins the first depth. -/
def joinLoop (h : Heap ℚ) (node loop : Addr) : Heap ℚ := (h.get node).children.foldl (fun h c => link h loop c) h

/-- `src/node.py:372-455` `expand_divide(node, divisor)`. -/
def expandDivide (cfg : Config) (h : Heap ℚ) (node : Addr) (divisor : Nat) : Py (Heap ℚ × (Int × Int)) := do
  let (n, m, l, _) ← findNML divisor
  let toLoop : ℚ := (l * (h.get node).value) / divisor
  let newValue := (h.get node).value + toLoop
  let over := decide (newValue > (cfg.limit : ℚ))
  let (h, loop) ← if over then newNode h toLoop [] none none else .ok (h, node)
  let isRoot := decide ((h.get loop).parents = [])
  let plan ← loopingBranches n m l (branchesCount n m)
  let values := layerValues newValue n m
  let lvl ← levelSucc (h.get node)
  let original := (h.get node).children
  let h := h.modify node fun o => { o with children := [] }
  let s ← (List.range n).foldlM (fun s i =>
    divideLayer 2 (2 ^ (i + 1)) (plan (i + 1, 0)) (values.getD (i + 1) 0) (n + m) loop (decide (i + 1 = n ∧ m = 0)) original s) (h, lvl, [node])
  let s ← (List.range m).foldlM (fun s i =>
    divideLayer 3 (2 ^ n * 3 ^ (i + 1)) (plan (n, i + 1)) (values.getD (n + i + 1) 0) (n + m) node (decide (i + 1 = m)) original s) s
  let h := if over then joinLoop s.1 node loop else s.1
  let h := tagMerge h loop (if isRoot then 2 else 3)
  return (h, (lvl, n + m))

/-- `src/node.py:280-312` and `314-352`: one depth of `expand_extract`. The plans of the looping, the extracted and the overflowing
branches are `p`, `q` and `r`. -/
def extractLayer (k width : Nat) (p q r : Nat × Nat) (value : ℚ) (depth : Int) (loop extracted overflow : Addr) (last : Bool)
    (original : List Addr) (s : Heap ℚ × Int × List Addr) : Py (Heap ℚ × Int × List Addr) := do
  let lvl := s.2.1 + 1
  let reroutes := p.1 + q.1 + r.1
  let ignored := p.2 + q.2 + r.2
  let (h, new) ← if last then .ok (s.1, original)
    else newLayer k reroutes value lvl depth s.2.2 s.1 (width - (reroutes + ignored))
  let h ← reroute k 0 loop s.2.2 h p.1
  let h ← reroute k p.1 extracted s.2.2 h q.1
  let h ← reroute k (p.1 + q.1) overflow s.2.2 h r.1
  return (h, lvl, new)

/-- `src/node.py:241-367` `expand_extract(node, conveyor_speed)`. -/
def expandExtract (cfg : Config) (h : Heap ℚ) (node : Addr) (c : ℚ) : Py (Heap ℚ × (Int × Int)) := do
  let v := (h.get node).value
  let g ← pyGcd v (v - c)
  if g = 0 then .error .zeroDivision
  let d := (v.num / (g : Int)).toNat
  let (n, m, l, _) ← findNML d
  let toLoop : ℚ := l * g
  let newValue := v + toLoop
  let over := decide (newValue > (cfg.limit : ℚ))
  let (h, loop) ← if over then newNode h toLoop [] none none else .ok (h, node)
  let isRoot := decide ((h.get loop).parents = [])
  let nExtract : Int := ⌊c / (v / d)⌋
  let p ← loopingBranches n m l (branchesCount n m)
  let q ← loopingBranches n m nExtract (branchesCount n m)
  let r ← loopingBranches n m (d - nExtract) (branchesCount n m)
  let values := layerValues newValue n m
  let lvl ← levelSucc (h.get node)
  let c0 ← item (h.get node).children 0
  let c1 ← item (h.get node).children 1
  let extracted := if (h.get c0).value = c then c0 else c1
  let overflow := if (h.get c0).value = c then c1 else c0
  let h := h.modify extracted fun o => { o with parents := [] }
  let h := h.modify overflow fun o => { o with parents := [] }
  let original := (h.get node).children
  let h := h.modify node fun o => { o with children := [] }
  let s ← (List.range n).foldlM (fun s i =>
    extractLayer 2 (2 ^ (i + 1)) (p (i + 1, 0)) (q (i + 1, 0)) (r (i + 1, 0)) (values.getD (i + 1) 0) (n + m) loop extracted overflow
      (decide (i + 1 = n ∧ m = 0)) original s) (h, lvl, [node])
  let s ← (List.range m).foldlM (fun s i =>
    extractLayer 3 (2 ^ n * 3 ^ (i + 1)) (p (n, i + 1)) (q (n, i + 1)) (r (n, i + 1)) (values.getD (n + i + 1) 0) (n + m) loop extracted
      overflow (decide (i + 1 = m)) original s) s
  let h := if over then joinLoop s.1 node loop else s.1
  let h := tagMerge h loop (if isRoot then 2 else 3)
  let h := tagMerge h extracted 3
  let h := tagMerge h overflow 3
  return (h, (lvl, n + m))

/-- `src/node.py:466-478`: `while len(nodes_to_merge) > threshold`; the list is given last element first, as the loop pops from its end
(fuel: its length). -/
def mergeRounds (node : Addr) (threshold : Nat) : Nat → Heap ℚ → List Addr → Py (Heap ℚ × List Addr)
  | fuel, h, todo =>
    if todo.length ≤ threshold then .ok (h, todo)
    else match fuel, todo with
      | fuel + 1, a :: b :: c :: rest => do
        let (h, merged) ← merge (fun (v : ℚ) k => v / k) h [a, b, c]
        let h := [a, b, c].foldl (fun h x => h.modify x fun o => { o with children := o.children.filter fun y => decide (y ≠ node) }) h
        let h := h.modify merged fun o => { o with level := (h.get node).level, children := o.children ++ [node] }
        mergeRounds node threshold fuel h (merged :: rest)
      | 0, _ => .error .diverge
      | _, _ => .error .indexError

/-- `src/node.py:460-478` `expand_merge(node, threshold)`. -/
def expandMerge (h : Heap ℚ) (node : Addr) (threshold : Nat) : Py (Heap ℚ × (Int × Int)) :=
  if (h.get node).parents.length ≤ threshold then .ok (h, (0, 0))
  else do
    let (h, todo) ← mergeRounds node threshold (h.get node).parents.length h (h.get node).parents.reverse
    return (h.modify node fun o => { o with parents := todo.reverse }, (0, 0))

/-- `src/node.py:483-500` `expand_split(node, conveyor_speed)`. -/
def expandSplit (h : Heap ℚ) (node : Addr) (c : ℚ) : Py (Heap ℚ × (Int × Int)) := do
  let newValue := c / 3
  let lvl ← levelSucc (h.get node)
  let (h, new) ← newNode h (newValue * 2) [] none (some lvl)
  let original := (h.get node).children
  let h := h.modify new fun o => { o with levelsToAdd := -1, children := [new], parents := [node] }
  let h := h.modify node fun o => { o with children := [new] }
  let h := original.foldl (fun h x =>
    if (h.get x).value = newValue then
      (h.modify new fun o => { o with children := o.children ++ [x] }).modify x fun o => { o with parents := [new] }
    else h.modify node fun o => { o with children := o.children ++ [x] }) h
  return (h, (lvl, 1))

/-- `_expand(self, *args)` (`src/node.py:509-510`). -/
def runExpand (cfg : Config) (h : Heap ℚ) (node : Addr) : Expand ℚ → Py (Heap ℚ × (Int × Int))
  | .extract c => expandExtract cfg h node c
  | .divide d => expandDivide cfg h node d
  | .merge t => expandMerge h node t
  | .split c => expandSplit h node c

/-- `src/node.py:507-510`: `while self._expands: …` (first argument: fuel). -/
def runExpands (cfg : Config) : Nat → Heap ℚ → Addr → Py (Heap ℚ × List (Int × Int))
  | fuel, h, node =>
    match (h.get node).expands with
    | [] => .ok (h, [])
    | e :: es =>
      match fuel with
      | 0 => .error .diverge
      | fuel + 1 => do
        let (h, u) ← runExpand cfg (h.modify node fun o => { o with expands := es }) node e
        let (h, us) ← runExpands cfg fuel h node
        return (h, u :: us)

end Satis.Graph
