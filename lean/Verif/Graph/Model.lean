import Verif.Config
import Verif.Sorted
import Verif.Dict
import Verif.Utils.FastList
import Mathlib.Data.Rat.Defs
/-!
# Transcription of `src/node.py` (construction and moves) and `src/tree.py`

`Node` objects live in a heap: an address is a Python reference, `id` is the attribute `node_id`, a separate thing.
`Node.__eq__` comes from `treelike` and compares hashes (quoted in `test.py:47-66`), and `Node.__hash__` is the hash of
`node_id` (`src/node.py:42-43`); so `in`, dictionary lookup and `set` membership on nodes compare `id`s (collisions of the
hash of two different UUIDs are not modelled), while `is` compares addresses.

Values are `int` while solving and `int` or `Fraction` once networks are expanded; the definitions that do not care are
polymorphic in the type `V` of values (`ℤ` or `ℚ`).

`treelike` and the `repr_*` attributes (`src/node.py:28-39`, `45-61`) make the text of a node, which serves printing (not modelled)
and names the node in a picture (`Graph/Canvas.lean`). Like every object without `__bool__`/`__len__` a node
counts as true, so `if parent:` (`src/node.py:126,133,136`) tests for `None`.
-/

namespace Satis.Graph
open Satis

/-- A reference to a `Node` object. -/
macro "Addr" : term => `(Nat)

/-- A UUID. `uuid.uuid4()` is modelled as a counter: it never returns the same value twice. -/
macro "Uid" : term => `(Nat)

/-- Entries of `_expands` (`src/node.py:238-239,369-370,457-458,480-481`): code, function and arguments in one. -/
inductive Expand (V : Type)
  | extract (c : V)
  | divide (d : Nat)
  | merge (threshold : Nat)
  | split (c : V)
  deriving DecidableEq, Repr

/-- The attributes of a `Node` (`src/node.py:15-27`). -/
structure NodeObj (V : Type) where
  value : V
  id : Uid
  level : Option Int
  past : FastList V
  parents : List Addr
  children : List Addr
  expands : List (Expand V)
  levelsToAdd : Int
  deriving DecidableEq, Repr

/-- All `Node` objects: `get a` is meaningful for `a < next`; UUIDs below `nextUid` have been handed out. -/
structure Heap (V : Type) where
  get : Addr → NodeObj V
  next : Addr
  nextUid : Uid

namespace Heap
variable {V : Type}

/-- Assignment to attributes of the object at `a`. -/
def set (h : Heap V) (a : Addr) (o : NodeObj V) : Heap V := { h with get := fun b => if b = a then o else h.get b }

/-- In-place change of the object at `a`. -/
def modify (h : Heap V) (a : Addr) (f : NodeObj V → NodeObj V) : Heap V := h.set a (f (h.get a))

/-- Creation of an object. -/
def alloc (h : Heap V) (o : NodeObj V) : Heap V × Addr :=
  ({ get := fun b => if b = h.next then o else h.get b, next := h.next + 1, nextUid := h.nextUid }, h.next)

/-- `a == b` for nodes. -/
def same (h : Heap V) (a b : Addr) : Bool := decide ((h.get a).id = (h.get b).id)

/-- `a in l` for a list (or set) of nodes. -/
def mem (h : Heap V) (a : Addr) (l : List Addr) : Bool := l.any fun b => h.same b a

end Heap

variable {V : Type}

section generic
variable [LinearOrder V] [Zero V]

/-- `src/node.py:15-27` `Node(value, parent_past, node_id, level)`; `id = none` is a new UUID. The type check of line 18 always
passes (values are `int` or `Fraction` throughout). -/
def newNode (h : Heap V) (value : V) (parentPast : List V) (id : Option Uid) (level : Option Int) : Py (Heap V × Addr) :=
  if value < 0 then .error .valueError
  else
    let h' : Heap V := match id with
      | none => { h with nextUid := h.nextUid + 1 }
      | some _ => h
    .ok (h'.alloc
      { value := value
        id := id.getD h.nextUid
        level := level
        past := (FastList.new [value]).extend parentPast
        parents := []
        children := []
        expands := []
        levelsToAdd := 0 })

/-- `[Node(v, parent_past=past, level=level) for v in values]` (`src/node.py:157,167,197`). -/
def newNodes (h : Heap V) (past : List V) (level : Option Int) : List V → Py (Heap V × List Addr)
  | [] => .ok (h, [])
  | v :: vs => do
    let (h1, a) ← newNode h v past none level
    let (h2, as) ← newNodes h1 past level vs
    return (h2, a :: as)

end generic

/-- `self._children.append(node); node.parents.append(self)` (`src/node.py:158-160`). -/
def link (h : Heap V) (p c : Addr) : Heap V :=
  (h.modify p fun o => { o with children := o.children ++ [c] }).modify c fun o => { o with parents := o.parents ++ [p] }

/-- `for node in new_nodes: self._children.append(node); node.parents.append(self)`. -/
def linkAll (h : Heap V) (p : Addr) (cs : List Addr) : Heap V := cs.foldl (fun h c => link h p c) h

/-- `self._expands.append(e)` (`src/node.py:238-239,369-370,457-458,480-481`). -/
def tagExpand (h : Heap V) (a : Addr) (e : Expand V) : Heap V := h.modify a fun o => { o with expands := o.expands ++ [e] }

/-- `self.level + 1`: `TypeError` when the level is `None`. -/
def levelSucc (o : NodeObj V) : Py Int :=
  match o.level with
  | none => .error .typeError
  | some l => .ok (l + 1)

/-- `c in config.conveyor_speeds`. -/
def isSpeed (cfg : Config) (c : Int) : Bool := decide (c ∈ cfg.speeds.map fun (s : Nat) => (s : Int))

/-- `src/node.py:153-161` `extract(self, value)`. Simplification: the tag is added before an exception could be raised, and the
state after an exception is not kept. -/
def extract (cfg : Config) (h : Heap Int) (a : Addr) (value : Int) : Py (Heap Int × List Addr) := do
  let h := if isSpeed cfg value then h else tagExpand h a (.extract value)
  let overflow := (h.get a).value - value
  let lvl ← levelSucc (h.get a)
  let (h, ns) ← newNodes h (h.get a).past.items (some lvl) ([value, overflow].insertionSort (· ≤ ·))
  return (linkAll h a ns, ns)

/-- `src/node.py:163-171` `divide(self, divisor)`. (With a divisor 0 the code raises `ZeroDivisionError`.) -/
def divide (h : Heap Int) (a : Addr) (divisor : Nat) : Py (Heap Int × List Addr) := do
  let h := if divisor > 3 then tagExpand h a (.divide divisor) else h
  if divisor = 0 then .error .zeroDivision
  let v := (h.get a).value / (divisor : Int)
  let lvl ← levelSucc (h.get a)
  let (h, ns) ← newNodes h (h.get a).past.items (some lvl) (List.replicate divisor v)
  return (linkAll h a ns, ns)

/-- `max(node.level for node in nodes) + 1`: `ValueError` for no nodes, `TypeError` when a level is `None` (a comparison with
`None`, or `None + 1`). -/
def maxLevelSucc (h : Heap V) (nodes : List Addr) : Py Int :=
  match nodes with
  | [] => .error .valueError
  | a :: as => do
    let l ← levelSucc (h.get a)
    as.foldlM (fun m b => do
      let l ← levelSucc (h.get b)
      return max m l) l

/-- `src/node.py:177`: the flow a node hands to a new child: its value divided among its children, `Fraction(node.value,
len(node.children)) if node.children else node.value`. `share v k` stands for `Fraction(v, k)`. -/
def sharedValue (share : V → Nat → V) (o : NodeObj V) : V :=
  if o.children = [] then o.value else share o.value o.children.length

/-- `src/node.py:185-188`: linking the inputs of a merge. -/
def mergeLink [DecidableEq V] (m : Addr) (h : Heap V) (a : Addr) : Heap V :=
  let h := link h a m
  h.modify m fun o => { o with past := o.past.extend (h.get a).past.items }

/-- `src/node.py:173-189` `Node.merge(nodes)`. -/
def merge [LinearOrder V] [Zero V] [Add V] (share : V → Nat → V) (h : Heap V) (nodes : List Addr) : Py (Heap V × Addr) := do
  let summed := (nodes.map fun a => sharedValue share (h.get a)).foldl (· + ·) 0
  let lvl ← maxLevelSucc h nodes
  let (h, m) ← newNode h summed [] none (some lvl)
  if nodes.length ≤ 1 then .error .systemExit
  let h := if nodes.length > 3 then tagExpand h m (.merge 3) else h
  return (nodes.foldl (mergeLink m) h, m)

/-- `src/node.py:191-202` `split(self, conveyor_speed)`. -/
def split (cfg : Config) (h : Heap Int) (a : Addr) (speed : Int) : Py (Heap Int × List Addr) := do
  if isSpeed cfg speed = false then .error .systemExit
  let newValue := speed / 3
  let overflow := (h.get a).value - newValue * 2
  let lvl ← levelSucc (h.get a)
  let (h, ns) ← newNodes h (h.get a).past.items (some lvl) ([newValue, newValue, overflow].insertionSort (· ≤ ·))
  return (tagExpand (linkAll h a ns) a (.split speed), ns)

/-! ### `Node._deepcopy` -/

/-- The local state of `_deepcopy` (`src/node.py:120-138`): the heap, the dictionary `copied_nodes` (its keys are nodes, which
are compared by `node_id`) and the stack, top first. -/
structure CopyState (V : Type) where
  heap : Heap V
  copied : Dict Uid Addr
  stack : List (Addr × Option Addr)

section copying
variable [LinearOrder V] [Zero V]

/-- `src/node.py:126,136`: `if parent: new_node.parents.append(parent)` / `parent.children.append(new_node)`. -/
def appendParent (h : Heap V) (c : Addr) : Option Addr → Heap V
  | none => h
  | some p => h.modify c fun o => { o with parents := o.parents ++ [p] }

/-- See `appendParent`. -/
def appendChild (h : Heap V) (c : Addr) : Option Addr → Heap V
  | none => h
  | some p => h.modify p fun o => { o with children := o.children ++ [c] }

/-- One round of the `while stack` loop (`src/node.py:122-137`) for the entry `(node, parent)` just popped; `self` is the node
the method was called on. -/
def copyStep (self : Addr) (node : Addr) (parent : Option Addr) (rest : List (Addr × Option Addr)) (h : Heap V)
    (copied : Dict Uid Addr) : Py (CopyState V) :=
  match copied.get? (h.get node).id with
  | some new => .ok ⟨appendChild (appendParent h new parent) new parent, copied, rest⟩
  | none =>
    match newNode h (h.get node).value [] (some (h.get node).id) none with
    | .error e => .error e
    | .ok (h1, new) =>
      let h2 := h1.modify new fun o =>
        { o with
          level := (h.get node).level
          past := o.past.extend (h.get self).past.items
          expands := (h.get node).expands
          parents := parent.toList }
      .ok ⟨appendChild h2 new parent, copied.set (h.get node).id new,
        ((h.get node).children.map fun c => (c, some new)).reverse ++ rest⟩

/-- `src/node.py:121-137`: `stack = [(self, None)]; while stack: …` (second argument: fuel). -/
def copyLoop (self : Addr) : Nat → CopyState V → Py (CopyState V)
  | fuel, s =>
    match s.stack with
    | [] => .ok s
    | (node, parent) :: rest =>
      match fuel with
      | 0 => .error .diverge
      | fuel + 1 =>
        match copyStep self node parent rest s.heap s.copied with
        | .error e => .error e
        | .ok s' => copyLoop self fuel s'

/-- Number of references from children lists: every one of them is pushed on the stack at most once. -/
def edgeCount (h : Heap V) : Nat := ((List.range h.next).map fun a => (h.get a).children.length).sum

/-- `src/node.py:120-138` `_deepcopy(self, copied_nodes)`. -/
def deepcopyNode (h : Heap V) (self : Addr) (copied : Dict Uid Addr) : Py (Heap V × Dict Uid Addr × Addr) :=
  match copyLoop self (edgeCount h + 1) ⟨h, copied, [(self, none)]⟩ with
  | .error e => .error e
  | .ok s =>
    match s.copied.get? (s.heap.get self).id with
    | none => .error .keyError
    | some a => .ok (s.heap, s.copied, a)

/-- `[root._deepcopy(copied_nodes) for root in roots]` (`src/tree.py:49`). -/
def deepcopyNodes (h : Heap V) (copied : Dict Uid Addr) : List Addr → Py (Heap V × Dict Uid Addr × List Addr)
  | [] => .ok (h, copied, [])
  | r :: rs =>
    match deepcopyNode h r copied with
    | .error e => .error e
    | .ok (h1, c1, a) =>
      match deepcopyNodes h1 c1 rs with
      | .error e => .error e
      | .ok (h2, c2, as) => .ok (h2, c2, a :: as)

end copying

/-! ### `src/tree.py` -/

/-- The attributes of a `Tree` (`src/tree.py:6-18`). A tree is referenced from one place only (the queue, the list of solutions
or a local variable; `tree_source` is not used any more once the search has started), so trees are values. -/
structure TreeObj (V : Type) where
  roots : List Addr
  sources : List Addr
  levels : List (List Addr)
  past : FastList (List V)
  currentLevel : Int
  sourceValues : List V
  nSources : Nat
  size : Int
  deriving DecidableEq, Repr

/-- `for x in l: x.level = lvl`. -/
def setLevels (h : Heap V) (l : List Addr) (lvl : Int) : Heap V :=
  l.foldl (fun h a => h.modify a fun o => { o with level := some lvl }) h

/-- `Node.get_node_values(nodes)` (`src/node.py:585-587`). -/
def valuesOf (h : Heap V) (l : List Addr) : List V := l.map fun a => (h.get a).value

/-- `src/tree.py:6-18` `Tree(roots)`. -/
def newTree [DecidableEq V] (h : Heap V) (roots : List Addr) : Heap V × TreeObj V :=
  (setLevels h roots 0,
    { roots := roots
      sources := roots
      levels := [roots]
      past := FastList.empty
      currentLevel := 0
      sourceValues := valuesOf h roots
      nSources := roots.length
      size := 0 })

/-- `[copied_nodes[src] for src in nodes]` (`src/tree.py:51-52`): `KeyError` for a node that was not copied. -/
def lookupAll (h : Heap V) (copied : Dict Uid Addr) : List Addr → Py (List Addr)
  | [] => .ok []
  | a :: as =>
    match copied.get? (h.get a).id with
    | none => .error .keyError
    | some b =>
      match lookupAll h copied as with
      | .error e => .error e
      | .ok bs => .ok (b :: bs)

/-- `[[copied_nodes[src] for src in level] for level in levels]`. -/
def lookupLevels (h : Heap V) (copied : Dict Uid Addr) : List (List Addr) → Py (List (List Addr))
  | [] => .ok []
  | l :: ls =>
    match lookupAll h copied l with
    | .error e => .error e
    | .ok bs =>
      match lookupLevels h copied ls with
      | .error e => .error e
      | .ok bss => .ok (bs :: bss)

/-- `src/tree.py:47-59` `Tree.deepcopy`. `n_sources` is set by `Tree(copied_roots)` and not copied. -/
def TreeObj.deepcopy [LinearOrder V] [Zero V] (h : Heap V) (t : TreeObj V) : Py (Heap V × TreeObj V) := do
  let (h1, copied, roots) ← deepcopyNodes h [] t.roots
  let (h2, nt) := newTree h1 roots
  let sources ← lookupAll h2 copied t.sources
  let levels ← lookupLevels h2 copied t.levels
  return (h2, { nt with
    sources := sources
    levels := levels
    past := (FastList.empty : FastList (List V)).extend t.past.items
    currentLevel := t.currentLevel
    sourceValues := t.sourceValues
    size := t.size })

/-- `src/tree.py:61-79` `Tree.add(nodes, cost)`. -/
def TreeObj.add [LinearOrder V] (h : Heap V) (t : TreeObj V) (nodes : List Addr) (cost : Int) : Py (Heap V × TreeObj V) :=
  match nodes with
  | [] => .error .indexError
  | n0 :: _ =>
    match t.levels.getLast? with
    | none => .error .indexError
    | some last =>
      let kept := last.filter fun s => !h.mem s (h.get n0).parents
      let sources := insortAll (fun a => (h.get a).value) kept nodes
      let h' := setLevels h sources (t.currentLevel + 1)
      .ok (h', { t with
        sources := sources
        nSources := sources.length
        currentLevel := t.currentLevel + 1
        levels := t.levels ++ [sources]
        size := t.size + cost
        past := t.past.append t.sourceValues
        sourceValues := valuesOf h' sources })

end Satis.Graph
