import Verif.Graph.Expand
/-!
# Transcription of the traversals (`src/node.py:142-151,204-236,502-548`)

`min_level`, `tag_levels_update`, `apply_levels_update`, `expand`, `populate` and `wrap` have the same shape:

    if self in seen: return
    seen.add(self)
    … (here called the visit) …
    for child in self.children:
        if child in seen: continue
        child.method(seen)

The recursion is modelled with an explicit stack of `for` loops: a frame is a node and the position its loop has reached. A `for` loop over
a list looks at the list anew in every round, so changes of the list while the loop runs matter (`expand` makes such changes).
There is no bound on the depth of the calls here; `Graph/Depth.lean` has one. `seen` is a set of nodes, which are compared by `node_id`.
-/

namespace Satis.Graph
open Satis

/-- The loops on the stack (first argument: fuel). `visit` is what is done to a node when it is entered, including `seen.add(self)`. -/
def walk {S : Type} (visit : S → Addr → Py S) (kids : S → Addr → List Addr) (seen : S → Addr → Bool) :
    Nat → S → List (Addr × Nat) → Py S
  | _, s, [] => .ok s
  | 0, _, _ :: _ => .error .diverge
  | fuel + 1, s, (a, i) :: stack =>
    match (kids s a)[i]? with
    | none => walk visit kids seen fuel s stack
    | some c =>
      if seen s c then walk visit kids seen fuel s ((a, i + 1) :: stack)
      else match visit s c with
        | .error e => .error e
        | .ok s' => walk visit kids seen fuel s' ((c, 0) :: (a, i + 1) :: stack)

/-- The call on one node. -/
def walkFrom {S : Type} (visit : S → Addr → Py S) (kids : S → Addr → List Addr) (seen : S → Addr → Bool) (fuel : Nat) (s : S)
    (a : Addr) : Py S :=
  if seen s a then .ok s
  else match visit s a with
    | .error e => .error e
    | .ok s' => walk visit kids seen fuel s' [(a, 0)]

/-- `for root in roots: root.method(seen)`. -/
def walkAll {S : Type} (visit : S → Addr → Py S) (kids : S → Addr → List Addr) (seen : S → Addr → Bool) (fuel : Nat) (s : S)
    (as : List Addr) : Py S := as.foldlM (fun s a => walkFrom visit kids seen fuel s a) s

variable {V : Type}

/-- The heap and the set `seen`. -/
abbrev Marked (V : Type) := Heap V × List Uid

/-- `node in seen`. -/
def Marked.seen (s : Marked V) (a : Addr) : Bool := decide ((s.1.get a).id ∈ s.2)

/-- `seen.add(node)`. -/
def Marked.add (s : Marked V) (a : Addr) : Marked V := (s.1, s.2 ++ [(s.1.get a).id])

/-- `min(r, node.level)`: `TypeError` for `None`. -/
def minLevelVisit (s : Int × Marked V) (a : Addr) : Py (Int × Marked V) :=
  match (s.2.1.get a).level with
  | none => .error .typeError
  | some l => .ok (min s.1 l, s.2.add a)

/-- `src/node.py:517-521`: `min_level_after_zero`, over the children of the roots (`min_level` is `src/node.py:204-214`). The minimum is
gathered in the order of the visits instead of on the way back; a child that was seen before contributes its own level again,
which changes nothing. -/
def minLevelAfterZero (fuel : Nat) (h : Heap V) (roots : List Addr) : Py Int := do
  let s ← walkAll minLevelVisit (fun s a => (s.2.1.get a).children) (fun s a => s.2.seen a) fuel ((2 : Int) ^ 32, (h, []))
    (roots.flatMap fun r => (h.get r).children)
  return s.1

/-- `src/node.py:216-226` `tag_levels_update`: the part before the loop. -/
def tagVisit (threshold amount : Int) (s : Marked V) (a : Addr) : Py (Marked V) :=
  match (s.1.get a).level with
  | none => .error .typeError
  | some l =>
    .ok (if l ≥ threshold then (s.1.modify a fun o => { o with levelsToAdd := o.levelsToAdd + amount }, s.2 ++ [(s.1.get a).id]) else s.add a)

/-- `src/node.py:228-236` `apply_levels_update`: the part before the loop. -/
def applyVisit (s : Marked V) (a : Addr) : Py (Marked V) :=
  match (s.1.get a).level with
  | none => .error .typeError
  | some l => .ok (s.1.modify a fun o => { o with level := some (l + o.levelsToAdd), levelsToAdd := 0 }, s.2 ++ [(s.1.get a).id])

/-- The list a `for child in self.children` loop runs over. -/
def Marked.kids (s : Marked V) (a : Addr) : List Addr := (s.1.get a).children

/-- `src/node.py:527-530`: one entry of `levels_updates`, for all roots. -/
def tagLevels (fuel : Nat) (roots : List Addr) (h : Heap V) (u : Int × Int) : Py (Heap V) := do
  let s ← walkAll (tagVisit u.1 u.2) Marked.kids Marked.seen fuel (h, []) roots
  return s.1

/-- `src/node.py:532-534`. -/
def applyLevels (fuel : Nat) (roots : List Addr) (h : Heap V) : Py (Heap V) := do
  let s ← walkAll applyVisit Marked.kids Marked.seen fuel (h, []) roots
  return s.1

/-- `src/node.py:502-510` `expand`: the part before the loop; the state also holds the list of updates. -/
def expandVisit (cfg : Config) (fuel : Nat) (s : Marked ℚ × List (Int × Int)) (a : Addr) : Py (Marked ℚ × List (Int × Int)) := do
  let (h, us) ← runExpands cfg fuel s.1.1 a
  return ((h, s.1.2 ++ [(s.1.1.get a).id]), s.2 ++ us)

/-- `src/node.py:522-525`: all roots are expanded. -/
def expandAll (cfg : Config) (fuel : Nat) (h : Heap ℚ) (roots : List Addr) (us : List (Int × Int)) : Py (Heap ℚ × List (Int × Int)) := do
  let s ← walkAll (expandVisit cfg fuel) (fun s a => s.1.kids a) (fun s a => s.1.seen a) fuel ((h, []), us) roots
  return (s.1.1, s.2)

/-- `src/node.py:515-534` `expand_roots(roots)`. -/
def expandRoots (cfg : Config) (fuel : Nat) (h : Heap ℚ) (roots : List Addr) : Py (Heap ℚ) := do
  let low ← minLevelAfterZero fuel h roots
  let (h, us) ← expandAll cfg fuel h roots [(1, 1 - low)]
  let h ← us.foldlM (tagLevels fuel roots) h
  applyLevels fuel roots h

end Satis.Graph
