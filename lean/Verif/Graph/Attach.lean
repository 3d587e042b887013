import Verif.Graph.Group
/-!
# Transcription of `Tree.attach_leaves` (`src/tree.py:210-232`)
-/

namespace Satis.Graph
open Satis

variable {V : Type}

/-- `src/tree.py:215-223`: the children of one leaf of the grouped targets become children of the source that makes its value;
`levels` collects the lists of children. (The loop appends to the list `src.children` while it runs over the list
`leaf.children`; these are different lists, as `src` and `leaf` are different nodes.) -/
def attachOne (s : Heap V × List (List Addr)) (sl : Addr × Addr) : Heap V × List (List Addr) :=
  let h := (s.1.get sl.2).children.foldl (adopt sl.1) s.1
  let cs := (h.get sl.1).children
  if cs = [] then (h, s.2)
  else (if cs.length > 3 then tagExpand h sl.1 (.divide cs.length) else h, s.2 ++ [cs])

/-- `src/tree.py:224-232`: `while levels`, breadth first (first argument: fuel). The lists in `levels` are the lists of children of the
nodes themselves; they do not change while the loop runs. -/
def attachLoop [LinearOrder V] : Nat → Heap V → TreeObj V → List (List Addr) → Py (Heap V × TreeObj V)
  | _, h, t, [] => .ok (h, t)
  | 0, _, _, _ :: _ => .error .diverge
  | fuel + 1, h, t, level :: levels =>
    match t.add h level 0 with
    | .error e => .error e
    | .ok (h', t') =>
      attachLoop fuel h' t' (levels ++ (level.map fun a => (h'.get a).children).filter fun cs => decide (cs ≠ []))

/-- `src/tree.py:210-232` `attach_leaves(leaves)`. (`sources[i]` for `i < n_sources`: the two numbers agree in every tree that
`add` has been called on; otherwise the model stops with `IndexError` where the code would, or later.) -/
def TreeObj.attachLeaves [LinearOrder V] (fuel : Nat) (h : Heap V) (t : TreeObj V) (leaves : List Addr) : Py (Heap V × TreeObj V) :=
  if leaves.length ≠ t.nSources then .error .assertionError
  else if t.sources.length < t.nSources then .error .indexError
  else
    let s := ((t.sources.take t.nSources).zip leaves).foldl attachOne (h, [])
    attachLoop fuel s.1 t s.2

end Satis.Graph
