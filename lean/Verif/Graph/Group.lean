import Verif.Graph.Model
import Verif.Cost.Model
/-!
# Transcription of `Node.group_values` (`src/node.py:598-635`)

Equal targets are made by dividing one belt: they are put below a common parent, and again, until all values differ.
-/

namespace Satis.Graph
open Satis Satis.Cost

/-- `src/node.py:612-614`: `groups.setdefault(node.value, []).append(node)` for all nodes of a level. -/
def groupBy (h : Heap Int) (nodes : List Addr) : Dict Int (List Addr) :=
  nodes.foldl (fun d a => d.set (h.get a).value ((d.get? (h.get a).value).getD [] ++ [a])) []

/-- `src/node.py:622-623`: `parent_node.children.append(node); node.parents = [parent_node]`. -/
def adopt {V : Type} (p : Addr) (h : Heap V) (c : Addr) : Heap V :=
  (h.modify p fun o => { o with children := o.children ++ [c] }).modify c fun o => { o with parents := [p] }

/-- `src/node.py:616-631`: the treatment of one group; the state is the heap, `next_level` and `total_cost`. (`count > 0` on line
624 always holds there.) -/
def groupStep (cfg : Config) (s : Heap Int × List Addr × Int) (kv : Int × List Addr) : Py (Heap Int × List Addr × Int) :=
  if kv.2.length > 1 then
    match newNode s.1 (kv.1 * (kv.2.length : Int)) [] none none with
    | .error e => .error e
    | .ok (h1, p) =>
      let h2 := kv.2.foldl (adopt p) h1
      match divideCost cfg (kv.1 * (kv.2.length : Int)) kv.2.length with
      | .error e => .error e
      | .ok c =>
        let h3 := if kv.2.length > 3 then tagExpand h2 p (.divide kv.2.length) else h2
        .ok (h3, insort (fun a => (h3.get a).value) s.2.1 p, s.2.2 + c)
  else
    match kv.2 with
    | [] => .error .indexError
    | n :: _ => .ok (s.1, insort (fun a => (s.1.get a).value) s.2.1 n, s.2.2)

/-- `src/node.py:608-631`: one round, from `current_level` to `next_level`. -/
def groupRound (cfg : Config) (h : Heap Int) (nodes : List Addr) (cost : Int) : Py (Heap Int × List Addr × Int) :=
  (groupBy h nodes).foldlM (groupStep cfg) (h, [], cost)

/-- `src/node.py:608-635`: the `while True` loop, ended by a round that leaves the number of nodes unchanged (second argument:
fuel). -/
def groupLoop (cfg : Config) : Nat → Heap Int → List Addr → Int → Py (Heap Int × List Addr × Int)
  | 0, _, _, _ => .error .diverge
  | fuel + 1, h, nodes, cost =>
    match groupRound cfg h nodes cost with
    | .error e => .error e
    | .ok (h', next, cost') =>
      if next.length = nodes.length then .ok (h', nodes, cost') else groupLoop cfg fuel h' next cost'

/-- `src/node.py:598-635` `Node.group_values(values)`. Every round but the last one decreases the number of nodes, so one more
than the number of values is enough fuel. -/
def groupValues (cfg : Config) (h : Heap Int) (values : List Int) : Py (Heap Int × List Addr × Int) :=
  match newNodes h [] none (values.insertionSort (· ≤ ·)) with
  | .error e => .error e
  | .ok (h1, nodes) => groupLoop cfg (values.length + 1) h1 nodes 0

end Satis.Graph
