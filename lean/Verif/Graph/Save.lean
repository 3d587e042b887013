import Verif.Graph.Traverse
/-!
# Transcription of saving: `populate`, `wrap`, `unwrap`, `save` (`src/node.py:62-118,142-151,538-583`, `src/tree.py:81-84`)

Drawing the graph (pygraphviz) is outside of the model: it says which nodes and edges are handed to the drawing and which tuples are
written. The text form of the tuples (`str`, `ast.literal_eval`) is in `Graph/DataText.lean`.
-/

namespace Satis.Graph
open Satis

variable {V : Type}

/-- What `populate` hands to the drawing (`src/node.py:142-151`): nodes (with their values and levels) and edges. The label of a node is
its value in the unit of the request; the division by `unit_flow_ratio` is left out. Nodes are named by their ids here; the names they
have in the picture are in `Graph/Canvas.lean`. -/
structure Drawing (V : Type) where
  nodes : List (Uid × V × Option Int)
  edges : List (Uid × Uid)
  deriving DecidableEq, Repr

/-- `src/node.py:142-151` `populate`: entering a node; the state also holds the nodes entered so far. -/
def populateVisit (s : Marked V × List Addr) (a : Addr) : Py (Marked V × List Addr) := .ok (s.1.add a, s.2 ++ [a])

/-- `src/node.py:546-549`: the nodes entered, in this order, when all roots are populated. -/
def populateOrder (fuel : Nat) (h : Heap V) (roots : List Addr) : Py (List Addr) := do
  let s ← walkAll populateVisit (fun s a => s.1.kids a) (fun s a => s.1.seen a) fuel ((h, []), []) roots
  return s.2

/-- The drawing of the graph below the roots. Each node entered adds itself and one edge for each of its children (the code adds the
edges of a node and those of the nodes entered from it alternately; the order of the edges is not kept). -/
def populate (fuel : Nat) (h : Heap V) (roots : List Addr) : Py (Drawing V) := do
  let as ← populateOrder fuel h roots
  return ⟨as.map fun a => ((h.get a).id, (h.get a).value, (h.get a).level),
    as.flatMap fun a => (h.get a).children.map fun c => ((h.get a).id, (h.get c).id)⟩

/-- One tuple of the `.data` file (`src/node.py:71-78`). The pair of numerator and denominator is kept as the value; the codes of the
expansions as the expansions. -/
structure NodeData (V : Type) where
  value : V
  id : Uid
  level : Option Int
  parents : List Uid
  children : List Uid
  expands : List (Expand V)
  deriving DecidableEq, Repr

/-- `src/node.py:71-78` `node_tuple`. -/
def nodeData (h : Heap V) (a : Addr) : NodeData V where
  value := (h.get a).value
  id := (h.get a).id
  level := (h.get a).level
  parents := (h.get a).parents.map fun p => (h.get p).id
  children := (h.get a).children.map fun c => (h.get c).id
  expands := (h.get a).expands

/-- `src/node.py:62-90` `wrap(root_node, path)`: what is written. `traverse` runs over the children and then over the parents. -/
def wrap (fuel : Nat) (h : Heap V) (root : Addr) : Py (List (NodeData V)) := do
  let s ← walkFrom populateVisit (fun s a => s.1.kids a ++ (s.1.1.get a).parents) (fun s a => s.1.seen a) fuel ((h, []), []) root
  return s.2.map (nodeData h)

section unwrapping
variable [LinearOrder V] [Zero V]

/-- `src/node.py:107-108`: `node_map[node_id] = Node(…)`. -/
def unwrapNodes (h : Heap V) (map : Dict Uid Addr) : List (NodeData V) → Py (Heap V × Dict Uid Addr)
  | [] => .ok (h, map)
  | d :: ds => do
    let (h, a) ← newNode h d.value [] (some d.id) d.level
    unwrapNodes h (map.set d.id a) ds

/-- `[node_map[i] for i in ids]`: `KeyError` for an unknown id. -/
def findNodes (map : Dict Uid Addr) : List Uid → Py (List Addr)
  | [] => .ok []
  | i :: is =>
    match map.get? i with
    | none => .error .keyError
    | some a => do
      let as ← findNodes map is
      return a :: as

/-- `src/node.py:110-114`: the links and the pending expansions. -/
def unwrapLinks (map : Dict Uid Addr) (h : Heap V) : List (NodeData V) → Py (Heap V)
  | [] => .ok h
  | d :: ds =>
    match map.get? d.id with
    | none => .error .keyError
    | some a => do
      let ps ← findNodes map d.parents
      let cs ← findNodes map d.children
      unwrapLinks map (h.modify a fun o => { o with parents := ps, children := cs, expands := d.expands }) ds

/-- `src/node.py:100-116` `unwrap(path)`: the nodes of level 0. (A `Dict` lists its keys in the order of insertion.) -/
def unwrap (h : Heap V) (data : List (NodeData V)) : Py (Heap V × List Addr) := do
  let (h, map) ← unwrapNodes h [] data
  let h ← unwrapLinks map h data
  return (h, (map.map fun e => e.2).filter fun a => decide ((h.get a).level = some 0))

end unwrapping

/-- What one call of `Node.save` writes: the drawing and the data. -/
abbrev Saved (V : Type) := Drawing V × List (NodeData V)

/-- `src/node.py:539-583` `Node.save(roots, filename, unit_flow_ratio)`: sets the levels of the roots to 0 (all of them before anything is drawn; the code
sets the level of a root right before going into it, which is the same if no root is below another). Exceptions inside of it are caught by the code; the
only ones that can be raised by the modelled part are the `IndexError` of `roots[0]` and, where the nodes are grouped by level, a `ValueError` if a node
has none (`ranks` in `Graph/Canvas.lean`; C102 tells that this does not happen for solutions). -/
def saveNodes (fuel : Nat) (h : Heap V) (roots : List Addr) : Py (Heap V × Saved V) :=
  let h := setLevels h roots 0
  match roots with
  | [] => .error .indexError
  | r :: _ => do
    let g ← populate fuel h roots
    let d ← wrap fuel h r
    return (h, g, d)

/-- `src/tree.py:81-84` `Tree.save(filename, unit_flow_ratio)`: the abstract and the expanded network. -/
def saveTree (cfg : Config) (fuel : Nat) (h : Heap ℚ) (roots : List Addr) : Py (Heap ℚ × Saved ℚ × Saved ℚ) := do
  let (h, before) ← saveNodes fuel h roots
  let h ← expandRoots cfg fuel h roots
  let (h, after) ← saveNodes fuel h roots
  return (h, before, after)

/-- `src/solver.py:396-400,404-406`: all solutions, one after the other; `concluding` stays set. The list holds what is written for
each. -/
def concludeAll (cfg : Config) (fuel : Nat) (leaves : List Addr) (h : Heap ℚ) :
    List (TreeObj ℚ) → Py (Heap ℚ × List (Saved ℚ × Saved ℚ))
  | [] => .ok (h, [])
  | t :: ts => do
    let (h, t) ← t.attachLeaves fuel h leaves
    let (h, saved) ← saveTree cfg fuel h t.roots
    let (h, rest) ← concludeAll cfg fuel leaves h ts
    return (h, saved :: rest)

end Satis.Graph
