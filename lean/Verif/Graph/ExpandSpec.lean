import Verif.Graph.Copy
import Mathlib.Data.Rat.Defs
import Mathlib.Algebra.Order.Ring.Rat
/-!
# What a correct network of splitters is

Nothing here mentions the code that builds networks: belts enter splitters, each splitter hands the same share of what it takes to each of
its outputs.
-/

namespace Satis.Graph
open Satis

/-- What the splitters `S`, taking the flows `T`, hand to the node `x`. -/
def handed (h : Heap ℚ) (S : List Addr) (T : Addr → ℚ) (x : Addr) : ℚ :=
  (S.map fun a => ((h.get a).children.count x : ℚ) * (T a / (h.get a).children.length)).sum

/-- The node and the nodes made between `h` and `h'`. -/
def made (h h' : Heap ℚ) (node : Addr) : List Addr := node :: List.range' h.next (h'.next - h.next)

/-- The flows: `V` for the node, the value for all others. -/
def flows (h : Heap ℚ) (node : Addr) (V : ℚ) (a : Addr) : ℚ := if a = node then V else (h.get a).value

/-- The flows `T` are in balance: every new node takes what it is handed, the node takes its value and what comes back. -/
structure Steady (h h' : Heap ℚ) (node : Addr) (T : Addr → ℚ) : Prop where
  fresh : ∀ a, h.next ≤ a → a < h'.next → T a = handed h' (made h h' node) T a
  root : T node = (h.get node).value + handed h' (made h h' node) T node

/-- Between `h` and `h'` the edges from `node` to the nodes `outs` were replaced by a network of new splitters, in which `node` is a
splitter too and takes the flow `V`, while every other node takes its value. -/
structure SplitterNetwork (h h' : Heap ℚ) (node : Addr) (V : ℚ) (outs : List Addr) : Prop where
  next : h.next ≤ h'.next
  /-- every splitter has two or three outputs -/
  arity : ∀ a ∈ made h h' node, (h'.get a).children.length = 2 ∨ (h'.get a).children.length = 3
  /-- the outputs lead to splitters of the network or to the given nodes -/
  closed : ∀ a ∈ made h h' node, ∀ c ∈ (h'.get a).children, c ∈ made h h' node ∨ c ∈ outs
  /-- every new splitter takes what it is handed -/
  steady : ∀ a, h.next ≤ a → a < h'.next → handed h' (made h h' node) (flows h' node V) a = (h'.get a).value
  /-- the node takes its value and what comes back -/
  looped : (h.get node).value + handed h' (made h h' node) (flows h' node V) node = V
  /-- the given nodes are handed their values -/
  served : ∀ x ∈ outs, handed h' (made h h' node) (flows h' node V) x = (h.get x).value
  /-- links are consistent; the node keeps the parents it had -/
  links : ∀ c, c ∈ outs ∨ h.next ≤ c ∧ c < h'.next → (∀ p ∈ (h'.get c).parents, p ∈ made h h' node) ∧
    ∀ a ∈ made h h' node, (h'.get a).children.count c = (h'.get c).parents.count a
  back : ∃ ps, (h'.get node).parents = (h.get node).parents ++ ps ∧ (∀ p ∈ ps, p ∈ made h h' node) ∧
    ∀ a ∈ made h h' node, (h'.get a).children.count node = ps.count a
  /-- the network hangs together -/
  reach : ∀ a, h.next ≤ a → a < h'.next → Reach h' [node] a
  /-- new nodes have new ids -/
  ids : ∀ a, h.next ≤ a → a < h'.next → (h'.get a).id = h.nextUid + (a - h.next)
  uid : h'.nextUid = h.nextUid + (h'.next - h.next)
  /-- nothing else changed -/
  frame : ∀ a, a < h.next → a ≠ node → a ∉ outs → h'.get a = h.get a
  keptOuts : ∀ a ∈ outs, ∃ es, h'.get a = { h.get a with parents := (h'.get a).parents, expands := (h.get a).expands ++ es }
  keptNode : ∃ es, h'.get node = { h.get node with
    parents := (h'.get node).parents, children := (h'.get node).children, expands := (h.get node).expands ++ es }

/-- The input of `expand_divide(node, d)`: the children of the node are `d` other nodes of equal shares. -/
structure DivideInput (h : Heap ℚ) (node : Addr) (d : Nat) : Prop where
  inside : node < h.next
  nonneg : 0 ≤ (h.get node).value
  two : 2 ≤ d
  count : (h.get node).children.length = d
  nodup : (h.get node).children.Nodup
  lt : ∀ c ∈ (h.get node).children, c < h.next
  ne : ∀ c ∈ (h.get node).children, c ≠ node
  share : ∀ c ∈ (h.get node).children, (h.get c).value = (h.get node).value / d

/-- The input of `expand_extract(node, c)`: the node carries `v` and has two children, one of value `c` and one of value `v - c`. -/
structure ExtractInput (h : Heap ℚ) (node x y : Addr) (v c : Nat) : Prop where
  inside : node < h.next
  value : (h.get node).value = v
  pos : 0 < c
  lt : c < v
  children : (h.get node).children = [x, y]
  left : x < h.next ∧ x ≠ node
  right : y < h.next ∧ y ≠ node
  ne : x ≠ y
  share : (h.get x).value = c ∧ (h.get y).value = (v : ℚ) - c ∨ (h.get y).value = c ∧ (h.get x).value = (v : ℚ) - c

/-- A merge was requested for `a` exactly if it now has more than `t` inputs. -/
def Pending (h h' : Heap ℚ) (a : Addr) (t : Nat) : Prop :=
  (h'.get a).expands = (h.get a).expands ++ if t < (h'.get a).parents.length then [.merge t] else []

/-- What each output of the node carries. -/
def carried (h : Heap ℚ) (a : Addr) : ℚ := (h.get a).value / (h.get a).children.length

/-- Between `h` and `h'` mergers were put in front of `node`, so that at most `t` belts enter it. -/
structure MergerNetwork (h h' : Heap ℚ) (node : Addr) (t : Nat) : Prop where
  next : h.next ≤ h'.next
  few : (h'.get node).parents.length ≤ t
  inputs : ∀ p ∈ (h'.get node).parents, p ∈ (h.get node).parents ∨ h.next ≤ p ∧ p < h'.next
  /-- a merger has three inputs, which are former inputs of the node or earlier mergers, and one output, to the node or a later merger -/
  three : ∀ a, h.next ≤ a → a < h'.next → (h'.get a).parents.length = 3 ∧ ∃ b, (h'.get a).children = [b] ∧ (b = node ∨ a < b ∧ b < h'.next)
  sources : ∀ a, h.next ≤ a → a < h'.next → ∀ p ∈ (h'.get a).parents, p ∈ (h.get node).parents ∨ h.next ≤ p ∧ p < a
  /-- it passes on what its inputs bring -/
  sums : ∀ a, h.next ≤ a → a < h'.next → (h'.get a).value = ((h'.get a).parents.map (carried h')).sum
  /-- the node receives what it received -/
  total : ((h'.get node).parents.map (carried h')).sum = ((h.get node).parents.map (carried h)).sum
  same : ∀ p ∈ (h.get node).parents, carried h' p = carried h p
  others : ∀ p ∈ (h.get node).parents, ∀ c, c < h.next → c ≠ node → (h'.get p).children.count c = (h.get p).children.count c
  /-- links are consistent -/
  links : ∀ c, c = node ∨ h.next ≤ c ∧ c < h'.next → ∀ p, p ∈ (h.get node).parents ∨ h.next ≤ p ∧ p < h'.next →
    (h'.get c).parents.count p = (h'.get p).children.count c
  /-- every former input still leads to the node -/
  reach : ∀ p ∈ (h.get node).parents, Reach h' [p] node
  levels : ∀ a, h.next ≤ a → a < h'.next → (h'.get a).level = (h.get node).level
  /-- nothing is left to do for the mergers -/
  quiet : ∀ a, h.next ≤ a → a < h'.next → (h'.get a).expands = []
  ids : ∀ a, h.next ≤ a → a < h'.next → (h'.get a).id = h.nextUid + (a - h.next)
  uid : h'.nextUid = h.nextUid + (h'.next - h.next)
  /-- nothing else changed -/
  frame : ∀ a, a < h.next → a ≠ node → a ∉ (h.get node).parents → h'.get a = h.get a
  keptParents : ∀ a ∈ (h.get node).parents, h'.get a = { h.get a with children := (h'.get a).children }
  keptNode : h'.get node = { h.get node with parents := (h'.get node).parents }

/-- The input of `expand_merge(node, t)`: the inputs of the node are different nodes with one edge to it each. -/
structure MergeInput (h : Heap ℚ) (node : Addr) : Prop where
  inside : node < h.next
  level : (h.get node).level ≠ none
  nodup : (h.get node).parents.Nodup
  lt : ∀ p ∈ (h.get node).parents, p < h.next ∧ p ≠ node
  levels : ∀ p ∈ (h.get node).parents, (h.get p).level ≠ none
  nonneg : ∀ p ∈ (h.get node).parents, 0 ≤ (h.get p).value
  once : ∀ p ∈ (h.get node).parents, (h.get p).children.count node = 1
  closed : ∀ p ∈ (h.get node).parents, ∀ c ∈ (h.get p).children, c < h.next

/-- The input of `expand_split(node, c)`: the node has two children that take a third of `c` and one that takes the rest. -/
structure SplitInput (h : Heap ℚ) (node x₁ x₂ y : Addr) (c : ℚ) : Prop where
  inside : node < h.next
  nonneg : 0 ≤ c
  children : (h.get node).children = [x₁, x₂, y] ∨ (h.get node).children = [y, x₁, x₂]
  lt : x₁ < h.next ∧ x₂ < h.next ∧ y < h.next
  ne : x₁ ≠ node ∧ x₂ ≠ node ∧ y ≠ node ∧ x₁ ≠ x₂ ∧ x₁ ≠ y ∧ x₂ ≠ y
  third : (h.get x₁).value = c / 3 ∧ (h.get x₂).value = c / 3
  rest : (h.get y).value = (h.get node).value - 2 * (c / 3)
  other : (h.get y).value ≠ c / 3

end Satis.Graph
