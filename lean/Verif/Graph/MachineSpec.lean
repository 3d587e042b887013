import Verif.Graph.ExpandSpec
import Verif.Cost.Spec
/-!
# Counting machines

A splitter turns one belt into two or three, a merger two or three belts into one. Nothing here mentions costs or the code that builds
networks.
-/

namespace Satis.Graph
open Satis Spec

/-- Belts leading from the nodes `S` to `x`. -/
def belts (h : Heap ℚ) (S : List Addr) (x : Addr) : Nat := (S.map fun a => (h.get a).children.count x).sum

/-- Machines of the network built between `h` and `h'` to serve the nodes `outs`: its splitters, and for every splitter and every served
node the mergers that make one belt of those leading to it. One more belt leads to the node: its own input. -/
def machines (h h' : Heap ℚ) (node : Addr) (outs : List Addr) : Nat :=
  (made h h' node).length + toOne (1 + belts h' (made h h' node) node) +
    ((List.range' h.next (h'.next - h.next)).map fun a => toOne (belts h' (made h h' node) a)).sum +
    (outs.map fun a => toOne (belts h' (made h h' node) a)).sum

end Satis.Graph
