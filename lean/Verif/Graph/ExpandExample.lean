import Verif.Graph.Traverse
import Verif.Solver.Example
/-!
# Small networks to expand
-/

namespace Satis.Graph.Example
open Satis Satis.Graph Satis.Solver.Example

/-- A root of value `v`. -/
def root (v : Int) : Heap Int := ((newNode emptyHeap v [] none (some 0)).toOption.map Prod.fst).getD emptyHeap

/-- `root.extract(c)`. -/
def extracted (v c : Int) : Heap ℚ := (((extract config (root v) 0 c).toOption.map Prod.fst).getD emptyHeap).toRat

/-- `root.divide(d)`. -/
def divided (v : Int) (d : Nat) : Heap ℚ := (((divide (root v) 0 d).toOption.map Prod.fst).getD emptyHeap).toRat

/-- `root.split(c)`. -/
def splitted (v c : Int) : Heap ℚ := (((split config (root v) 0 c).toOption.map Prod.fst).getD emptyHeap).toRat

/-- The heap after a call. -/
def after (h : Heap ℚ) (r : Py (Heap ℚ × (Int × Int))) : Heap ℚ := (r.toOption.map Prod.fst).getD h

/-- Value, parents and children of all nodes. -/
def shape (h : Heap ℚ) : List (ℚ × List Nat × List Nat) := (List.range h.next).map fun a => ((h.get a).value, (h.get a).parents, (h.get a).children)

end Satis.Graph.Example
