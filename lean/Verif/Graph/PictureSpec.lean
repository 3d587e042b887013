import Verif.Graph.DeliverSpec
import Verif.Graph.Save
/-!
# Reading a picture

A picture names its machines; arrows are belts. Nothing here mentions the code that expands networks or how the picture came about.
-/

namespace Satis.Graph
open Satis

/-- Where the arrows from `i` lead. -/
def Drawing.outs (d : Drawing ℚ) (i : Uid) : List Uid := (d.edges.filter fun e => decide (e.1 = i)).map fun e => e.2

/-- Where the arrows to `i` come from. -/
def Drawing.ins (d : Drawing ℚ) (i : Uid) : List Uid := (d.edges.filter fun e => decide (e.2 = i)).map fun e => e.1

/-- The machines. -/
def Drawing.names (d : Drawing ℚ) : List Uid := d.nodes.map fun x => x.1

/-- The network that a picture shows, read from the arrows only. -/
def Drawing.network (d : Drawing ℚ) : Heap ℚ where
  get i := { value := 0, id := i, level := none, past := FastList.empty, parents := d.ins i, children := d.outs i, expands := [], levelsToAdd := 0 }
  next := 0
  nextUid := 0

/-- The picture `d` shows a network that takes in the flows `S` and brings the flows `T`, and no others are possible; the labels, in units of `1/k`, are
those of the picture `d₀` of the solution at the machines that stand for one of its divisions or extractions, and tell what passes at all others.
The labels of the entries tell what enters. -/
def Shows (speeds : List Nat) (d d₀ : Drawing ℚ) (k : Nat) (S T : List ℚ) : Prop :=
  ∃ roots supply F f, d.names.Nodup ∧ (∀ i, i ∈ d.names ↔ Reach d.network roots i) ∧
    Carries speeds d.network roots supply F f ∧ Forced speeds d.network roots supply F f ∧ (∀ i, i ∉ roots → supply i = 0) ∧
    (roots.map supply).Perm S ∧ ((d.names.filter fun i => decide (d.outs i = [])).map F).Perm T ∧
    ∀ i v l, (i, v, l) ∈ d.nodes → (i ∈ roots → supply i = v / k) ∧ (d.outs i = [] → F i = v / k) ∧
      (F i = v / k ∨ 2 ≤ (d₀.outs i).length ∧ ∃ l₀, (i, v, l₀) ∈ d₀.nodes)

end Satis.Graph
