import Verif.Graph.Copy
import Verif.Cost.Model
/-!
# What a forest of grouped targets is
-/

namespace Satis.Graph
open Satis Satis.Cost

/-- The nodes `inner ++ leaves` form a forest with the given roots, in which the flow of an inner node is shared equally among its
children. -/
structure Forest (h : Heap Int) (roots inner leaves : List Addr) : Prop where
  distinct : (inner ++ leaves).Nodup
  nodes : ∀ a, Reach h roots a ↔ a ∈ inner ++ leaves
  positive : ∀ a ∈ inner ++ leaves, 0 < (h.get a).value
  leaf : ∀ a ∈ leaves, (h.get a).children = []
  fan : ∀ a ∈ inner, 2 ≤ (h.get a).children.length ∧ (h.get a).children.Nodup
  equal : ∀ a ∈ inner, ∀ c ∈ (h.get a).children, (h.get a).value = ((h.get a).children.length : Int) * (h.get c).value
  parent : ∀ a ∈ inner, ∀ c ∈ (h.get a).children, (h.get c).parents = [a]
  top : ∀ a ∈ roots, (h.get a).parents = []

/-- The entries `_expands` of the nodes of a forest: divisions by more than three are still to be expanded. -/
def Tagged (h : Heap Int) (inner leaves : List Addr) : Prop :=
  (∀ a ∈ inner, (h.get a).expands = if 3 < (h.get a).children.length then [.divide (h.get a).children.length] else []) ∧
  ∀ a ∈ leaves, (h.get a).expands = []

/-- `cost` is the sum of the costs of dividing at the nodes `inner`. -/
def DivideCosts (cfg : Config) (h : Heap Int) (inner : List Addr) (cost : Int) : Prop :=
  ∃ cs : List Int, inner.map (fun a => divideCost cfg (h.get a).value (h.get a).children.length) = cs.map .ok ∧ cs.sum = cost

end Satis.Graph
