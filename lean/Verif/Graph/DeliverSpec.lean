import Verif.Graph.ExpandSpec
import Verif.Cost.Spec
/-!
# Networks of belts, splitters and mergers that carry given flows

Nothing here mentions the code that expands networks.
-/

namespace Satis.Graph
open Satis

/-- The part of the graph below `roots` can be built and carries the flows: `T a` is what passes through the node `a`, `f a b` what runs on
every belt from `a` to `b`, and `supply a` enters from outside. Every node merges at most three belts (for a root, the one from outside is
among them) and hands its flow on, in equal shares to at most three belts or to a belt of a given speed and one that takes the rest. -/
structure Carries (speeds : List Nat) (h : Heap ℚ) (roots : List Addr) (supply T : Addr → ℚ) (f : Addr → Addr → ℚ) : Prop where
  closed : ∀ a, Reach h roots a → ∀ p ∈ (h.get a).parents, Reach h roots p
  links : ∀ a b, Reach h roots a → Reach h roots b → (h.get a).children.count b = (h.get b).parents.count a
  inputs : ∀ a, Reach h roots a → (h.get a).parents.length + (if a ∈ roots then 1 else 0) ≤ 3
  intake : ∀ a, Reach h roots a → T a = supply a + ((h.get a).parents.map fun p => f p a).sum
  share : ∀ a, Reach h roots a → (h.get a).children ≠ [] →
    (h.get a).children.length ≤ 3 ∧ (∀ c ∈ (h.get a).children, f a c = T a / (h.get a).children.length) ∨
    ∃ x y, (h.get a).children = [x, y] ∧ x ≠ y ∧ f a x + f a y = T a ∧ ∃ s ∈ speeds, f a x = (s : ℚ) ∨ f a y = (s : ℚ)

/-- What the machines leave no choice about: flows add up where belts meet, and a node shares evenly, or, if `set a = some (x, s)`, hands `s`
to the belt to `x` and the rest to the only other one. -/
structure Obeys (h : Heap ℚ) (roots : List Addr) (supply : Addr → ℚ) (set : Addr → Option (Addr × ℕ)) (T : Addr → ℚ) (f : Addr → Addr → ℚ) : Prop where
  intake : ∀ a, Reach h roots a → T a = supply a + ((h.get a).parents.map fun p => f p a).sum
  even : ∀ a, Reach h roots a → set a = none → ∀ c ∈ (h.get a).children, f a c = T a / (h.get a).children.length
  belt : ∀ a x s, Reach h roots a → set a = some (x, s) → ∃ y, x ≠ y ∧ ((h.get a).children = [x, y] ∨ (h.get a).children = [y, x]) ∧
    f a x = s ∧ f a y = T a - s

/-- The flows are the only ones possible when the belts of given speed are set in some way. -/
def Forced (speeds : List Nat) (h : Heap ℚ) (roots : List Addr) (supply T : Addr → ℚ) (f : Addr → Addr → ℚ) : Prop :=
  ∃ set : Addr → Option (Addr × ℕ), (∀ a x s, set a = some (x, s) → s ∈ speeds) ∧ Obeys h roots supply set T f ∧
    ∀ T' f', Obeys h roots supply set T' f' → ∀ a, Reach h roots a → T' a = T a ∧ ∀ c ∈ (h.get a).children, f' a c = f a c

end Satis.Graph
