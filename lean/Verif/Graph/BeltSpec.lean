import Verif.Graph.ExpandSpec
/-!
# Merging belts of which several may come from the same machine

Nothing here mentions the code that expands networks.
-/

namespace Satis.Graph
open Satis

/-- Merging `n` belts three by three, the last ones first, until at most `t` are left: so many of the first belts are not touched. -/
def untouched (t n : Nat) : Nat := if n ≤ t then n else n - (2 * ((n - t + 1) / 2) + 1)

/-- No machine has both a belt that is merged and a belt that is not touched. -/
def Parted {α : Type} (t : Nat) (ps : List α) : Prop := (ps.take (untouched t ps.length)).Disjoint (ps.drop (untouched t ps.length))

instance {α : Type} [DecidableEq α] (t : Nat) (ps : List α) : Decidable (Parted t ps) := by unfold Parted List.Disjoint; infer_instance

/-- Belts from the same machine are merged by the same merger: the last three belts are merged first, then every merger takes two more. -/
def Together {α : Type} (ps : List α) : Prop :=
  ∀ i < ps.length, ∀ j < ps.length, ps.reverse[i]? = ps.reverse[j]? → (i - 1) / 2 = (j - 1) / 2

instance {α : Type} [DecidableEq α] (ps : List α) : Decidable (Together ps) := by unfold Together; infer_instance

/-- The inputs of a node, of which several may come from the same machine: both ends agree about the belts between them. -/
structure BeltInput (h : Heap ℚ) (node : Addr) : Prop where
  inside : node < h.next
  level : (h.get node).level ≠ none
  lt : ∀ p ∈ (h.get node).parents, p < h.next ∧ p ≠ node
  levels : ∀ p ∈ (h.get node).parents, (h.get p).level ≠ none
  nonneg : ∀ p ∈ (h.get node).parents, 0 ≤ (h.get p).value
  count : ∀ p ∈ (h.get node).parents, (h.get p).children.count node = (h.get node).parents.count p
  closed : ∀ p ∈ (h.get node).parents, ∀ c ∈ (h.get p).children, c < h.next

/-- `h'` is `h` with the belts that lead to `node` led through mergers, none of them lost. -/
structure BeltNetwork (h h' : Heap ℚ) (node : Addr) (t : Nat) : Prop where
  next : h.next ≤ h'.next
  few : (h'.get node).parents.length ≤ t
  /-- the first inputs stay, and at most one merger takes the place of the others -/
  order : ∃ ms, (h'.get node).parents = (h.get node).parents.take (untouched t (h.get node).parents.length) ++ ms ∧
    (ms = [] ∧ (h.get node).parents.length ≤ t ∨ ∃ m, ms = [m] ∧ h.next ≤ m ∧ m < h'.next)
  inputs : ∀ p ∈ (h'.get node).parents, p ∈ (h.get node).parents ∨ h.next ≤ p ∧ p < h'.next
  /-- a merger has three inputs, which come from former inputs of the node or earlier mergers, and one output, to the node or a later merger -/
  three : ∀ a, h.next ≤ a → a < h'.next → (h'.get a).parents.length = 3 ∧ ∃ b, (h'.get a).children = [b] ∧ (b = node ∨ a < b ∧ b < h'.next)
  sources : ∀ a, h.next ≤ a → a < h'.next → ∀ p ∈ (h'.get a).parents, p ∈ (h.get node).parents ∨ h.next ≤ p ∧ p < a
  /-- every machine has as many outputs as before, and those to other nodes are the same -/
  lens : ∀ p ∈ (h.get node).parents, (h'.get p).children.length = (h.get p).children.length
  others : ∀ p ∈ (h.get node).parents, ∀ c, c < h.next → c ≠ node → (h'.get p).children.count c = (h.get p).children.count c
  /-- links are consistent -/
  links : ∀ c, c = node ∨ h.next ≤ c ∧ c < h'.next → ∀ p, p ∈ (h.get node).parents ∨ h.next ≤ p ∧ p < h'.next →
    (h'.get c).parents.count p = (h'.get p).children.count c
  /-- whatever the former inputs carry, there are flows for the mergers, each of which hands on what it takes, and the node is handed what it
  was handed before -/
  flow : ∀ f : Addr → ℚ, ∃ g : Addr → ℚ, (∀ a, a < h.next → g a = f a) ∧
    (∀ a, h.next ≤ a → a < h'.next → g a = ((h'.get a).parents.map g).sum) ∧
    ((h'.get node).parents.map g).sum = ((h.get node).parents.map f).sum
  /-- every former input still leads to the node -/
  reach : ∀ p ∈ (h.get node).parents, Reach h' [p] node
  levels : ∀ a, h.next ≤ a → a < h'.next → (h'.get a).level = (h.get node).level
  /-- nothing is left to do for the mergers -/
  quiet : ∀ a, h.next ≤ a → a < h'.next → (h'.get a).expands = []
  ids : ∀ a, h.next ≤ a → a < h'.next → (h'.get a).id = h.nextUid + (a - h.next)
  uid : h'.nextUid = h.nextUid + (h'.next - h.next)
  /-- nothing else changed -/
  frame : ∀ a, a < h.next → a ≠ node → a ∉ (h.get node).parents → h'.get a = h.get a
  keptParents : ∀ a ∈ (h.get node).parents, h'.get a = { h.get a with children := (h'.get a).children }
  keptNode : h'.get node = { h.get node with parents := (h'.get node).parents }
  still : ∀ p ∈ (h.get node).parents, p ∉ (h.get node).parents.drop (untouched t (h.get node).parents.length) →
    (h'.get p).children = (h.get p).children
  /-- a machine keeps the order of its outputs, without those to the node where these are replaced; those to mergers come last -/
  trim : ∀ p ∈ (h.get node).parents, ∃ l₁ l₂, (h'.get p).children = l₁ ++ l₂ ∧
    (l₁ = (h.get p).children ∨ l₁ = (h.get p).children.filter fun y => decide (y ≠ node)) ∧ ∀ x ∈ l₂, h.next ≤ x ∧ x < h'.next
  worth : ∀ a, h.next ≤ a → a < h'.next → 0 ≤ (h'.get a).value
  /-- a merger is labelled with what its inputs hand on, according to their labels, unless it shares a machine with an earlier one -/
  labelled : Together (h.get node).parents → ∀ a, h.next ≤ a → a < h'.next →
    (h'.get a).value = ((h'.get a).parents.map fun p => (h'.get p).value / (h'.get p).children.length).sum

end Satis.Graph
