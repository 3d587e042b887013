import Mathlib.Algebra.BigOperators.Group.Finset.Basic
import Verif.Graph.PlainSpec
/-!
# Counting the machines of a network

Nothing here mentions the code that prices moves or expands networks.
-/

namespace Satis.Graph
open Satis Satis.Spec

open Classical in
/-- The machines of a network in which nothing is pending: a splitter where several belts leave a node, a merger where several belts arrive
at it. The sources come on belts of their own. -/
noncomputable def machineCount (h : Heap ℚ) (roots : List Addr) : ℕ :=
  ∑ a ∈ Finset.range h.next with Reach h roots a,
    ((if 2 ≤ (h.get a).children.length then 1 else 0) + (if 2 ≤ (h.get a).parents.length + (if a ∈ roots then 1 else 0) then 1 else 0))

/-- So many belts will arrive at a node, not counting those that lead back to it. -/
inductive Arrivals (h : Heap ℚ) (roots : List Addr) (a : Addr) : ℕ → Prop
  | source : a ∈ roots → Arrivals h roots a 1
  | extracted {p : Addr} {v c k : Nat} {ls : List (Nat × Nat)} : (h.get a).parents = [p] → .extract c ∈ (h.get p).expands → (h.get p).value = v →
      (h.get a).value = k → Forth v c k ls → Arrivals h roots a ls.length
  | other : a ∉ roots → (∀ p ∈ (h.get a).parents, ∀ c, .extract c ∉ (h.get p).expands) → Arrivals h roots a (h.get a).parents.length

/-- A belt that leads back to the node takes an input of the last merger in front of the node that is free anyway: even numbers of belts leave one. -/
def Joins (h : Heap ℚ) (roots : List Addr) (a : Addr) : Prop :=
  ∃ n es ls, Arrivals h roots a n ∧ Even n ∧ ((h.get a).expands = es ∨ (h.get a).expands = .merge 3 :: es) ∧ Back (h.get a).value es ls ∧ Odd ls.length

open Classical in
/-- How often a belt that leads back needs no merger. -/
noncomputable def joinCount (h : Heap ℚ) (roots : List Addr) : ℕ := ((Finset.range h.next).filter fun a => Reach h roots a ∧ Joins h roots a).card

end Satis.Graph
