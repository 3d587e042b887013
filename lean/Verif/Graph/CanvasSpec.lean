import Verif.Graph.Canvas
/-!
# When a picture shows a network
-/

namespace Satis.Graph
open Satis

/-- The graph that is drawn shows the network below the roots: there is one node for each node of the network, labelled with its value and at its level,
and as many edges between two of them as there are belts. -/
def Faithful (c : Canvas ℚ) (h : Heap ℚ) (roots : List Addr) : Prop :=
  ∃ f : Addr → Tag ℚ, (∀ a b, Reach h roots a → Reach h roots b → f a = f b → a = b) ∧ c.nodes.keys.Nodup ∧
    (∀ k, k ∈ c.nodes.keys ↔ ∃ a, Reach h roots a ∧ f a = k) ∧
    (∀ a, Reach h roots a → c.nodes.get? (f a) = some (some ((h.get a).value, (h.get a).level))) ∧
    (∀ a b, Reach h roots a → Reach h roots b → c.edges.count (f a, f b) = (h.get a).children.count b) ∧
    ∀ e ∈ c.edges, ∃ a b, Reach h roots a ∧ Reach h roots b ∧ e = (f a, f b)

/-- The expansions are of the same kind, whatever their arguments. -/
def SameKind : Expand ℚ → Expand ℚ → Prop
  | .extract _, .extract _ => True
  | .divide _, .divide _ => True
  | .merge _, .merge _ => True
  | .split _, .split _ => True
  | _, _ => False

/-- The nodes look the same: the same value and level, and the same kinds of expansions pending. -/
def SameLook (h : Heap ℚ) (a b : Addr) : Prop :=
  (h.get a).value = (h.get b).value ∧ (h.get a).level = (h.get b).level ∧ List.Forall₂ SameKind (h.get a).expands (h.get b).expands

/-- The ids end differently wherever two nodes of the network look the same. -/
def Told (tail : Uid → Nat) (h : Heap ℚ) (roots : List Addr) : Prop :=
  ∀ a b, Reach h roots a → Reach h roots b → SameLook h a b → tail (h.get a).id = tail (h.get b).id → a = b

/-- Every node of the graph is in the list of its level, once, and in no other. -/
def Ranked (c : Canvas ℚ) (d : Dict Int (List (Tag ℚ))) : Prop :=
  d.keys.Nodup ∧ (∀ l ks, d.get? l = some ks → ∀ k ∈ ks, k ∈ c.nodes.keys) ∧
    ∀ k ∈ c.nodes.keys, ∃ v l, c.nodes.get? k = some (some (v, some l)) ∧ ∀ i, ((d.get? i).getD []).count k = if i = l then 1 else 0

end Satis.Graph
