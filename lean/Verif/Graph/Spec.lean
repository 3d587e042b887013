import Verif.Graph.Copy
import Mathlib.Data.Set.Function
/-!
# What a move and a copy do to the graph
-/

namespace Satis.Graph
open Satis

variable {V : Type}

/-- Parent and child references of the allocated nodes are mutually consistent, with multiplicity, and point to allocated nodes. -/
structure Linked (h : Heap V) : Prop where
  count : ∀ a b, a < h.next → b < h.next → (h.get a).children.count b = (h.get b).parents.count a
  children : ∀ a, a < h.next → ∀ b ∈ (h.get a).children, b < h.next
  parents : ∀ a, a < h.next → ∀ b ∈ (h.get a).parents, b < h.next

/-- From `h` to `h'` the nodes `old` were turned into the nodes `new`: the flow is conserved, the new nodes are fresh and hang below
all the old ones, and nothing else changed. -/
structure Turned (h : Heap Int) (old new : List Addr) (h' : Heap Int) : Prop where
  total : (new.map fun a => (h'.get a).value).sum = (old.map fun a => (h.get a).value).sum
  fresh : new.Nodup ∧ ∀ a, a ∈ new ↔ h.next ≤ a ∧ a < h'.next
  next : h.next ≤ h'.next
  ids : ∀ a ∈ new, h.nextUid ≤ (h'.get a).id ∧ (h'.get a).id < h'.nextUid ∧ ∀ b ∈ new, (h'.get a).id = (h'.get b).id → a = b
  nonneg : ∀ a ∈ new, 0 ≤ (h'.get a).value
  up : ∀ a ∈ new, (h'.get a).parents = old ∧ (h'.get a).children = []
  down : ∀ a ∈ old, (h'.get a).children = (h.get a).children ++ new
  kept : ∀ a ∈ old, (h'.get a).value = (h.get a).value ∧ (h'.get a).id = (h.get a).id ∧ (h'.get a).level = (h.get a).level ∧
    (h'.get a).past = (h.get a).past ∧ (h'.get a).parents = (h.get a).parents
  above : ∀ a ∈ new, ∀ b ∈ old, ∃ l m, (h'.get a).level = some l ∧ (h.get b).level = some m ∧ m < l
  past : ∀ a ∈ new, ∀ v, v ∈ (h'.get a).past.items ↔ v = (h'.get a).value ∨ ∃ b ∈ old, v ∈ (h.get b).past.items
  frame : ∀ a, a < h.next → a ∉ old → h'.get a = h.get a

/-- `h'` is `h` plus fresh nodes that form, under the renaming `φ`, a copy of the nodes in `R`: same ids, values and pending
expansions, same edges with multiplicity. -/
structure Copied (h : Heap V) (R : Addr → Prop) (φ : Addr → Addr) (h' : Heap V) : Prop where
  old : ∀ a, a < h.next → h'.get a = h.get a
  fresh : ∀ a, R a → h.next ≤ φ a ∧ φ a < h'.next
  onto : ∀ b, h.next ≤ b → b < h'.next → ∃ a, R a ∧ φ a = b
  inj : ∀ a b, R a → R b → φ a = φ b → a = b
  value : ∀ a, R a → (h'.get (φ a)).value = (h.get a).value
  id : ∀ a, R a → (h'.get (φ a)).id = (h.get a).id
  expands : ∀ a, R a → (h'.get (φ a)).expands = (h.get a).expands
  children : ∀ a, R a → (h'.get (φ a)).children.Perm ((h.get a).children.map φ)
  parents : ∀ a b, R a → R b → (h'.get (φ a)).parents.count (φ b) = (h.get b).children.count a
  inside : ∀ a, R a → ∀ x ∈ (h'.get (φ a)).parents, ∃ b, R b ∧ φ b = x

/-- The values noted as past of a node are its own value and values of ancestors (within the graph below `rs`). -/
def PastSound (h : Heap V) (rs : List Addr) : Prop :=
  ∀ a, Reach h rs a → (h.get a).value ∈ (h.get a).past.items ∧
    ∀ v ∈ (h.get a).past.items, ∃ b, Reach h rs b ∧ Reach h [b] a ∧ (h.get b).value = v

/-- The past of a node is complete: it contains the values of all the ancestors. -/
def PastComplete (h : Heap V) (rs : List Addr) : Prop :=
  ∀ a b, Reach h rs b → Reach h [b] a → (h.get b).value ∈ (h.get a).past.items

/-- Two trees (in heaps `h1` and `h2`) are the same network up to the identity of nodes: same values and same connections. -/
def SameNetwork (h1 : Heap V) (t1 : TreeObj V) (h2 : Heap V) (t2 : TreeObj V) : Prop :=
  ∃ f : Addr → Addr, Set.BijOn f {a | Reach h1 t1.roots a} {a | Reach h2 t2.roots a} ∧
    (∀ a, Reach h1 t1.roots a → (h2.get (f a)).value = (h1.get a).value) ∧
    ∀ a b, Reach h1 t1.roots a → Reach h1 t1.roots b → (h2.get (f a)).children.count (f b) = (h1.get a).children.count b

/-- There is an edge between two nodes of the graph below `rs` whose ids are `x` and `y`. -/
def EdgeOf (h : Heap V) (rs : List Addr) (x y : Uid) : Prop :=
  ∃ a b, Reach h rs a ∧ b ∈ (h.get a).children ∧ x = (h.get a).id ∧ y = (h.get b).id

/-- The same in either direction. -/
def Joined (h : Heap V) (rs : List Addr) (x y : Uid) : Prop := EdgeOf h rs x y ∨ EdgeOf h rs y x

/-- Two trees have the same shape: the nodes that have neighbours correspond to each other in such a way that neighbours correspond
to neighbours (neither values nor directions nor repeated edges count, and nodes without neighbours do not count either). -/
def SameShape (h1 : Heap V) (t1 : TreeObj V) (h2 : Heap V) (t2 : TreeObj V) : Prop :=
  ∃ f : Uid → Uid, Set.BijOn f {x | ∃ y, Joined h1 t1.roots x y} {x | ∃ y, Joined h2 t2.roots x y} ∧
    ∀ x y, (∃ z, Joined h1 t1.roots x z) → (∃ z, Joined h1 t1.roots y z) →
      (Joined h1 t1.roots x y ↔ Joined h2 t2.roots (f x) (f y))

end Satis.Graph
