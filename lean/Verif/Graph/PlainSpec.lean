import Verif.Graph.BeltSpec
import Verif.Graph.DeliverSpec
import Verif.Graph.Grow
import Verif.Graph.PlacesSpec
/-!
# Networks whose expansion loses no belts

The networks that the solver makes, before expansion: every node has a value, and a node may have a division into more than three parts,
an extraction or a merge of more than three belts pending. Nothing here mentions the code that expands networks.
-/

namespace Satis.Graph
open Satis Satis.Spec

/-- After the division or extraction pending for a node of value `v`, belts lead back to it from the splitters `ls`: as few branches of the best
tree as have the superfluous leaves together. -/
inductive Back (v : ℚ) : List (Expand ℚ) → List (Nat × Nat) → Prop
  | none : Back v [] []
  | divide {d n m : Nat} {sel : List Nat} : BestShape d n m → FewestCover n m (2 ^ n * 3 ^ m - d) sel → Back v [.divide d] (places n m [] sel)
  | extract {w c n m : Nat} {sel : List Nat} : v = w → BestShape (w / Nat.gcd w c) n m →
      FewestCover n m (2 ^ n * 3 ^ m - w / Nat.gcd w c) sel → Back v [.extract c] (places n m [] sel)

/-- After an extraction of `c` from `v`, belts lead from the splitters `ls` to the child that takes `k`: those for `c` are handed out after those that
lead back, and the others last. -/
def Forth (v c k : Nat) (ls : List (Nat × Nat)) : Prop :=
  ∃ n m loop out rest, BestShape (v / Nat.gcd v c) n m ∧ FewestCover n m (2 ^ n * 3 ^ m - v / Nat.gcd v c) loop ∧
    FewestCover n m (c / Nat.gcd v c) out ∧ FewestCover n m ((v - c) / Nat.gcd v c) rest ∧
    ls = if k = c then places n m loop out else places n m (loop ++ out) rest

/-- What a node does with its value, and what is pending for that. -/
inductive Job (speeds : List Nat) (h : Heap ℚ) (a : Addr) : List (Expand ℚ) → Prop
  | leaf : (h.get a).children = [] → Job speeds h a []
  | pass (c : Addr) : (h.get a).children = [c] → Job speeds h a []
  | few : (h.get a).children.length = 2 ∨ (h.get a).children.length = 3 →
      (∀ c ∈ (h.get a).children, (h.get c).value = (h.get a).value / (h.get a).children.length) → Job speeds h a []
  | belt (x y : Addr) : (h.get a).children = [x, y] → (h.get x).value + (h.get y).value = (h.get a).value →
      (∃ s ∈ speeds, (h.get x).value = (s : ℚ) ∨ (h.get y).value = (s : ℚ)) → Job speeds h a []
  | divide (d : Nat) : DivideInput h a d → Job speeds h a [.divide d]
  | extract (v c : Nat) (x y : Addr) : ExtractInput h a x y v c → Job speeds h a [.extract c]

/-- What a search and the grouping of targets leave below `roots`: the values are consistent. A node may also have a split pending: two children take
a third of the speed `c`, rounded down, and the last takes the rest. -/
structure Sound (speeds : List Nat) (h : Heap ℚ) (roots : List Addr) : Prop where
  region : Region h (Reach h roots)
  levels : ∀ a, Reach h roots a → (h.get a).level ≠ none
  positive : ∀ a, Reach h roots a → 0 < (h.get a).value
  down : ∀ a, Reach h roots a → ∀ c ∈ (h.get a).children, ∃ l m, (h.get a).level = some l ∧ (h.get c).level = some m ∧ l < m
  top : ∀ r ∈ roots, (h.get r).parents = []
  links : ∀ a b, Reach h roots a → Reach h roots b → (h.get a).children.count b = (h.get b).parents.count a
  /-- a node with several children is the only parent of each -/
  tree : ∀ a, Reach h roots a → 2 ≤ (h.get a).children.length → ∀ c ∈ (h.get a).children, (h.get c).parents = [a]
  /-- a node is one of several children, or the sum of its parents -/
  merge : ∀ a, Reach h roots a → a ∉ roots → (∃ p, (h.get a).parents = [p] ∧ 2 ≤ (h.get p).children.length) ∨
    (h.get a).parents.Nodup ∧ (∀ p ∈ (h.get a).parents, p ≠ a ∧ (h.get p).children = [a] ∧ 0 < (h.get p).value) ∧
      (h.get a).value = ((h.get a).parents.map fun p => (h.get p).value).sum
  jobs : ∀ a, Reach h roots a → ∃ es, (Job speeds h a es ∨ ∃ c : Int, es = [.split (c : ℚ)] ∧ (h.get a).children.Nodup ∧
      ((h.get a).children.map fun x => (h.get x).value).Perm
        [((c / 3 : Int) : ℚ), ((c / 3 : Int) : ℚ), (h.get a).value - 2 * ((c / 3 : Int) : ℚ)]) ∧
    (h.get a).expands = (if 3 < (h.get a).parents.length then [.merge 3] else []) ++ es

/-- No split is pending, and no belt gets lost among those that expansion leads to a node: merging them never separates belts that come from the
same machine. -/
structure Roomy (h : Heap ℚ) (roots : List Addr) : Prop where
  unsplit : ∀ a, Reach h roots a → ∀ c, .split c ∉ (h.get a).expands
  /-- the belts that lead to a node already, except those that an extraction will replace, and the belts that will lead back to it -/
  back : ∀ a, Reach h roots a → (∀ p ∈ (h.get a).parents, ∀ c, .extract c ∉ (h.get p).expands) →
    ∀ es ls, (h.get a).expands = es ∨ (h.get a).expands = .merge 3 :: es → Back (h.get a).value es ls →
    Parted (if a ∈ roots then 2 else 3) ((h.get a).parents.map Sum.inl ++ ls.map Sum.inr)
  /-- the belts from an extraction, and those that will lead back to the next one below it -/
  room : ∀ a, Reach h roots a → ∀ v c : Nat, (h.get a).value = v → .extract c ∈ (h.get a).expands → ∀ z ∈ (h.get a).children,
    ∀ (k : Nat) (ls ls' : List (Nat × Nat)), (h.get z).value = k → Forth v c k ls → Back (h.get z).value (h.get z).expands ls' →
    Parted 3 (ls.map Sum.inl ++ ls'.map Sum.inr)

/-- A node that takes what is extracted has at most three belts led to it by expansion, or one from the extraction. -/
def Light (h : Heap ℚ) (roots : List Addr) : Prop :=
  ∀ a, Reach h roots a → ∀ v c : Nat, (h.get a).value = v → .extract c ∈ (h.get a).expands → ∀ z ∈ (h.get a).children, (h.get z).value = c →
    ∀ ls ls' : List (Nat × Nat), Forth v c c ls → Back (h.get z).value (h.get z).expands ls' →
    ls.length + ls'.length ≤ 3 ∨ ls.length ≤ 1

/-- Merging the belts that expansion leads to a node merges those that come from the same machine by the same merger. -/
structure Tidy (h : Heap ℚ) (roots : List Addr) : Prop where
  /-- the belts that will lead back to a node -/
  back : ∀ a, Reach h roots a → (∀ p ∈ (h.get a).parents, ∀ c, .extract c ∉ (h.get p).expands) →
    ∀ es ls, (h.get a).expands = es ∨ (h.get a).expands = .merge 3 :: es → Back (h.get a).value es ls → Together ls
  /-- the belts from an extraction, and those that will lead back to the next one below it -/
  room : ∀ a, Reach h roots a → ∀ v c : Nat, (h.get a).value = v → .extract c ∈ (h.get a).expands → ∀ z ∈ (h.get a).children,
    ∀ (k : Nat) (ls ls' : List (Nat × Nat)), (h.get z).value = k → Forth v c k ls → Back (h.get z).value (h.get z).expands ls' →
    Together (ls.map Sum.inl ++ ls'.map Sum.inr)

/-- What passes through a node of value `v` when the division or extraction pending for it is carried out: what enters, and what is led back. -/
inductive Passes (v : ℚ) : List (Expand ℚ) → ℚ → Prop
  | divide {d n m : Nat} : BestShape d n m → Passes v [.divide d] (v * (2 ^ n * 3 ^ m) / d)
  | extract {w c n m : Nat} : v = w → BestShape (w / Nat.gcd w c) n m → Passes v [.extract c] (Nat.gcd w c * (2 ^ n * 3 ^ m))

/-- The labels of the nodes of `h'`, the expanded `h`, values divided by `k`, tell what passes through the nodes. Where a division or an extraction was carried
out the label still is that of the node before, and what is led back passes as well. -/
structure Labels (h h' : Heap ℚ) (roots : List Addr) (k : Nat) (T : Addr → ℚ) : Prop where
  plain : ∀ a, Reach h' roots a → (Reach h roots a → ∀ e ∈ (h.get a).expands, ∃ t, e = .merge t) → T a = (h'.get a).value / k
  kept : ∀ a, Reach h roots a → (h'.get a).value = (h.get a).value
  worked : ∀ a, Reach h roots a → ∀ es V, (h.get a).expands = es ∨ (h.get a).expands = .merge 3 :: es → Passes (h.get a).value es V → T a = V / k

/-- Machines only split evenly: what passes through the nodes follows from what enters and how the belts lead. -/
def EvenFlow (h : Heap ℚ) (supply T : Addr → ℚ) : Prop :=
  ∀ b, b < h.next → T b = supply b + ((List.range h.next).map fun a => (h.get a).children.count b * (T a / (h.get a).children.length)).sum

end Satis.Graph
