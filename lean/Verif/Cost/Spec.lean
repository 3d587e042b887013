import Mathlib.Data.List.Basic
import Mathlib.Data.Rat.Defs
/-!
# Specification vocabulary for `src/cost.py`

Nothing here mentions the code: physical splitter trees, merger steps.
-/

namespace Satis.Spec

/-- A tree of splitters: a belt either leaves the tree, or enters a splitter with two or three outputs. -/
inductive STree
  | exit
  | split2 (a b : STree)
  | split3 (a b c : STree)

/-- Number of splitters of a tree. -/
def STree.splitters : STree → Nat
  | .exit => 0
  | .split2 a b => 1 + a.splitters + b.splitters
  | .split3 a b c => 1 + a.splitters + b.splitters + c.splitters

/-- Number of belts leaving a tree. -/
def STree.leaves : STree → Nat
  | .exit => 1
  | .split2 a b => a.leaves + b.leaves
  | .split3 a b c => a.leaves + b.leaves + c.leaves

/-- The subtrees rooted at depth `i`. -/
def STree.atDepth : Nat → STree → List STree
  | 0, t => [t]
  | _ + 1, .exit => []
  | i + 1, .split2 a b => a.atDepth i ++ b.atDepth i
  | i + 1, .split3 a b c => a.atDepth i ++ b.atDepth i ++ c.atDepth i

/-- The complete tree with `m` layers of 3-way splitters. -/
def ternary : Nat → STree
  | m + 1 => .split3 (ternary m) (ternary m) (ternary m)
  | 0 => .exit

/-- The complete tree with `n` layers of 2-way splitters on top of `m` layers of 3-way splitters. -/
def complete : Nat → Nat → STree
  | n + 1, m => .split2 (complete n m) (complete n m)
  | 0, m => ternary m

/-- The subtree of `complete n m` hanging at depth `i`. -/
def subtreeAt (n m i : Nat) : STree := complete (n - i) (m - (i - n))

/-- `complete n m` is the tree to divide a belt into `d` equal parts: it has at least `d` leaves, no complete tree with at
least `d` leaves has fewer splitters, and among those with as few splitters none has fewer leaves. -/
structure BestShape (d n m : Nat) : Prop where
  enough : d ≤ (complete n m).leaves
  fewest : ∀ n' m', d ≤ (complete n' m').leaves → (complete n m).splitters ≤ (complete n' m').splitters
  least : ∀ n' m', d ≤ (complete n' m').leaves → (complete n' m').splitters = (complete n m).splitters →
    (complete n m).leaves ≤ (complete n' m').leaves

/-- The subtrees at depths `sel` (with repetition) of `complete n m` have `l` leaves in total. -/
structure Covers (n m l : Nat) (sel : List Nat) : Prop where
  depth : ∀ i ∈ sel, i ≤ n + m
  leaves : (sel.map fun i => (subtreeAt n m i).leaves).sum = l

/-- A cover with the fewest subtrees. -/
structure FewestCover (n m l : Nat) (sel : List Nat) : Prop extends Covers n m l sel where
  fewest : ∀ sel', Covers n m l sel' → sel.length ≤ sel'.length

/-- `Packs t sel`: pairwise disjoint subtrees of `t` can be chosen at the depths `sel`. -/
inductive Packs : STree → List Nat → Prop
  | nothing (t : STree) : Packs t []
  | whole (t : STree) : Packs t [0]
  | two {a b : STree} {s s' : List Nat} : Packs a s → Packs b s' → Packs (.split2 a b) ((s ++ s').map (· + 1))
  | three {a b c : STree} {s s' s'' : List Nat} : Packs a s → Packs b s' → Packs c s'' →
      Packs (.split3 a b c) ((s ++ s' ++ s'').map (· + 1))

/-- Splitters that disappear when the subtrees at depths `sel` are not built. -/
def savedSplitters (n m : Nat) (sel : List Nat) : Nat := (sel.map fun i => (subtreeAt n m i).splitters).sum

/-- Mergers needed to turn `k` belts into one (`C06_merge_cost_minimal` shows this is the true minimum). -/
def toOne (k : Nat) : Nat := k / 2

/-- Mergers and splitters needed to feed `k` belts back to the root of `complete n m`: if the belt that would carry
everything is over the limit, the looped belts are merged, split over the branches below the root and merged there. -/
def feedBack (over : Prop) [Decidable over] (k n : Nat) : Nat :=
  if over then toOne k + 1 + (if n > 0 then 2 else 3) else toOne (k + 1)

/-- `MergeSteps k n t`: `n` belts can be turned into `t` belts with `k` mergers, each taking 2 or 3 belts and giving 1. -/
inductive MergeSteps : Nat → Nat → Nat → Prop
  | done (n : Nat) : MergeSteps 0 n n
  | two {k n t : Nat} : MergeSteps k (n + 1) t → MergeSteps (k + 1) (n + 2) t
  | three {k n t : Nat} : MergeSteps k (n + 1) t → MergeSteps (k + 1) (n + 3) t

end Satis.Spec
