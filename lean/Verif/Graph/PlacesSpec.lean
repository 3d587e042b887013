import Mathlib.Data.List.Basic
/-!
# Which machine of a tree of splitters a branch comes from

Nothing here mentions the code that expands networks.
-/

namespace Satis.Spec

/-- In a tree with `n` depths of splitters in two and `m` of splitters in three below them, the branches of every depth are handed out from
the first on. `before` are the depths of the branches handed out earlier, `sel` those of the branches handed out now: the splitters that these
come from, depth by depth. A splitter is written as its depth and its place there, counted from zero. -/
def places (n m : Nat) (before sel : List Nat) : List (Nat × Nat) :=
  (List.range (n + m)).flatMap fun j => (List.range (sel.count (j + 1))).map fun t => (j, (before.count (j + 1) + t) / if j < n then 2 else 3)

end Satis.Spec
