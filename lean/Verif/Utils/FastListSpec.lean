import Verif.Utils.FastList
/-!
# Specification of an ordered set

What the five methods do to a plain list of distinct elements, and what the caller sees.
-/

namespace Satis.FastList.Spec
variable {α : Type} [DecidableEq α]

/-- Insert at the end unless present. -/
def insert (l : List α) (x : α) : List α := if x ∈ l then l else l ++ [x]

/-- The element at a Python index: from the front for `i ≥ 0`, from the back for `i < 0`. -/
def at? (l : List α) (i : Int) : Option α := if 0 ≤ i then l[i.toNat]? else l.reverse[(-i - 1).toNat]?

/-- One call on the plain list. -/
def step (l : List α) : Call α → List α × Py (Option α)
  | .append x => (insert l x, .ok none)
  | .extend xs => (xs.foldl insert l, .ok none)
  | .remove x => if x ∈ l then (l.erase x, .ok none) else (l, .error .valueError)
  | .pop i =>
    match at? l i with
    | none => (l, .error .indexError)
    | some x => (l.erase x, .ok (some x))
  | .clear => ([], .ok none)

/-- A sequence of calls on the plain list. -/
def steps (l : List α) : List (Call α) → List α × List (Py (Option α))
  | [] => (l, [])
  | c :: cs => ((steps (step l c).1 cs).1, (step l c).2 :: (steps (step l c).1 cs).2)

/-- The values handed to `append` and `extend`, in order. -/
def offered : List (Call α) → List α
  | [] => []
  | .append x :: cs => x :: offered cs
  | .extend xs :: cs => xs ++ offered cs
  | _ :: cs => offered cs

end Satis.FastList.Spec
