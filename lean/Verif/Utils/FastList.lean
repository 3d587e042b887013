import Verif.Py
import Mathlib.Data.List.Basic
/-!
# Transcription of `src/utils/fastlist.py`

`FastList` inherits every other method of `list` (`insert`, `sort`, item assignment, …). None of them is called on a
`FastList` anywhere in `/repo/src`, and they are not modelled.
-/

namespace Satis
open Satis

/-- `src/utils/fastlist.py:2-5`: the list part and the companion `_set`. Only membership of `_set` is ever observed, so it is
kept as a list without regard to order; removing an element removes every copy. -/
structure FastList (α : Type) where
  items : List α
  set : List α
  deriving DecidableEq, Repr

namespace FastList
variable {α : Type} [DecidableEq α]

/-- The empty list before `extend` in `__init__` (`src/utils/fastlist.py:4`). -/
def empty : FastList α := ⟨[], []⟩

/-- `src/utils/fastlist.py:16-17` `contains`. -/
def contains (l : FastList α) (x : α) : Bool := decide (x ∈ l.set)

/-- `src/utils/fastlist.py:7-10` `append`. -/
def append (l : FastList α) (x : α) : FastList α :=
  if l.contains x then l else ⟨l.items ++ [x], l.set ++ [x]⟩

/-- `src/utils/fastlist.py:19-20` `extend`. -/
def extend (l : FastList α) (xs : List α) : FastList α := xs.foldl append l

/-- `src/utils/fastlist.py:3-5` `FastList(*args)`. -/
def new (xs : List α) : FastList α := empty.extend xs

/-- `set.remove`: raises `KeyError` when the element is absent. -/
def setRemove (s : List α) (x : α) : Py (List α) :=
  if x ∈ s then .ok (s.filter (· ≠ x)) else .error .keyError

/-- `src/utils/fastlist.py:12-14` `remove`. The state after an exception is returned as well: `list.remove` raises
`ValueError` before anything is changed, `_set.remove` raises `KeyError` after the list part was changed. -/
def remove (l : FastList α) (x : α) : FastList α × Py Unit :=
  if x ∈ l.items then
    match setRemove l.set x with
    | .ok s => (⟨l.items.erase x, s⟩, .ok ())
    | .error e => (⟨l.items.erase x, l.set⟩, .error e)
  else (l, .error .valueError)

/-- `src/utils/fastlist.py:22-24` `clear`. -/
def clear (_ : FastList α) : FastList α := ⟨[], []⟩

/-- Python's index convention: negative indices count from the end; `none` is out of range. -/
def pyIndex (n : Nat) (i : Int) : Option Nat :=
  if 0 ≤ i then (if i < n then some i.toNat else none)
  else if 0 ≤ i + n then some (i + n).toNat else none

/-- `src/utils/fastlist.py:26-29` `pop(index)`. -/
def pop (l : FastList α) (i : Int) : FastList α × Py α :=
  match pyIndex l.items.length i with
  | none => (l, .error .indexError)
  | some k =>
    match l.items[k]? with
    | none => (l, .error .indexError)
    | some x =>
      match setRemove l.set x with
      | .ok s => (⟨l.items.eraseIdx k, s⟩, .ok x)
      | .error e => (⟨l.items.eraseIdx k, l.set⟩, .error e)

/-- A call of one of the five mutating methods. -/
inductive Call (α : Type)
  | append (x : α)
  | extend (xs : List α)
  | remove (x : α)
  | pop (i : Int)
  | clear
  deriving DecidableEq, Repr

/-- Effect of a call on the object, and what the caller sees: a popped value, nothing, or an exception. -/
def call (l : FastList α) : Call α → FastList α × Py (Option α)
  | .append x => (l.append x, .ok none)
  | .extend xs => (l.extend xs, .ok none)
  | .remove x => ((l.remove x).1, (l.remove x).2.map fun _ => none)
  | .pop i => ((l.pop i).1, (l.pop i).2.map some)
  | .clear => (l.clear, .ok none)

/-- The object after a sequence of calls (exceptions caught by the caller), with everything the caller saw. -/
def calls (l : FastList α) : List (Call α) → FastList α × List (Py (Option α))
  | [] => (l, [])
  | c :: cs => (((l.call c).1.calls cs).1, (l.call c).2 :: ((l.call c).1.calls cs).2)

end FastList
end Satis
