/-!
# Python runtime vocabulary

Exceptions as values, and the few built-in list operations the code uses.
-/

namespace Satis

/-- The exceptions the modelled code can raise.  `diverge` is not a Python exception: it is what a fuelled model of a
`while` loop returns when the fuel is used up; the theorems show it is never returned with the fuel supplied. -/
inductive PyErr
  | valueError
  | indexError
  | keyError
  | typeError
  | zeroDivision
  | assertionError
  | systemExit
  | diverge
  deriving DecidableEq, Repr

/-- Results of functions that may raise. -/
abbrev Py (α : Type _) := Except PyErr α

/-- The function returned normally with value `a` (helper for statements). -/
def Returns {α : Type _} (r : Py α) (a : α) : Prop := r = .ok a

end Satis
