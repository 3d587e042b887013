import Mathlib.Data.Rat.Floor
import Mathlib.Topology.Instances.Rat
/-!
# What number literals denote

Nothing here refers to the model.
-/

namespace Satis.Utils.Spec

/-- The character of a decimal digit. -/
def digitChar (d : Fin 10) : Char := ['0', '1', '2', '3', '4', '5', '6', '7', '8', '9'][d.val]

/-- The natural number written by a sequence of decimal digits, most significant first. -/
def digitsNat : List (Fin 10) → ℕ
  | [] => 0
  | d :: ds => d.val * 10 ^ ds.length + digitsNat ds

/-- A sign as written. -/
inductive Sign
  | none
  | plus
  | minus
  deriving DecidableEq

def Sign.text : Sign → List Char
  | .none => []
  | .plus => ['+']
  | .minus => ['-']

def Sign.apply : Sign → ℕ → ℤ
  | .minus, n => -(n : ℤ)
  | _, n => n

/-- The forms of number literals. -/
inductive Literal
  /-- `[±]d…d` -/
  | integer (s : Sign) (ds : List (Fin 10))
  /-- `a/b` or, with `big`, `a⧸b` -/
  | ratio (big : Bool) (s : Sign) (a : List (Fin 10)) (s' : Sign) (b : List (Fin 10))
  /-- `w.f` -/
  | decimal (w f : List (Fin 10))
  /-- `w.f(r)` -/
  | repeating (w f r : List (Fin 10))

/-- The literal as typed. -/
def Literal.text : Literal → List Char
  | .integer s ds => s.text ++ ds.map digitChar
  | .ratio big s a s' b => s.text ++ a.map digitChar ++ (if big then '⧸' else '/') :: (s'.text ++ b.map digitChar)
  | .decimal w f => w.map digitChar ++ '.' :: f.map digitChar
  | .repeating w f r => w.map digitChar ++ '.' :: (f.map digitChar ++ '(' :: (r.map digitChar ++ [')']))

/-- Value of `w.f`. -/
def decimalValue (w f : List (Fin 10)) : ℚ := digitsNat (w ++ f) / 10 ^ f.length

/-- The literal is complete: integers and repeating blocks have digits, denominators are not zero. -/
def Literal.Valid : Literal → Prop
  | .integer _ ds => ds ≠ []
  | .ratio _ _ a _ b => a ≠ [] ∧ digitsNat b ≠ 0
  | .decimal _ _ => True
  | .repeating _ _ r => r ≠ []

/-- `q` is the number denoted by the literal. For a repeating block it is the limit of `w.f`, `w.fr`, `w.frr`, … -/
def Literal.Denotes : Literal → ℚ → Prop
  | .integer s ds, q => q = s.apply (digitsNat ds)
  | .ratio _ s a s' b, q => q = (s.apply (digitsNat a) : ℚ) / (s'.apply (digitsNat b) : ℚ)
  | .decimal w f, q => q = decimalValue w f
  | .repeating w f r, q =>
    Filter.Tendsto (fun k => decimalValue w (f ++ (List.replicate k r).flatten)) Filter.atTop (nhds q)

end Satis.Utils.Spec
