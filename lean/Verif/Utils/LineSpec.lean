import Verif.Utils.TextSpec

/-!
What a line typed by the user means: words, numbers, multiples. Nothing here refers to the model.
-/

namespace Satis.Utils.Spec

/-- The code points Python takes for white space. -/
def whiteSpace : List ℕ :=
  [9, 10, 11, 12, 13, 28, 29, 30, 31, 32, 0x85, 0xa0, 0x1680, 0x2000, 0x2001, 0x2002, 0x2003, 0x2004, 0x2005, 0x2006, 0x2007, 0x2008, 0x2009, 0x200a,
    0x2028, 0x2029, 0x202f, 0x205f, 0x3000]

def White (c : Char) : Prop := c.toNat ∈ whiteSpace

/-- The groups of digits of an integer with underscores between them. -/
def underscored : List (Fin 10) → List (List (Fin 10)) → List Char
  | g, [] => g.map digitChar
  | g, h :: gs => g.map digitChar ++ '_' :: underscored h gs

/-- The text is an integer: a sign, groups of digits, single underscores between them. -/
def IntText (t : List Char) (z : ℤ) : Prop :=
  ∃ (s : Sign) (g : List (Fin 10)) (gs : List (List (Fin 10))), (∀ x ∈ g :: gs, x ≠ []) ∧ t = s.text ++ underscored g gs ∧
    z = s.apply (digitsNat (g :: gs).flatten)

/-- What may follow a decimal without being read: no slash in it. -/
def Ignored (rest : List Char) : Prop := '/' ∉ rest ∧ '⧸' ∉ rest

/-- No repeating block in parentheses at the beginning. -/
def NoBlock (rest : List Char) : Prop := ∀ r : List (Fin 10), r ≠ [] → ¬ ('(' :: (r.map digitChar ++ [')'])) <+: rest

/-- No digit at the beginning. -/
def NoDigit (rest : List Char) : Prop := ∀ d : Fin 10, rest.head? ≠ some (digitChar d)

/-- The texts read as numbers. A decimal ends where its digits or its repeating block end; what follows is skipped. -/
inductive Number : List Char → ℚ → Prop
  | integer {t z} : IntText t z → Number t z
  | ratio {a b n d} (big : Bool) : IntText a n → IntText b d → d ≠ 0 → Number (a ++ (if big then '⧸' else '/') :: b) ((n : ℚ) / d)
  | decimal {w f rest q} : (Literal.decimal w f).Denotes q → Ignored rest → NoDigit rest → NoBlock rest →
      Number ((Literal.decimal w f).text ++ rest) q
  | repeating {w f r rest q} : r ≠ [] → (Literal.repeating w f r).Denotes q → Ignored rest → Number ((Literal.repeating w f r).text ++ rest) q

/-- The words of a text, in order. -/
inductive Words : List Char → List (List Char) → Prop
  | blank {t} : (∀ c ∈ t, White c) → Words t []
  | word {b w rest ws} : (∀ c ∈ b, White c) → w ≠ [] → (∀ c ∈ w, ¬ White c) → (∀ c, rest.head? = some c → White c) → Words rest ws →
      Words (b ++ (w ++ rest)) (w :: ws)

/-- The values a list of words stands for: `v` once, `Nx v` N times. -/
inductive Values : List (List Char) → List ℚ → Prop
  | nil : Values [] []
  | one {w v ws vs} : w.getLast? ≠ some 'x' → Number w v → Values ws vs → Values (w :: ws) (v :: vs)
  | many {n w v ws vs} : n ≠ [] → Number w v → Values ws vs →
      Values ((n.map digitChar ++ ['x']) :: w :: ws) (List.replicate (digitsNat n) v ++ vs)

/-- The letters "to" do not occur. -/
def NoTo (t : List Char) : Prop := ¬ ['t', 'o'] <:+: t

/-- The line lists the sources `sv` and the targets `tv`: two spaces at least, "to" once, words on both sides. -/
def Line (s : List Char) (sv tv : List ℚ) : Prop :=
  2 ≤ s.count ' ' ∧ ∃ a b wa wb, s = a ++ 't' :: 'o' :: b ∧ NoTo a ∧ NoTo b ∧ Words a wa ∧ Words b wb ∧ wa ≠ [] ∧ wb ≠ [] ∧ Values wa sv ∧ Values wb tv

end Satis.Utils.Spec
