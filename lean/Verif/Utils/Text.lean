import Verif.Utils.Model
import Mathlib.Data.Rat.Floor
import Mathlib.Algebra.Order.Floor.Ring
/-!
# Transcription of `src/utils/fractions.py` (text part) and `parse_user_input` of `src/utils/solver.py`

Strings are lists of characters. Simplifications: the only digits are the ten ASCII ones (Python's `\d`, `isdigit` and
`int` also know other scripts), and CPython's limit on the number of digits of an `int` literal (4300) is not modelled.
-/

namespace Satis.Utils
open Satis

abbrev Str := List Char

/-! ### The string operations of Python used by the code -/

/-- `str.isspace` for one character. -/
def isSpace (c : Char) : Bool :=
  let n := c.toNat
  (decide (9 ≤ n) && decide (n ≤ 13)) || (decide (28 ≤ n) && decide (n ≤ 32)) || n == 0x85 || n == 0xa0 || n == 0x1680 ||
    (decide (0x2000 ≤ n) && decide (n ≤ 0x200a)) || n == 0x2028 || n == 0x2029 || n == 0x202f || n == 0x205f || n == 0x3000

/-- The value of an ASCII digit. -/
def digit? (c : Char) : Option Nat :=
  if 48 ≤ c.toNat ∧ c.toNat ≤ 57 then some (c.toNat - 48) else none

def isDigit (c : Char) : Bool := (digit? c).isSome

/-- `s.strip()`. -/
def strip (s : Str) : Str := ((s.dropWhile isSpace).reverse.dropWhile isSpace).reverse

/-- `s.split()`: maximal runs of non-space characters (second argument: the run being read). -/
def splitWs : Str → Str → List Str
  | [], cur => if cur = [] then [] else [cur]
  | c :: cs, cur =>
    if isSpace c then (if cur = [] then splitWs cs [] else cur :: splitWs cs [])
    else splitWs cs (cur ++ [c])

/-- `s.split(sep)` for a one-character separator (last argument: the piece being read). -/
def splitChar (sep : Char) : Str → Str → List Str
  | [], cur => [cur]
  | c :: cs, cur => if c = sep then cur :: splitChar sep cs [] else splitChar sep cs (cur ++ [c])

/-- `s.split('to')` (second argument: the piece being read). -/
def splitTo : Str → Str → List Str
  | [], cur => [cur]
  | 't' :: 'o' :: cs, cur => cur :: splitTo cs []
  | c :: cs, cur => splitTo cs (cur ++ [c])

/-- `'to' in s`. -/
def hasTo : Str → Bool
  | [] => false
  | [_] => false
  | c :: d :: cs => (c == 't' && d == 'o') || hasTo (d :: cs)

/-- Digits with single underscores between them, as `int` accepts; the flag says whether a digit was just read. -/
def natLit : Nat → Bool → Str → Option Nat
  | acc, prev, [] => if prev then some acc else none
  | acc, prev, c :: cs =>
    if c = '_' then (if prev then natLit acc false cs else none)
    else match digit? c with
      | some d => natLit (acc * 10 + d) true cs
      | none => none

/-- An optional sign and digits. -/
def signedLit : Str → Option Int
  | '-' :: t => (natLit 0 false t).map fun (n : Nat) => -(n : Int)
  | '+' :: t => (natLit 0 false t).map fun (n : Nat) => (n : Int)
  | t => (natLit 0 false t).map fun (n : Nat) => (n : Int)

/-- `int(s)`. -/
def pyInt (s : Str) : Py Int :=
  match signedLit (strip s) with
  | some z => .ok z
  | none => .error .valueError

/-- `str(n)` for a natural number (first argument: fuel). -/
def natStrAux : Nat → Nat → Str → Str
  | 0, _, acc => acc
  | fuel + 1, n, acc =>
    let acc := Char.ofNat (48 + n % 10) :: acc
    if n / 10 = 0 then acc else natStrAux fuel (n / 10) acc

def natStr (n : Nat) : Str := natStrAux (n + 1) n []

/-- `str(z)`. -/
def intStr (z : Int) : Str := if z < 0 then '-' :: natStr z.natAbs else natStr z.natAbs

/-- `str(Fraction)`. -/
def fracStr (f : ℚ) : Str := if f.den = 1 then intStr f.num else intStr f.num ++ '/' :: natStr f.den

/-- `s.replace(a, b)` for single characters. -/
def replaceChar (a b : Char) (s : Str) : Str := s.map fun c => if c = a then b else c

/-- `' '.join(l)`. -/
def joinSp : List Str → Str
  | [] => []
  | [s] => s
  | s :: t :: l => s ++ ' ' :: joinSp (t :: l)

/-! ### Parsing -/

/-- The part `(?:\((\d+)\))?` of the pattern in `src/utils/fractions.py:91`: the digits between parentheses, or nothing. -/
def repeatPart : Str → Str
  | '(' :: s => match s.dropWhile isDigit with
    | ')' :: _ => s.takeWhile isDigit
    | _ => []
  | _ => []

/-- `src/utils/fractions.py:89-95` `parse_decimal`. The pattern is `(\d*)\.(\d*)(?:\((\d+)\))?`; `re.match` only needs a
prefix, so what follows is ignored. `w or 0` is `0` for an empty `w`. -/
def parseDecimal (s : Str) : Py (Nat × Str × Str) :=
  let w := s.takeWhile isDigit
  match s.dropWhile isDigit with
  | '.' :: s1 =>
    let f := s1.takeWhile isDigit
    let r := repeatPart (s1.dropWhile isDigit)
    if w = [] then .ok (0, f, r)
    else do
      let n ← pyInt w
      return (n.toNat, f, r)
  | _ => .error .valueError

/-- `Fraction(a, b)`. -/
def mkFraction (a b : Int) : Py ℚ := if b = 0 then .error .zeroDivision else .ok ((a : ℚ) / (b : ℚ))

/-- `src/utils/fractions.py:102-103`: `numerator, denominator = s.split(slash)` and the quotient. -/
def parseRatio (slash : Char) (s : Str) : Py ℚ :=
  match splitChar slash s [] with
  | [a, b] => do
    let n ← pyInt a
    let d ← pyInt b
    mkFraction n d
  | _ => .error .valueError

/-- `src/utils/fractions.py:108-109`: `if s: res += Fraction(int(s), den)`. -/
def addDigits (x : ℚ) (s : Str) (den : Int) : Py ℚ :=
  if s = [] then .ok x
  else do
    let n ← pyInt s
    let q ← mkFraction n den
    return x + q

/-- `src/utils/fractions.py:97-110` `parse_fraction`. -/
def parseFraction (s : Str) : Py ℚ :=
  if '/' ∈ s then parseRatio '/' s
  else if '⧸' ∈ s then parseRatio '⧸' s
  else if '.' ∉ s then do
    let n ← pyInt s
    return (n : ℚ)
  else do
    let (w, f, r) ← parseDecimal s
    let x ← addDigits (w : ℚ) f (10 ^ f.length)
    addDigits x r (10 ^ f.length * (10 ^ r.length - 1))

/-- `src/utils/solver.py:35-50` (sources) and `52-70` (targets): the value loop over the remaining words. `none` is the
`return None, None` after an error message. The two copies differ on a final `Nx`: an `IndexError` for sources, a message
for targets. -/
def parseArgs (isTarget : Bool) : List Str → List ℚ → Py (Option (List ℚ))
  | [], acc => .ok (some acc)
  | s :: rest, acc =>
    if s.getLast? ≠ some 'x' then do
      let v ← parseFraction s
      parseArgs isTarget rest (acc ++ [v])
    else if s.length < 2 ∨ s.dropLast.all isDigit = false then .ok none
    else do
      let m ← pyInt s.dropLast
      match rest with
      | [] => if isTarget then .ok none else .error .indexError
      | u :: rest' => do
        let v ← parseFraction u
        parseArgs isTarget rest' (acc ++ List.replicate m.toNat v)

/-- `src/utils/solver.py:17-73` `parse_user_input`. `none` is `(None, None)`. -/
def parseUserInput (s : Str) : Py (Option (List ℚ × List ℚ)) :=
  if (splitChar ' ' s []).length < 3 ∨ hasTo s = false then .ok (some ([], []))
  else
    match splitTo s [] with
    | [a, b] =>
      let sourceArgs := splitWs (strip a) []
      let targetArgs := splitWs (strip b) []
      if sourceArgs = [] then .ok none
      else if targetArgs = [] then .ok none
      else do
        match ← parseArgs false sourceArgs [] with
        | none => return none
        | some sv =>
          match ← parseArgs true targetArgs [] with
          | none => return none
          | some tv => return some (sv, tv)
    | _ => .error .valueError

/-! ### Formatting -/

/-- `src/utils/fractions.py:49-53`: the loop producing `m` decimals. -/
def decimalDigits (den : Nat) : Nat → Nat → Str
  | 0, _ => []
  | m + 1, p => natStr (p * 10 / den) ++ decimalDigits den m (p * 10 % den)

/-- `src/utils/fractions.py:37-59`: the text of one value. -/
def valueStr (f : ℚ) : Str :=
  match decimalInfo f with
  | (true, some (m + 1)) =>
    intStr (Int.fdiv f.num f.den) ++ '.' :: decimalDigits f.den (m + 1) (f.num.natAbs % f.den)
  | _ => replaceChar '/' '⧸' (fracStr f)

/-- `src/utils/fractions.py:33-34` `with_count`. -/
def withCount (n : Nat) (s : Str) : Str := if 1 < n then natStr n ++ 'x' :: ' ' :: s else s

/-- `src/utils/fractions.py:23-87` `format_fractions`. -/
def formatFractions (fs : List ℚ) : Str := joinSp ((counter fs).map fun kv => withCount kv.2 (valueStr kv.1))

/-- `src/solver.py:62`: `problem_str`, which is also the name of the result directory. -/
def problemName (sources targets : List ℚ) : Str :=
  formatFractions sources ++ [' ', 't', 'o', ' '] ++ formatFractions targets

end Satis.Utils
