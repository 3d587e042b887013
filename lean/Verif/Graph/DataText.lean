import Verif.Graph.Save
import Verif.Utils.TextLemmas
/-!
# The text of the `.data` file (`src/node.py:71-91,101-118`)

Characters in place of the tuples of `Graph/Save.lean`: `str` of the tuples that `wrap` writes, and `ast.literal_eval`, `uuid.UUID`
and the building of nodes in `unwrap`.

Simplifications: of the literals of Python the reader knows whole numbers (without underscores), strings in single quotes without
escapes, `None`, lists and tuples (in parentheses); everything else is refused, comments too. `SyntaxError` is a `ValueError` here. The prefixes and braces
that `uuid.UUID` removes are not modelled.
-/

namespace Satis.Graph
open Satis Satis.Utils

/-- The values that are written. `fraction`: a `Fraction`, which is not a literal. -/
inductive PyVal
  | int (z : Int)
  | nothing
  | str (s : Str)
  | list (l : List PyVal)
  | tuple (l : List PyVal)
  | fraction (n : Int) (d : Nat)
  deriving Repr

/-! ### Writing -/

mutual
/-- `repr(v)`; strings are written without escapes (those written hold digits, letters and dashes only). -/
def reprVal : PyVal → Str
  | .int z => intStr z
  | .nothing => ['N', 'o', 'n', 'e']
  | .str s => '\'' :: (s ++ ['\''])
  | .list l => '[' :: (reprItems l ++ [']'])
  | .tuple l => '(' :: (reprItems l ++ (if l.length = 1 then [',', ')'] else [')']))
  | .fraction n d => ['F', 'r', 'a', 'c', 't', 'i', 'o', 'n', '('] ++ intStr n ++ ',' :: ' ' :: (natStr d ++ [')'])

/-- `', '.join(repr(v) for v in l)`. -/
def reprItems : List PyVal → Str
  | [] => []
  | v :: l => reprVal v ++ reprMore l

/-- The items after the first. -/
def reprMore : List PyVal → Str
  | [] => []
  | v :: l => ',' :: ' ' :: (reprVal v ++ reprMore l)
end

/-- The character of a hexadecimal digit. -/
def hexChar (d : Nat) : Char := if d < 10 then Char.ofNat (48 + d) else Char.ofNat (87 + d)

/-- `'%0kx' % n`: the last `k` hexadecimal digits. -/
def hexStr : Nat → Nat → Str
  | 0, _ => []
  | k + 1, n => hexStr k (n / 16) ++ [hexChar (n % 16)]

/-- `str(node_id)` of a `uuid.UUID`: 32 hexadecimal digits in groups of 8, 4, 4, 4 and 12. -/
def uuidStr (n : Uid) : Str :=
  let s := hexStr 32 n
  s.take 8 ++ '-' :: ((s.drop 8).take 4 ++ '-' :: ((s.drop 12).take 4 ++ '-' :: ((s.drop 16).take 4 ++ '-' :: s.drop 20)))

/-- An argument of a pending expansion: in the code it is an `int` or a `Fraction`; here whole numbers are `int`s. -/
def argVal (c : ℚ) : PyVal := if c.den = 1 then .int c.num else .fraction c.num c.den

/-- `src/node.py:77` `(code, args)`; the codes are in `src/node.py:238-239,369-370,457-458,480-481`. -/
def expandVal : Expand ℚ → PyVal
  | .extract c => .tuple [.int 0, .tuple [argVal c]]
  | .divide d => .tuple [.int 1, .tuple [.int d]]
  | .merge t => .tuple [.int 2, .tuple [.int t]]
  | .split c => .tuple [.int 3, .tuple [argVal c]]

/-- `node.level`. -/
def levelVal : Option Int → PyVal
  | none => .nothing
  | some l => .int l

/-- `src/node.py:71-78` `node_tuple` (a value that is an `int` is written as `(value, 1)`). -/
def dataVal (d : NodeData ℚ) : PyVal :=
  .tuple [.tuple [.int d.value.num, .int d.value.den], .str (uuidStr d.id), levelVal d.level,
    .list (d.parents.map fun i => .str (uuidStr i)), .list (d.children.map fun i => .str (uuidStr i)), .list (d.expands.map expandVal)]

/-- `",\n".join("\t" + str(out) for out in output)`. -/
def dataLines : List PyVal → Str
  | [] => []
  | [v] => '\t' :: reprVal v
  | v :: w :: l => '\t' :: (reprVal v ++ ',' :: '\n' :: dataLines (w :: l))

/-- `src/node.py:91`: the text of the file. -/
def dataText (data : List (NodeData ℚ)) : Str := ['[', '\n'] ++ dataLines (data.map dataVal) ++ ['\n', ']']

/-! ### Reading -/

/-- White space between the tokens of a literal. -/
def isBlank (c : Char) : Bool := c == ' ' || c == '\t' || c == '\n' || c == '\r' || c == '\x0c'

/-- White space is skipped. -/
def skip (s : Str) : Str := s.dropWhile isBlank

/-- A decimal number; none but zero begins with 0. -/
def readNat (s : Str) : Option (Nat × Str) :=
  let ds := s.takeWhile isDigit
  if ds = [] ∨ (ds.head? = some '0' ∧ ∃ c ∈ ds, c ≠ '0') then none
  else some (ds.foldl (fun a c => a * 10 + (digit? c).getD 0) 0, s.dropWhile isDigit)

/-- The rest of a string in single quotes; escapes and line ends are refused. -/
def readStr : Str → Option (Str × Str)
  | [] => none
  | c :: s =>
    if c = '\'' then some ([], s)
    else if c = '\\' ∨ c = '\n' then none
    else (readStr s).map fun x => (c :: x.1, x.2)

mutual
/-- One literal; the result with what follows it. -/
def readVal : Nat → Str → Option (PyVal × Str)
  | 0, _ => none
  | fuel + 1, s =>
    match s with
    | [] => none
    | c :: r =>
      if c = '[' then (readItems fuel ']' r).map fun x => (.list x.1, x.2.2)
      else if c = '(' then (readItems fuel ')' r).map fun x =>
        match x with
        | ([v], false, r') => (v, r')
        | (l, _, r') => (.tuple l, r')
      else if c = '\'' then (readStr r).map fun x => (.str x.1, x.2)
      else if c = '-' then (readNat (skip r)).map fun x => (.int (-(x.1 : Int)), x.2)
      else if c = 'N' then (if r.take 3 = ['o', 'n', 'e'] then some (.nothing, r.drop 3) else none)
      else (readNat (c :: r)).map fun x => (.int x.1, x.2)

/-- Literals, separated by commas, up to the closing bracket; whether there was a comma, and what follows. -/
def readItems : Nat → Char → Str → Option (List PyVal × Bool × Str)
  | 0, _, _ => none
  | fuel + 1, close, s =>
    match skip s with
    | [] => none
    | c :: r =>
      if c = close then some ([], false, r)
      else
        match readVal fuel (c :: r) with
        | none => none
        | some (v, r) =>
          match skip r with
          | [] => none
          | d :: r =>
            if d = close then some ([v], false, r)
            else if d = ',' then (readItems fuel close r).map fun x => (v :: x.1, true, x.2.2)
            else none
end

/-- `ast.literal_eval(s)`. -/
def literalEval (s : Str) : Py PyVal :=
  match readVal (s.length + 1) (s.dropWhile fun c => c == ' ' || c == '\t') with
  | none => .error .valueError
  | some (v, r) => if skip r = [] then .ok v else .error .valueError

/-- The value of a hexadecimal digit. -/
def hexDigit? (c : Char) : Option Nat :=
  if 48 ≤ c.toNat ∧ c.toNat ≤ 57 then some (c.toNat - 48)
  else if 97 ≤ c.toNat ∧ c.toNat ≤ 102 then some (c.toNat - 87)
  else if 65 ≤ c.toNat ∧ c.toNat ≤ 70 then some (c.toNat - 55)
  else none

/-- `int(s, 16)` for digits only. -/
def hexNat (s : Str) : Option Nat := s.foldlM (fun a c => (hexDigit? c).map fun d => a * 16 + d) 0

/-- `uuid.UUID(s)`. -/
def readUuid (s : Str) : Py Uid :=
  let t := s.filter (· ≠ '-')
  if t.length ≠ 32 then .error .valueError
  else match hexNat t with
    | none => .error .valueError
    | some n => .ok n

/-- A tuple of the file, as far as `unwrap` takes it apart: the ids are texts. -/
structure TextData where
  value : ℚ
  id : Str
  level : Option Int
  parents : List Str
  children : List Str
  expands : List (Expand ℚ)
  deriving DecidableEq

/-- A text in a list of ids. -/
def textOf : PyVal → Py Str
  | .str s => .ok s
  | _ => .error .valueError

/-- `src/node.py:93-99,116` `expand_from_code`: only the four codes with one whole argument are taken. -/
def expandOf : PyVal → Py (Expand ℚ)
  | .tuple [.int code, .tuple [.int z]] =>
    if code = 0 then .ok (.extract z)
    else if code = 1 then (if 0 ≤ z then .ok (.divide z.toNat) else .error .valueError)
    else if code = 2 then (if 0 ≤ z then .ok (.merge z.toNat) else .error .valueError)
    else if code = 3 then .ok (.split z)
    else .error .valueError
  | _ => .error .valueError

/-- `node.level`. -/
def levelOf : PyVal → Py (Option Int)
  | .nothing => .ok none
  | .int l => .ok (some l)
  | _ => .error .valueError

/-- `src/node.py:109-110,112`: the parts of a tuple; `Fraction(value[0], value[1])`. -/
def tupleOf : PyVal → Py TextData
  | .tuple [.tuple [.int n, .int d], .str id, level, .list parents, .list children, .list expands] =>
    if d = 0 then .error .zeroDivision
    else do
      let level ← levelOf level
      let parents ← parents.mapM textOf
      let children ← children.mapM textOf
      let expands ← expands.mapM expandOf
      return ⟨(n : ℚ) / d, id, level, parents, children, expands⟩
  | _ => .error .valueError

/-- `src/node.py:109-110`: `node_map[node_id] = Node(…, node_id=uuid.UUID(node_id), …)`. -/
def textNodes (h : Heap ℚ) (map : Dict Str Addr) : List TextData → Py (Heap ℚ × Dict Str Addr)
  | [] => .ok (h, map)
  | d :: ds => do
    let i ← readUuid d.id
    let (h, a) ← newNode h d.value [] (some i) d.level
    textNodes h (map.set d.id a) ds

/-- `[node_map[i] for i in ids]`. -/
def findTexts (map : Dict Str Addr) : List Str → Py (List Addr)
  | [] => .ok []
  | i :: is =>
    match map.get? i with
    | none => .error .keyError
    | some a => do
      let as ← findTexts map is
      return a :: as

/-- `src/node.py:112-116`: the links and the pending expansions. -/
def textLinks (map : Dict Str Addr) (h : Heap ℚ) : List TextData → Py (Heap ℚ)
  | [] => .ok h
  | d :: ds =>
    match map.get? d.id with
    | none => .error .keyError
    | some a => do
      let ps ← findTexts map d.parents
      let cs ← findTexts map d.children
      textLinks map (h.modify a fun o => { o with parents := ps, children := cs, expands := d.expands }) ds

/-- `src/node.py:101-118` `unwrap(path)` for a file with the text `s`. -/
def unwrapText (h : Heap ℚ) (s : Str) : Py (Heap ℚ × List Addr) := do
  match ← literalEval s with
  | .list l =>
    let data ← l.mapM tupleOf
    let (h, map) ← textNodes h [] data
    let h ← textLinks map h data
    return (h, (map.map fun e => e.2).filter fun a => decide ((h.get a).level = some 0))
  | _ => .error .valueError

end Satis.Graph
