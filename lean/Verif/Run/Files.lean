import Mathlib.Tactic.Common
import Mathlib.Data.List.Basic
import Mathlib.Data.List.Sort
/-!
# The files of a run, and the command history

File names are lists of characters.

Simplified: the directory is the list of its entries, without their contents. `os.remove` succeeds (an entry with a matching name that
is a directory would make it raise).
-/

namespace Satis.Files

/-- The constructs of a regular expression that `config.solution_regex` uses. `set` is one character of a set, `some` one or more
characters of a set. -/
inductive Rx
  | set (p : Char → Bool)
  | some (p : Char → Bool)
  | eps
  | seq (a b : Rx)
  | alt (a b : Rx)

/-- A literal text. -/
def Rx.lit : List Char → Rx
  | [] => .eps
  | c :: cs => .seq (.set (· = c)) (Rx.lit cs)

/-- A greedy run of characters of a set, then `k`, with backtracking. -/
def runSome (p : Char → Bool) (k : List Char → Bool) : List Char → Bool
  | [] => false
  | c :: cs => p c && (runSome p k cs || k cs)

/-- Python's backtracking matcher at a position: does the pattern match a prefix of the text whose rest `k` accepts? -/
def run : Rx → (List Char → Bool) → List Char → Bool
  | .set p, k, s => match s with
    | [] => false
    | c :: cs => p c && k cs
  | .some p, k, s => runSome p k s
  | .eps, k, s => k s
  | .seq a b, k, s => run a (fun s' => run b k s') s
  | .alt a b, k, s => run a k s || run b k s

/-- `Pattern.match`: the pattern matches a prefix of the text. -/
def isMatch (r : Rx) (s : List Char) : Bool := run r (fun _ => true) s

/-- The text `solution`. -/
def solutionText : List Char := ['s', 'o', 'l', 'u', 't', 'i', 'o', 'n']

/-- The text `_expanded`. -/
def expandedText : List Char := ['_', 'e', 'x', 'p', 'a', 'n', 'd', 'e', 'd']

/-- The text `.png`. -/
def pngText : List Char := ['.', 'p', 'n', 'g']

/-- The text `.data`. -/
def dataText : List Char := ['.', 'd', 'a', 't', 'a']

/-- `config.py:41` `solution\d+(?:_expanded)?\.(?:png|data)`. `digit` is `\d`, which for a `str` pattern also holds for digits of other
scripts. -/
def solutionRegex (digit : Char → Bool) : Rx :=
  .seq (.lit solutionText) (.seq (.some digit) (.seq (.alt (.lit expandedText) .eps)
    (.seq (.lit ['.']) (.alt (.lit ['p', 'n', 'g']) (.lit ['d', 'a', 't', 'a'])))))

/-- `src/solver.py:380-383` `clear_solution_files`: what is left of the directory. -/
def clear (digit : Char → Bool) (dir : List (List Char)) : List (List Char) :=
  dir.filter fun f => !isMatch (solutionRegex digit) f

/-- The decimal digits of a number, as in a Python f-string. -/
def decimal (i : Nat) : List Char := Nat.toDigits 10 i

/-- `config.py:39` `solutions_filename`. -/
def solutionsFilename (i : Nat) : List Char := solutionText ++ decimal i

/-- `src/node.py:576-581`: the two files written by `Node.save`; the extension is `config.py:40`. -/
def nodeSave (filename : List Char) : List (List Char) := [filename ++ pngText, filename ++ dataText]

/-- `src/tree.py:83-86`: the files written by `Tree.save`, in the order of writing. -/
def treeSave (filename : List Char) : List (List Char) := nodeSave filename ++ nodeSave (filename ++ expandedText)

/-- `src/solver.py:395-406`: the files written by `conclude` for `n` solutions. -/
def written (n : Nat) : List (List Char) := (List.range n).flatMap fun i => treeSave (solutionsFilename i)

/-- Writing a file. -/
def write (dir : List (List Char)) (f : List Char) : List (List Char) := if f ∈ dir then dir else dir ++ [f]

/-- `src/solver.py:391-407`: the directory after `conclude` with `n` solutions, when the flag is not cleared. `none` is a directory that
does not exist. Without solutions nothing is touched (`src/solver.py:388-390`). -/
def conclude (digit : Char → Bool) (dir : Option (List (List Char))) (n : Nat) : Option (List (List Char)) :=
  if n = 0 then dir else some ((written n).foldl write (match dir with
    | none => []
    | some d => clear digit d))

/-! ## The history -/

/-- `prompt_toolkit`'s `InMemoryHistory`: `_storage`, oldest first, and `_loaded_strings`, newest first. -/
structure History where
  storage : List (List Char)
  loaded : List (List Char)
  isLoaded : Bool
  deriving DecidableEq, Repr

/-- `History.__init__`. -/
def History.empty : History := ⟨[], [], false⟩

/-- `string.replace('⧸', '/')`. -/
def normalise (s : List Char) : List Char := s.map fun c => if c = '⧸' then '/' else c

/-- `src/utils/cli.py:5-10` `append_string`. `list.remove` takes out the first occurrence; `store_string` appends to `_storage`. -/
def History.append (h : History) (string : List Char) : History :=
  let string := normalise string
  let storage := if string ∈ h.storage then h.storage.erase string else h.storage
  let loaded := if string ∈ h.loaded then h.loaded.erase string else h.loaded
  { h with storage := storage ++ [string], loaded := string :: loaded }

/-- `prompt_toolkit`'s `History.load`, which `prompt` calls: the first time, `_loaded_strings` is rebuilt from `_storage`, newest
first. -/
def History.load (h : History) : History :=
  if h.isLoaded then h else { h with loaded := h.storage.reverse, isLoaded := true }

/-- What happens to the history: a command is appended, or a prompt is shown. -/
inductive Use
  | append (string : List Char)
  | prompt

/-- One use. -/
def History.use (h : History) : Use → History
  | .append s => h.append s
  | .prompt => h.load

/-- The history after a sequence of uses. -/
def history (l : List Use) : History := l.foldl History.use History.empty

/-- `src/utils/cli.py:25-29` and `21-22`: the uses before the first prompt; `dirs` are the entries of the current directory with their
times, those that are directories and have `to` in their name are sorted by time. -/
def recent (dirs : List (List Char × Bool × Int)) : List Use :=
  (((dirs.filter fun d => d.2.1 && d.1.tails.any fun t => ['t', 'o'].isPrefixOf t).insertionSort (fun a b => a.2.2 ≤ b.2.2)).map (·.1)).map .append

end Satis.Files
