import Mathlib.Data.List.Basic
import Mathlib.Data.Int.Order.Basic

/-!
Model of `tests/combinations.c`, the C routine that lists the ways to take `r` values out of an array.

Memory is explicit: arrays are lists of a fixed length, reading or writing outside of them is `CErr.oob`, signed
overflow is `CErr.overflow`.  Lengths and indices that the callers only pass as non-negative numbers are `ℕ`.
-/

namespace Satis.Comb

/-- What undefined behaviour of C is reported as. -/
inductive CErr
  /-- access outside of an array -/
  | oob
  /-- signed overflow -/
  | overflow
  deriving DecidableEq, Repr

/-- C computations: a result or undefined behaviour. -/
abbrev CM (α : Type) := Except CErr α

/-- `INT_MAX` of a 32 bit `int`. -/
def intMax : ℤ := 2147483647

/-- `INT_MIN` of a 32 bit `int`. -/
def intMin : ℤ := -2147483648

/-- The result of signed arithmetic: outside of the range of `int` it is undefined behaviour. -/
def checked (z : ℤ) : CM ℤ := if intMin ≤ z ∧ z ≤ intMax then .ok z else .error .overflow

/-- `a[i]` -/
def rd (a : List ℤ) (i : ℕ) : CM ℤ := if i < a.length then .ok (a.getD i 0) else .error .oob

/-- `a[i] = v` -/
def wr (a : List ℤ) (i : ℕ) (v : ℤ) : CM (List ℤ) := if i < a.length then .ok (a.set i v) else .error .oob

/-- `MAX_N`, tests/combinations.c 6. -/
def maxN : ℕ := 2 ^ 16

/-- `MAX_R`, tests/combinations.c 7. -/
def maxR : ℕ := 3

/-- tests/combinations.c 15-17, the inner loop: `for (j = min(i, r); j > 0; j--) C[j] += C[j - 1];` -/
def pascalRow (r i : ℕ) (C : List ℤ) : CM (List ℤ) :=
  (List.range' 1 (min i r)).reverse.foldlM (fun C j => do
    let a ← rd C j
    let b ← rd C (j - 1)
    let s ← checked (a + b)
    wr C j s) C

/-- tests/combinations.c 11-20 `binomial_coefficient`.  `C` is the global array, of length `MAX_R + 1`; it is
returned with the result. -/
def binomialCoefficient (C : List ℤ) (r n : ℕ) : CM (List ℤ × ℤ) := do
  let C ← (List.range (r + 1)).foldlM (fun C i => wr C i 0) C
  let C ← wr C 0 1
  let C ← (List.range' 1 n).foldlM (fun C i => pascalRow r i C) C
  let v ← rd C r
  pure (C, v)

/-- tests/combinations.c 43-47, the body of the loops of `sort_combination`. -/
def exchange (i : ℕ) (c : List ℤ) (j : ℕ) : CM (List ℤ) := do
  let a ← rd c i
  let b ← rd c j
  if a > b then do
    let c ← wr c i b
    wr c j a
  else pure c

/-- tests/combinations.c 40-50 `sort_combination`. -/
def sortCombination (c : List ℤ) (r : ℕ) : CM (List ℤ) :=
  (List.range (r - 1)).foldlM (fun c i => (List.range' (i + 1) (r - (i + 1))).foldlM (exchange i) c) c

/-- tests/combinations.c 54-60, the inner loop of `is_duplicate`: is row `i` the combination?  `js` are the values of
`j` still to look at. -/
def sameRow (all : List ℤ) (r : ℕ) (cur : List ℤ) (i : ℕ) : List ℕ → CM Bool
  | [] => pure true
  | j :: js => do
    let a ← rd all (i * r + j)
    let b ← rd cur j
    if a ≠ b then pure false else sameRow all r cur i js

/-- tests/combinations.c 52-64 `is_duplicate`.  `is` are the values of `i` still to look at. -/
def duplicateIn (all : List ℤ) (r : ℕ) (cur : List ℤ) : List ℕ → CM Bool
  | [] => pure false
  | i :: is => do
    if ← sameRow all r cur i (List.range r) then pure true else duplicateIn all r cur is

/-- tests/combinations.c 52-64 `is_duplicate`. -/
def isDuplicate (all : List ℤ) (count r : ℕ) (cur : List ℤ) : CM Bool :=
  duplicateIn all r cur (List.range count)

/-- The caller's buffers and the number of combinations in them: `all_combinations`, `all_combinations_sum`, `cur`. -/
structure Out where
  all : List ℤ
  sums : List ℤ
  count : ℕ
  deriving DecidableEq, Repr

/-- tests/combinations.c 80-90 and 147-157: a complete combination `cur` is sorted, and stored unless it is already
there.  The sorted array is returned too: `old_generate_combinations` goes on with it. -/
def emit (r : ℕ) (o : Out) (cur : List ℤ) : CM (Out × List ℤ) := do
  let cur ← sortCombination cur r
  if ← isDuplicate o.all o.count r cur then pure (o, cur)
  else do
    let sums ← wr o.sums o.count 0
    let (all, sums) ← (List.range r).foldlM (fun (p : List ℤ × List ℤ) i => do
      let tmp ← rd cur i
      let k ← checked (o.count * r + i)
      let all ← wr p.1 k.toNat tmp
      let s ← rd p.2 o.count
      let s ← checked (s + tmp)
      let sums ← wr p.2 o.count s
      pure (all, sums)) (o.all, sums)
    pure (⟨all, sums, o.count + 1⟩, cur)

/-- tests/combinations.c 129-133 `struct Stack`; `cur` has length `MAX_R`. -/
structure Frame where
  start : ℕ
  index : ℕ
  cur : List ℤ
  deriving DecidableEq, Repr

/-- The local variables of `combinations`; the top of the stack comes first. -/
structure St where
  stack : List Frame
  out : Out
  deriving DecidableEq, Repr

/-- `stack[++stack_top] = f`, the array has `MAX_N` entries. -/
def push (stack : List Frame) (f : Frame) : CM (List Frame) :=
  if stack.length < maxN then .ok (f :: stack) else .error .oob

/-- tests/combinations.c 162-166, the loop that pushes the continuations of a frame.  `is` are the values of `i`. -/
def pushAll (values : List ℤ) (start index : ℕ) : List ℕ → List ℤ → List Frame → CM (List Frame)
  | [], _, stack => pure stack
  | i :: is, cur, stack => do
    let v ← rd values i
    let cur ← wr cur index v
    let stack ← push stack ⟨i + 1, index + 1, cur⟩
    pushAll values start index is cur stack

/-- tests/combinations.c 144-166, one iteration of the loop, for the frame on top of the stack. -/
def visit (values : List ℤ) (n r : ℕ) (f : Frame) (rest : List Frame) (o : Out) : CM St := do
  if f.index = r then do
    let (o, _) ← emit r o f.cur
    pure ⟨rest, o⟩
  else do
    let stack ← pushAll values f.start f.index (List.range' f.start (n - f.start)) f.cur rest
    pure ⟨stack, o⟩

/-- tests/combinations.c 139-167, the loop; `none`: not finished with this fuel. -/
def loop (values : List ℤ) (n r : ℕ) : ℕ → St → CM (Option Out)
  | _, ⟨[], o⟩ => pure (some o)
  | 0, ⟨_ :: _, _⟩ => pure none
  | fuel + 1, ⟨f :: rest, o⟩ => do
    let s ← visit values n r f rest o
    loop values n r fuel s

/-- tests/combinations.c 126-170 `combinations`.  The buffers are the caller's, the result is the number of
combinations stored in them. -/
def combinations (fuel : ℕ) (values : List ℤ) (n r : ℕ) (all sums : List ℤ) : CM (Option Out) :=
  loop values n r fuel ⟨[⟨0, 0, List.replicate maxR 0⟩], ⟨all, sums, 0⟩⟩

/-- tests/combinations.c 94-98, the loop; `is` are the values of `i` still to come, `call` is the recursive call. -/
def oldLoop (values : List ℤ) (index : ℕ) (call : List ℤ → Out → CM (List ℤ × Out)) :
    List ℕ → List ℤ → Out → CM (List ℤ × Out)
  | [], cur, o => pure (cur, o)
  | i :: is, cur, o => do
    let v ← rd values i
    let cur ← wr cur index v
    let (cur, o) ← call cur o
    oldLoop values index call is cur o

/-- tests/combinations.c 66-99 `old_generate_combinations`, by recursion on `r - index`.  `cur` is the one array
shared by all calls: it is returned as the call leaves it. -/
def oldGenerate (values : List ℤ) (n r : ℕ) : ℕ → ℕ → ℕ → List ℤ → Out → CM (List ℤ × Out)
  | 0, _, _, cur, o => do
    let (o, cur) ← emit r o cur
    pure (cur, o)
  | k + 1, start, index, cur, o =>
    oldLoop values index (oldGenerate values n r k (start + 1) (index + 1)) (List.range' start (n - start)) cur o

/-- tests/combinations.c 101-122 `old_combinations`.  `int cur_combination[r]` is not initialised: its contents are
the parameter `junk`. -/
def oldCombinations (junk : List ℤ) (values : List ℤ) (n r : ℕ) (all sums : List ℤ) : CM Out := do
  let (_, o) ← oldGenerate values n r r 0 0 junk ⟨all, sums, 0⟩
  pure o

end Satis.Comb
