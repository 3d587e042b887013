import Verif.Py
import Verif.Sorted
import Mathlib.Data.Rat.Defs
import Mathlib.Algebra.Order.Ring.Rat
import Mathlib.Algebra.Field.Rat

/-!
Model of the simulation at the top of `tests/merger_simulation.py` (lines 1-62): items arrive on belts with small buffers, and a merger takes
the next one from a belt chosen at random.

A conveyor is its number in the list `inputs + [output]`, the output is the last. The random choices are an arbitrary function.
-/

namespace Satis.RandomMerging

/-- tests/merger_simulation.py 9-14 `Conveyor`; the buffers are kept apart, `symbol` is the number of the conveyor. -/
structure Conveyor where
  speed : ℕ
  bufferSize : ℕ
  deriving DecidableEq, Repr

/-- tests/merger_simulation.py 29-30: `for n in range(1, n_items << 2)`: the times at which the conveyor number `c` moves an item. -/
def moments (nItems : ℕ) (c : ℕ × ℕ) : List (ℚ × ℕ) := (List.range' 1 (nItems * 4 - 1)).map fun n : ℕ => ((60 * (n : ℚ)) / (c.1 : ℚ), c.2)

/-- tests/merger_simulation.py 27-31: `r`, the moves of all conveyors, inserted one after the other with `insort(…, key=lambda x: x[0])`. -/
def schedule (nItems : ℕ) (cs : List Conveyor) : List (ℚ × ℕ) :=
  insortAll Prod.fst [] ((cs.map Conveyor.speed).zipIdx.flatMap (moments nItems))

/-- tests/merger_simulation.py 49: `[inp for inp in inputs if inp.buffer > 0]`, as numbers. -/
def available (buffers : List ℕ) : List ℕ := (List.range buffers.length).filter fun i => decide (0 < buffers.getD i 0)

/-- tests/merger_simulation.py 34-56: one simulation from the moves `r[i:]` on; `out` are the numbers of the inputs, `buffers` those of the
inputs. `random.choice` takes the element number `pick (len(r) - i)` of the available inputs. -/
def play (cs : List Conveyor) (speed nItems : ℕ) (pick : ℕ → ℕ) : List (ℚ × ℕ) → List ℕ → List ℕ → Py (List ℕ × List ℕ)
  | r, buffers, out =>
    if out.length = nItems then .ok (buffers, out)
    else match r with
      | [] => .error .indexError
      | e :: rest =>
        match cs[e.2]? with
        | none => .error .indexError
        | some c =>
          if c.speed = speed then
            match available buffers with
            | [] => play cs speed nItems pick rest buffers out
            | a :: as =>
              let i := (a :: as).getD (pick rest.length % (as.length + 1)) a
              play cs speed nItems pick rest (buffers.set i (buffers.getD i 0 - 1)) (out ++ [i])
          else if buffers.getD e.2 0 < c.bufferSize then play cs speed nItems pick rest (buffers.set e.2 (buffers.getD e.2 0 + 1)) out
          else play cs speed nItems pick rest buffers out

/-- tests/merger_simulation.py 33-60: all simulations, one after the other; the buffers are not emptied in between. The result are the
sequences `out`. -/
def playAll (cs : List Conveyor) (speed nItems : ℕ) (pick : ℕ → ℕ → ℕ) : ℕ → List ℕ → Py (List (List ℕ))
  | 0, _ => .ok []
  | n + 1, buffers => do
    let x ← play cs speed nItems (pick n) (schedule nItems cs) buffers []
    let outs ← playAll cs speed nItems pick n x.1
    return x.2 :: outs

/-- tests/merger_simulation.py 7, 21-22: the conveyors, the output last. -/
def conveyors : List Conveyor := [⟨120, 1⟩, ⟨270, 2⟩, ⟨480, 3⟩, ⟨780, 1⟩]

/-- tests/merger_simulation.py 15, 33, 58-60: `g_counts`, `r_counts` and `b_counts` after `n` simulations, by the number of the input. -/
def counts (outs : List (List ℕ)) (i : ℕ) : ℕ := (outs.map fun out => out.count i).sum

end Satis.RandomMerging
