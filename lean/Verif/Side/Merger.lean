import Verif.Py
import Mathlib.Data.Rat.Defs
import Mathlib.Algebra.Order.Ring.Unbundled.Rat
import Mathlib.Data.List.Sort

/-!
Model of the simulated merger in `tests/merger_simulation.py` 75-179.

Speeds are positive integers.  `simulations`, `n_items`, `min_input_speed` and `last_used` are never read and left out.
An input object is in the list exactly once, so the record stands for the object.
-/

namespace Satis.Merging

/-- tests/merger_simulation.py 75-83 `Input`; `rate` is `speed / 60`. -/
structure Input where
  speed : ℕ
  stock : ℚ
  history : List ℕ
  symbol : Char
  deriving DecidableEq, Repr

/-- tests/merger_simulation.py 76-83 `Input.__init__`. -/
def Input.new (speed : ℕ) (symbol : Char) : Input := ⟨speed, 0, [], symbol⟩

/-- tests/merger_simulation.py 92-95 `Input.reset`. -/
def Input.reset (i : Input) : Input := { i with stock := 0, history := [] }

/-- tests/merger_simulation.py 97-106 `Merger`; speed 0: not set. -/
structure Merger where
  speed : ℕ
  inputs : List Input
  buffers : List ℕ
  step : ℕ
  deriving DecidableEq, Repr

/-- `sorted(inputs, key=lambda inp: inp.speed)` (stable). -/
def bySpeed (l : List Input) : List Input := l.insertionSort (fun a b => a.speed ≤ b.speed)

/-- tests/merger_simulation.py 98-106 `Merger.__init__`. -/
def Merger.new (inputs : List Input) : Merger := ⟨0, bySpeed inputs, List.replicate inputs.length 0, 0⟩

/-- tests/merger_simulation.py 108-112 `Merger.set_speed`. -/
def Merger.setSpeed (m : Merger) (speed : ℕ) : Merger := { m with speed := speed }

/-- tests/merger_simulation.py 117-121 `Merger.reset`: the buffers and the order of the inputs stay. -/
def Merger.reset (m : Merger) : Merger := { m with step := 0, inputs := m.inputs.map Input.reset }

/-- tests/merger_simulation.py 129-133: what an input receives in one step, with its buffer. -/
def arrive (speed : ℕ) (i : Input) (b : ℕ) : Input × ℕ :=
  let stock := i.stock + (i.speed / 60 : ℚ) * (60 / speed : ℚ)
  if stock < 1 then ({ i with stock := stock }, b)
  else ({ i with stock := stock - 1 }, if b < 3 then b + 1 else b)

/-- tests/merger_simulation.py 136-142: the first index with something in its buffer. -/
def firstReady (buffers : List ℕ) : Option ℕ := buffers.findIdx? (fun b => b ≠ 0)

/-- tests/merger_simulation.py 146: `inputs.append(inputs.pop(i))` -/
def toEnd (l : List Input) (i : ℕ) (x : Input) : List Input := l.eraseIdx i ++ [x]

/-- tests/merger_simulation.py 147: `buffers[i], buffers[-1] = buffers[-1], buffers[i]` -/
def swapLast (l : List ℕ) (i : ℕ) : List ℕ :=
  let a := l.getD i 0
  let b := l.getD (l.length - 1) 0
  (l.set i b).set (l.length - 1) a

/-- tests/merger_simulation.py 128-148: one step of `simulate`. -/
def Merger.tick (m : Merger) : Merger :=
  let pairs := List.zipWith (arrive m.speed) m.inputs m.buffers
  let inputs := pairs.map Prod.fst
  let buffers := pairs.map Prod.snd
  match firstReady buffers with
  | none => { m with inputs := inputs, buffers := buffers }
  | some i =>
    match inputs[i]? with
    | none => { m with inputs := inputs, buffers := buffers }
    | some x =>
      let x := { x with history := x.history ++ [m.step + 1] }
      let buffers := buffers.set i (buffers.getD i 0 - 1)
      { m with step := m.step + 1, inputs := toEnd inputs i x, buffers := swapLast buffers i }

/-- tests/merger_simulation.py 123-150 `Merger.simulate`; `none`: raised because no speed is set. -/
def Merger.simulate (m : Merger) (steps : ℕ) : Option Merger :=
  if m.speed = 0 then none else some (Merger.tick^[steps] m)

/-- tests/merger_simulation.py 152-160 `Merger.stabilize_effective_rates` for a merger with a speed; `none`: not finished
with this fuel. -/
def Merger.stabilize : ℕ → Merger → Option Merger
  | 0, m => if m.step < m.speed then none else some m
  | fuel + 1, m => if m.step < m.speed then stabilize fuel m.tick else some m

/-- tests/merger_simulation.py 163-164 `Merger.get_current_effective_rates`. -/
def Merger.rates (m : Merger) : List ℕ := (bySpeed m.inputs).map (fun i => i.history.length)

/-- tests/merger_simulation.py 173-178: the first input whose next item left at step `i`; `js` are the inputs with
their indices. -/
def nextItem (i : ℕ) : List (Input × ℕ) → Option Char × List (Input × ℕ)
  | [] => (none, [])
  | (x, k) :: js =>
    if k < x.history.length ∧ x.history[k]? = some i then (some x.symbol, (x, k + 1) :: js)
    else
      let r := nextItem i js
      (r.1, (x, k) :: r.2)

/-- tests/merger_simulation.py 172-178; the steps still to come. -/
def sequenceFrom : List ℕ → List (Input × ℕ) → List Char
  | [], _ => []
  | i :: is, js =>
    let r := nextItem i js
    r.1.toList ++ sequenceFrom is r.2

/-- tests/merger_simulation.py 169-179 `Merger.generate_sequence`. -/
def Merger.sequence (m : Merger) : List Char :=
  sequenceFrom (List.range' 1 m.step) (m.inputs.map (fun i => (i, 0)))

/-- tests/merger_simulation.py 189-195: the rows of `generate_simulations` for one `x`, one after the other with the
same merger; `ys` are the speeds still to come. -/
def simulations (fuel : ℕ) : List ℕ → Merger → Option (List (List ℕ))
  | [], _ => some []
  | y :: ys, m => do
    let m ← (m.reset.setSpeed y).stabilize fuel
    let rest ← simulations fuel ys m
    some (m.rates :: rest)

/-- tests/merger_simulation.py 181-201 `generate_simulations`, for one `x` (`limit` is 1200); the rows without `x`, `limit`
and `y`. -/
def generateFor (fuel limit x : ℕ) : Option (List (List ℕ)) :=
  simulations fuel (List.range' (x + 1) (min (x + limit) (limit + 1) - (x + 1)))
    (Merger.new [Input.new x 'x', Input.new limit 'l'])

/-- tests/merger_simulation.py 203-209 `generate_simulation`. -/
def generateOne (fuel : ℕ) (speeds : List ℕ) (output : ℕ) : Option Merger :=
  ((Merger.new (speeds.map (fun v => Input.new v 'i'))).setSpeed output).stabilize fuel

end Satis.Merging
