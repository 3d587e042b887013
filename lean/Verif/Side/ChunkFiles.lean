import Mathlib.Data.List.Basic
import Mathlib.Data.Int.Order.Basic

/-!
Model of `save_formatted_simulations` (tests/merger_simulation.py 211-240). A file is the list of the texts written to it, in order; `size` is
what `os.path.getsize` says of a file with these texts. The files are returned in the order of their numbers, starting with `_chunk_1`.
-/

namespace Satis.ChunkFiles

/-- tests/merger_simulation.py 212: `simulations if simulations else generate_simulations()`; an empty list counts as none given. -/
def chosen {σ : Type} (given : Option (List σ)) (generated : List σ) : List σ :=
  match given with
  | none => generated
  | some [] => generated
  | some l => l

/-- tests/merger_simulation.py 225-238: the loop; `closed` are the files closed so far, `cur` the open one. -/
def fill {τ : Type} (size : List τ → ℕ) (chunk : ℕ) : List τ → List (List τ) → List τ → List (List τ)
  | [], closed, cur => closed ++ [cur]
  | t :: ts, closed, cur =>
    if chunk ≤ size (cur ++ [t]) then fill size chunk ts (closed ++ [cur ++ [t]]) []
    else fill size chunk ts closed (cur ++ [t])

/-- tests/merger_simulation.py 211-240: the texts of the files written. -/
def save {σ τ : Type} (format : σ → τ) (size : List τ → ℕ) (chunk : ℤ) (given : Option (List σ)) (generated : List σ) : List (List τ) :=
  let sims := chosen given generated
  if chunk < 0 then [sims.map format]
  else fill size chunk.toNat (sims.map format) [] []

end Satis.ChunkFiles
