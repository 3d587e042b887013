import Verif.Py
import Mathlib.Algebra.Order.Ring.Int
import Mathlib.Data.List.Basic

/-!
Model of `tests/analyze_merger.py`: which items pass one point of a video, and the share of each belt.

A channel is a natural number (in a frame: at most 255). The distances are compared by their squares: `np.linalg.norm` takes the square root,
which keeps the order. The file is a list of pixels, the one at the chosen point of each frame. The loop in lines 54-63 is not reached: line 52
is `exit(0)`.
-/

namespace Satis.Video

/-- tests/analyze_merger.py 4-7: the colours. -/
inductive Colour
  | black
  | r
  | g
  | b
  deriving DecidableEq, Repr

/-- tests/analyze_merger.py 5-9 `reference_colors`, with their coordinates. -/
def references : List (Colour × (ℤ × ℤ × ℤ)) := [(.r, (255, 0, 0)), (.g, (0, 255, 0)), (.b, (0, 0, 255))]

/-- tests/analyze_merger.py 16 `np.linalg.norm(reference_colors - color)`, squared. -/
def distance (p q : ℤ × ℤ × ℤ) : ℤ := (p.1 - q.1) ^ 2 + (p.2.1 - q.2.1) ^ 2 + (p.2.2 - q.2.2) ^ 2

/-- tests/analyze_merger.py 17 `np.argmin`: the first one at the least distance. -/
def nearest (p : ℤ × ℤ × ℤ) : List (Colour × (ℤ × ℤ × ℤ)) → Colour × (ℤ × ℤ × ℤ) → Colour
  | [], best => best.1
  | q :: qs, best => nearest p qs (if distance q.2 p < distance best.2 p then q else best)

/-- tests/analyze_merger.py 11-17 `closest_color`. -/
def closestColor (r g b : ℕ) : Colour :=
  if r < 10 ∧ g < 10 ∧ b < 10 then .black
  else match references with
    | [] => .black
    | q :: qs => nearest (r, g, b) qs q

/-- A pixel of a frame: blue, green, red (line 30). -/
structure Pixel where
  b : ℕ
  g : ℕ
  r : ℕ
  deriving DecidableEq, Repr

/-- tests/analyze_merger.py 24-34: the colours yielded by `extract_and_filter_colors`, given the previous one. -/
def filterColours (previous : Option Colour) : List Pixel → List Colour
  | [] => []
  | p :: ps =>
    let current := closestColor p.r p.g p.b
    if some current ≠ previous then current :: filterColours (some current) ps else filterColours previous ps

/-- tests/analyze_merger.py 54-61: one more letter, if the colour is not black. -/
def letter (out : List Char) : Colour → List Char
  | .black => out
  | .r => out ++ ['r']
  | .g => out ++ ['g']
  | .b => out ++ ['b']

/-- tests/analyze_merger.py 54-63: `out` after the video. -/
def analyze (out : List Char) (frames : List Pixel) : List Char := (filterColours none frames).foldl letter out

/-- tests/analyze_merger.py 48-50: `(out.count(c) * 780) // len(out)`. -/
def share (out : List Char) (c : Char) : Py ℕ :=
  if out.length = 0 then .error .zeroDivision else .ok (out.count c * 780 / out.length)

end Satis.Video
