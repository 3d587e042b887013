import Mathlib.Data.List.Basic
import Mathlib.Data.List.Nodup

/-!
Model of `tests/generate.py` 5-31: the graph of belt speeds that can be reached by halving, thirds, doubling and
tripling.  Speeds are positive integers; `result != int(result)` for `node / 2` and `node / 3` is divisibility, which is
exact for the speeds below the bound.  The bound 2000 and the first speeds are parameters.
-/

namespace Satis.Speeds

/-- The list `nodes` and the edges of the undirected graph `G` with their labels. -/
structure Gr where
  nodes : List ℕ
  edges : List (ℕ × ℕ × ℕ)
  deriving DecidableEq, Repr

/-- `G.has_edge(u, v)`, in either direction. -/
def Gr.hasEdge (g : Gr) (u v : ℕ) : Bool :=
  g.edges.any (fun e => (e.1 == u && e.2.1 == v) || (e.1 == v && e.2.1 == u))

/-- tests/generate.py 19, 29: the four results, where they are integers, with their labels. -/
def operations (v : ℕ) : List (Option ℕ × ℕ) :=
  [(if v % 2 = 0 then some (v / 2) else none, 2), (if v % 3 = 0 then some (v / 3) else none, 3),
    (some (v * 2), 2), (some (v * 3), 3)]

/-- tests/generate.py 21-30: one operation. -/
def connect (limit node : ℕ) (g : Gr) (op : Option ℕ × ℕ) : Gr :=
  match op.1 with
  | none => g
  | some result =>
    if limit < result then g
    else
      let g := if result ∈ g.nodes then g else { g with nodes := g.nodes ++ [result] }
      if g.hasEdge node result then g else { g with edges := g.edges ++ [(node, result, op.2)] }

/-- tests/generate.py 16-30: the nodes of one round, in order. -/
def round (limit : ℕ) (todo : List ℕ) (g : Gr) : Gr :=
  todo.foldl (fun g node => (operations node).foldl (connect limit node) g) g

/-- tests/generate.py 12-31: the loop; `none`: not finished with this fuel. -/
def loop (limit : ℕ) : ℕ → ℕ → Gr → Option Gr
  | 0, _, _ => none
  | fuel + 1, oldLast, g =>
    match g.nodes.drop oldLast with
    | [] => some g
    | todo => loop limit fuel g.nodes.length (round limit todo g)

/-- tests/generate.py 5-31. -/
def generate (fuel limit : ℕ) (start : List ℕ) : Option Gr := loop limit fuel 0 ⟨start, []⟩

end Satis.Speeds
