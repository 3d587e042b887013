import Verif.Solver.Model
import Verif.Graph.Copy
/-!
# What a permitted move is

A specification of the game the solver plays, in words of the values of the sources: used by the theorems on completeness and
optimality of the search.
-/

namespace Satis.Solver
open Satis Satis.Graph Satis.Cost

/-- A source of value `v` is needed as it is: there are at most as many of them as targets of that value. -/
def Needed (targets vals : List Int) (v : Int) : Prop := v ∈ vals ∧ vals.count v ≤ targets.count v

/-- Source number `i` is the first one of value `v`. -/
def FirstAt (vals : List Int) (i : Nat) (v : Int) : Prop := vals[i]? = some v ∧ ∀ j, j < i → vals[j]? ≠ some v

/-- `c` is the slowest conveyor faster than `v`. -/
def NextSpeed (cfg : Config) (v c : Int) : Prop :=
  (∃ s ∈ cfg.speeds, (s : Int) = c) ∧ v < c ∧ ∀ s ∈ cfg.speeds, v < (s : Int) → c ≤ s

/-- The moves the solver permits when the sources have values `vals`, with their costs; `past i v` says that the value `v` is in the
past of source number `i`. Sources of equal value are interchangeable, the first one is taken. -/
def Permitted (P : Problem) (vals : List Int) (past : Nat → Int → Prop) : Op → Int → Prop
  | .extract i c, cost => ∃ v, FirstAt vals i v ∧ ¬ Needed P.targetValues vals v ∧ (∃ w ∈ vals, P.minTarget < w) ∧
      0 < c ∧ 2 * c < v ∧ P.gcd ≤ c ∧ ¬ past i c ∧ ¬ past i (v - c) ∧ extractCost P.cfg v c = .ok cost
  | .divide i d, cost => ∃ v, FirstAt vals i v ∧ ¬ Needed P.targetValues vals v ∧ (∃ w ∈ vals, P.minTarget < w) ∧
      2 ≤ d ∧ (d : Int) ∣ v ∧ P.gcd ≤ v / d ∧ ¬ past i (v / d) ∧ divideCost P.cfg v d = .ok cost
  | .split i c, cost => ∃ v, FirstAt vals i v ∧ ¬ Needed P.targetValues vals v ∧ (∃ w ∈ vals, P.minTarget < w) ∧
      NextSpeed P.cfg v c ∧ P.gcd ≤ c / 3 ∧ P.gcd ≤ v - 2 * (c / 3) ∧ 0 ≤ v - 2 * (c / 3) ∧
      ¬ past i (c / 3) ∧ ¬ past i (v - 2 * (c / 3)) ∧ cost = 3
  | .merge idx, cost => ∃ vs : List Int, idx.map (fun i => vals[i]?) = vs.map some ∧ idx.Pairwise (· < ·) ∧ 2 ≤ idx.length ∧
      (∀ idx', idx'.Pairwise (· < ·) → idx'.map (fun i => vals[i]?) = vs.map some → ¬ idx' < idx) ∧
      (∀ v ∈ vs, ¬ Needed P.targetValues vals v) ∧ P.gcd ≤ vs.sum ∧ vs.sum ≤ P.limit ∧ (∀ i ∈ idx, ¬ past i vs.sum) ∧
      cost = (idx.length / 2 : Nat)

/-- The past of source number `i` of a tree. -/
def pastOf (h : Heap Int) (t : TreeObj Int) (i : Nat) (v : Int) : Prop :=
  ∃ a, t.sources[i]? = some a ∧ (h.get a).past.contains v = true

/-- What `load` establishes about a problem (`src/solver.py:71-88`). -/
structure Problem.WF (P : Problem) : Prop where
  gcd : 1 ≤ P.gcd
  speeds : P.cfg.speeds.Pairwise (· ≤ ·)
  counts : ∀ v, (P.targetCounts.get? v).getD 0 = P.targetValues.count v

/-- A tree made of fresh nodes, `Tree([Node(v) for v in values])` (`src/solver.py:85`), for sorted positive values. -/
structure Source (h : Heap Int) (t : TreeObj Int) (values : List Int) : Prop where
  nonempty : values ≠ []
  sorted : values.Pairwise (· ≤ ·)
  pos : ∀ v ∈ values, 0 < v
  made : ∃ h0 h1 roots, newNodes h0 [] none values = .ok (h1, roots) ∧ (h, t) = newTree h1 roots

/-- `Play P B values h t history costs`: the tree `t` in the heap `h` was built from fresh sources with the given values by permitted
moves, within the size bound `B` and without returning to earlier source values; `history` lists the source values from the
start on and `costs` the costs of the moves. Each move copies the tree, as the search does; meanwhile other objects may be
created (`other`). -/
inductive Play (P : Problem) (B : Int) (values : List Int) : Heap Int → TreeObj Int → List (List Int) → List Int → Prop
  | start {h t} : Source h t values → Play P B values h t [values] []
  | move {h h' t t' history costs op cost} : Play P B values h t history costs →
      Permitted P t.sourceValues (pastOf h t) op cost → t.size + cost ≤ B → makeChild P.cfg h t op cost = .ok (h', t') →
      t'.sourceValues ∉ t.past.items → Play P B values h' t' (history ++ [t'.sourceValues]) (costs ++ [cost])
  | other {h h' t history costs} : Play P B values h t history costs → Heap.Ext h h' → Play P B values h' t history costs

/-- The states at the loop test of `solve`, from the start on. -/
inductive Visited (P : Problem) (O : Oracle) (s0 : Search) : Search → Prop
  | start : Visited P O s0 s0
  | next {s s' : Search} {b : Bool} : Visited P O s0 s → round P O s = .ok (b, s') → Visited P O s0 s'

/-- The states `solve` passes at its loop test, started on the tree `t0` with the bound `B`. -/
def Reached (P : Problem) (O : Oracle) (h0 : Heap Int) (t0 : TreeObj Int) (B : Int) (s : Search) : Prop :=
  Visited P O (enqueue P O (initial h0 B) t0) s

/-- The search keeps the tree `t`. -/
def Search.Holds (s : Search) (t : TreeObj Int) : Prop := (∃ e ∈ s.queue, e.1 = t) ∨ t ∈ s.solutions

/-- What the generators of `src/solver.py:119-260` yield for the tree `t`: `cant_use` and the candidates were computed when the round
began (in the heap `h0`), the tests are made in the state `s`. -/
inductive Proposed (P : Problem) (h0 : Heap Int) (s : Search) (t : TreeObj Int) : Move → Prop
  | extract {i a c m} : (i, a, c) ∈ extractCands h0 t →
      extractMove P t (computeCantUse P.targetCounts (valuesOf h0 t.sources)) s i a c = .ok (some m) → Proposed P h0 s t m
  | divide {i a d m} : (i, a, d) ∈ divideCands h0 t →
      divideMove P t (computeCantUse P.targetCounts (valuesOf h0 t.sources)) s i a d = .ok (some m) → Proposed P h0 s t m
  | split {i a m} : (a, i) ∈ t.sources.zipIdx →
      splitMove P t (computeCantUse P.targetCounts (valuesOf h0 t.sources)) s i a = .ok (some m) → Proposed P h0 s t m
  | merge {k cands idx vs m} : 2 ≤ k → mergeCands t k = .ok cands → (idx, vs) ∈ cands →
      mergeMove P t (computeCantUse P.targetCounts (valuesOf h0 t.sources)) (mergeCost (k : Int) 1 : Nat) s idx vs = .ok (some m) →
      Proposed P h0 s t m

/-- The positions of the sources a move consumes. -/
def Op.consumed : Op → List Nat
  | .extract i _ => [i]
  | .divide i _ => [i]
  | .split i _ => [i]
  | .merge idx => idx

/-- `stop()` has taken effect: the next read of `self.solving` gives `False`. -/
def Search.Cleared (O : Oracle) (s : Search) : Prop := s.stopped = true ∨ ∃ k, O.stopAt = some k ∧ k ≤ s.reads

/-- Nothing but the clock differs. -/
def SameButTime (s s' : Search) : Prop := ∃ n, s.reads ≤ n ∧ s' = { s with reads := n }

/-- The bookkeeping of a tree is right; `total` is the flow that came in. -/
structure WellFormed (h : Heap Int) (t : TreeObj Int) (total : Int) : Prop where
  sorted : (t.sources.map fun a => (h.get a).value).Pairwise (· ≤ ·)
  positive : ∀ a, Reach h t.roots a → 0 < (h.get a).value
  cached : t.sourceValues = t.sources.map fun a => (h.get a).value
  count : t.nSources = t.sources.length
  last : t.levels.getLast? = some t.sources
  distinct : t.sources.Nodup
  leaves : ∀ a, a ∈ t.sources ↔ Reach h t.roots a ∧ (h.get a).children = []
  total : (t.sources.map fun a => (h.get a).value).sum = total

/-- Levels increase along edges, so there are no cycles. -/
structure Layered (h : Heap Int) (t : TreeObj Int) : Prop where
  edge : ∀ a b, Reach h t.roots a → b ∈ (h.get a).children →
    ∃ l m, (h.get a).level = some l ∧ (h.get b).level = some m ∧ l < m
  sources : ∀ a ∈ t.sources, (h.get a).level = some t.currentLevel
  range : ∀ a, Reach h t.roots a → ∃ l, (h.get a).level = some l ∧ 0 ≤ l ∧ l ≤ t.currentLevel
  acyclic : ∀ a b, Reach h t.roots a → b ∈ (h.get a).children → ¬ Reach h [b] a

/-- The graph below the roots carries flow: there is an amount `f a b` on every edge such that what leaves a node and what enters it
is its value; the roots carry `values`, nothing enters them and nothing else is missing an input. -/
structure FlowGraph (h : Heap Int) (t : TreeObj Int) (values : List Int) : Prop where
  roots : t.roots.map (fun a => (h.get a).value) = values
  inputs : ∀ a, Reach h t.roots a → ((h.get a).parents = [] ↔ a ∈ t.roots)
  links : ∀ a b, Reach h t.roots a → Reach h t.roots b → (h.get a).children.count b = (h.get b).parents.count a
  closed : ∀ a, Reach h t.roots a → ∀ p ∈ (h.get a).parents, Reach h t.roots p
  flow : ∃ f : Addr → Addr → Int, ∀ a, Reach h t.roots a →
    (∀ b ∈ (h.get a).children, 0 < f a b) ∧
    ((h.get a).children ≠ [] → ((h.get a).children.map (f a)).sum = (h.get a).value) ∧
    ((h.get a).parents ≠ [] → ((h.get a).parents.map fun p => f p a).sum = (h.get a).value)

end Satis.Solver
