import Verif.Solver.Load
/-!
# Notions used to state what `load` does
-/

namespace Satis.Solver
open Satis Satis.Graph Satis.Utils

/-- The value that makes up for the smaller of two totals: what the side of total `x` gets when the other one has total `y`. -/
def extra (x y : ℚ) : List ℚ := if x < y then [y - x] else []

/-- `S` and `T` are what is left of the requested sources `s` and targets `t`, balanced, when equal values are cancelled. -/
def Remains (s t S T : List ℚ) : Prop :=
  (∃ c, (S ++ c).Perm (s ++ extra s.sum t.sum) ∧ (T ++ c).Perm (t ++ extra t.sum s.sum)) ∧ ∀ v ∈ S, v ∉ T

/-- The parser accepts the input: it finds the sources `s` and the targets `t`, and `load` goes on with them. -/
def Parsed (input : Str) (s t : List ℚ) : Prop := parseUserInput input = .ok (some (s, t)) ∧ s ≠ [] ∧ t ≠ []

/-- The three problems that `load` cannot bound, in the unit `u`. -/
def Tiny (S T : List ℚ) (u : ℚ) : Prop :=
  (S = [u, u] ∧ T = [2 * u]) ∨ (S = [2 * u] ∧ T = [u, u]) ∨ (S = [3 * u] ∧ T = [u, 2 * u])

/-- The limit is the reason why `merge_sims` drops this candidate: with another limit it would be proposed. -/
def LimitRejects (P : Problem) (t : TreeObj Int) (cantUse : List Int) (cost : Int) (s : Search) (idx : List Nat) (vs : List Int) : Prop :=
  mergeMove P t cantUse cost s idx vs = .ok none ∧ ∃ L m, mergeMove { P with limit := L } t cantUse cost s idx vs = .ok (some m)

/-- What is left to extract from after each but the last of the targets has been taken from their sum. -/
def remainders : List Int → List Int
  | [] => []
  | _ :: ts => if ts = [] then [] else ts.sum :: remainders ts

/-- Belts of values `s` can be turned into belts of values `s'` at a total cost by merging all of some belts and extracting from
single belts. -/
inductive Converts (cfg : Config) (s : List Int) : Int → List Int → Prop
  | start : Converts cfg s 0 s
  | merge {c vs rest} : Converts cfg s c (vs ++ rest) → Converts cfg s (c + (Cost.mergeCost vs.length 1 : Nat)) (vs.sum :: rest)
  | extract {c k v x rest} : Converts cfg s c (v :: rest) → 0 < x → x < v → Cost.extractCost cfg v x = .ok k →
      Converts cfg s (c + k) ((v - x) :: x :: rest)

/-- Merging all sources is possible within the belt limit, no source has the value of a target or of a remainder: then merging
everything and extracting the targets one by one consists of permitted moves. (A single source needs no merging.) -/
def PlanFits (limit : Int) (sources targets : List Int) : Prop :=
  2 ≤ sources.length → sources.sum ≤ limit ∧ ∀ v ∈ sources, v ∉ targets ∧ v ∉ remainders targets

end Satis.Solver
