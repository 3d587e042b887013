import Verif.Cost.Model
import Verif.Utils.Spec
import Mathlib.Algebra.BigOperators.Group.Finset.Basic
import Mathlib.Data.Multiset.AddSub
import Mathlib.Order.Bounds.Basic
/-!
# What a score says

Nothing here mentions the code that computes scores; the prices are those of `src/cost.py`.
-/

namespace Satis.Solver.Spec
open Satis Satis.Cost

/-- One target, if the value is one. -/
def made (targets : List Int) (x : Int) : ℚ := if x ∈ targets then 1 else 0

/-- Targets that one operation on a source of value `src` makes, per machine of its price. -/
inductive Offer (cfg : Config) (targets : List Int) (src : Int) : ℚ → Prop
  | nothing : Offer cfg targets src 0
  | extract (c r : Int) : 0 < c → 2 * c < src → extractCost cfg src c = .ok r → Offer cfg targets src ((made targets c + made targets (src - c)) / r)
  | divide (d : Nat) (r : Int) : 2 ≤ d → (d : Int) ∣ src → divideCost cfg src d = .ok r → Offer cfg targets src (targets.count (src / d) / r)
  /-- `c` is the slowest belt that is faster than the source; two parts are a third of its speed, rounded down -/
  | split (c : Nat) : c ∈ cfg.speeds → src < c → (∀ s ∈ cfg.speeds, src < (s : Int) → c ≤ s) → 2 * ((c : Int) / 3) < src →
      src - 2 * ((c : Int) / 3) ≠ (c : Int) / 3 →
      Offer cfg targets src ((targets.count ((c : Int) / 3) + made targets (src - 2 * ((c : Int) / 3))) / 3)

/-- What a source of value `src` is worth: one if it is a target, otherwise the best offer. -/
def Worth (cfg : Config) (targets : List Int) (src : Int) (w : ℚ) : Prop :=
  if src ∈ targets then w = 1 else IsGreatest {q | Offer cfg targets src q} w

/-- The score `x` of a state whose sources are `sources`: the square of the number of targets that are sources already, and the mean,
over all ways of picking some of the other sources, of what their sum is worth per merger it takes. A sum is counted once, even if it
can be picked in several ways. -/
def Scored (cfg : Config) (targets sources : List Int) (x : ℚ) : Prop :=
  ∃ (rest : List Int) (sums : Finset Int) (w : Int → ℚ) (k : Int → ℕ), rest.Pairwise (· ≤ ·) ∧
    (rest : Multiset Int) = (sources : Multiset Int) - (targets : Multiset Int) ∧
    (∀ s, s ∈ sums ↔ ∃ n, 1 ≤ n ∧ Utils.Spec.SubSum rest s n) ∧
    (∀ s ∈ sums, Worth cfg targets s (w s) ∧ Utils.Spec.Taken rest s (k s)) ∧
    x = (((sources : Multiset Int) ∩ (targets : Multiset Int)).card : ℚ) ^ 2 +
      (∑ s ∈ sums, w s / (max 1 (k s / 2) : ℕ)) / ((2 : ℚ) ^ rest.length - 1)

end Satis.Solver.Spec
