import Verif.Solver.Spec
import Verif.Solver.Score
/-!
# Concrete problems, for the examples beside the theorems
-/

namespace Satis.Solver.Example
open Satis Satis.Graph Satis.Solver

/-- No objects. -/
def emptyHeap : Heap Int := ⟨fun _ => ⟨0, 0, none, FastList.empty, [], [], [], 0⟩, 0, 0⟩

/-- The attributes `load` computes from sorted values. -/
def problem (sources targets : List Int) : Problem where
  cfg := config
  targetValues := targets
  minTarget := targets.foldl min (targets.headD 0)
  targetCounts := sourceCounts targets
  limit := 1200
  gcd := (sources ++ targets).foldl (fun a b => (Int.gcd a b : Int)) 0

/-- Fresh sources. -/
def fresh (values : List Int) : Heap Int × TreeObj Int :=
  match newNodes emptyHeap [] none values with
  | .ok (h, roots) => newTree h roots
  | .error _ => newTree emptyHeap []

/-- Real scores, always the last element of the queue, and a stop request at the given read. -/
def oracle (targets : List Int) (stopAt : Option Nat) : Oracle where
  stopAt := stopAt
  score := fun _ v => match Score.compute config targets v with
    | .ok x => x
    | .error _ => 0
  random := fun _ => none
  iso := fun _ _ _ => false

/-- `"2 4 to 1 5"`. -/
def P : Problem := problem [2, 4] [1, 5]

/-- Its sources. -/
def h0 : Heap Int := (fresh [2, 4]).1
/-- Its sources. -/
def t0 : TreeObj Int := (fresh [2, 4]).2

theorem P_wf : P.WF where
  gcd := by decide +kernel
  speeds := by decide +kernel
  counts := by
    intro v
    have h : P.targetCounts = [(1, 1), (5, 1)] := by decide +kernel
    have h' : P.targetValues = [1, 5] := rfl
    rw [h, h']
    by_cases h1 : v = 1
    · subst h1; decide +kernel
    · by_cases h5 : v = 5
      · subst h5; decide +kernel
      · have e1 : ¬ (1 = v) := fun h => h1 h.symm
        have e5 : ¬ (5 = v) := fun h => h5 h.symm
        simp [Dict.get?, h1, h5, e1, e5, List.count_cons, List.lookup]

theorem source : Source h0 t0 [2, 4] where
  nonempty := by decide
  sorted := by decide
  pos := by decide
  made := ⟨emptyHeap, _, _, rfl, rfl⟩

/-- What a run yields: best size, number of solutions, length of the queue, reads of the flag. -/
def summary (r : Py Search) : Py (Int × Nat × Nat × Nat) :=
  match r with
  | .ok s => .ok (s.bestSize, s.solutions.length, s.queue.length, s.reads)
  | .error e => .error e

/-- The run without a stop request finds one solution, of size 2. -/
theorem run : summary (solve P (oracle [1, 5] none) 100 h0 t0 4) = .ok (2, 1, 0, 149) := by decide +kernel

/-- Stopped at read 40, six trees are left in the queue. -/
theorem run_stopped : summary (solve P (oracle [1, 5] (some 40)) 100 h0 t0 4) = .ok (4, 0, 6, 43) := by decide +kernel

/-- Within the bound 1 there is no solution. -/
theorem run_none : summary (solve P (oracle [1, 5] none) 100 h0 t0 1) = .ok (1, 0, 0, 47) := by decide +kernel

theorem of_summary {r : Py Search} {a : Int} {b c d : Nat} (h : summary r = .ok (a, b, c, d)) :
    ∃ s, r = .ok s ∧ s.bestSize = a ∧ s.solutions.length = b ∧ s.queue.length = c ∧ s.reads = d := by
  cases r with
  | error e => simp [summary] at h
  | ok s =>
    simp only [summary, Except.ok.injEq, Prod.mk.injEq] at h
    exact ⟨s, rfl, h⟩

end Satis.Solver.Example
