import Verif.Props.Duplicates
/-!
# Optimality of the search fails (C38)
-/

namespace Satis
open Graph Solver

namespace Solver.Example

/-- "4 4 to 1 2 5". -/
def P44 : Problem := problem [4, 4] [1, 2, 5]

theorem P44_wf : P44.WF where
  gcd := by decide +kernel
  speeds := by decide +kernel
  counts := by
    intro v
    have h : P44.targetCounts = [(1, 1), (2, 1), (5, 1)] := by decide +kernel
    have h' : P44.targetValues = [1, 2, 5] := rfl
    rw [h, h']
    by_cases h1 : v = 1
    · subst h1; decide +kernel
    · by_cases h2 : v = 2
      · subst h2; decide +kernel
      · by_cases h5 : v = 5
        · subst h5; decide +kernel
        · have e1 : ¬ (1 = v) := fun h => h1 h.symm
          have e2 : ¬ (2 = v) := fun h => h2 h.symm
          have e5 : ¬ (5 = v) := fun h => h5 h.symm
          simp [Dict.get?, e1, e2, e5]

theorem source44 : Source (fresh [4, 4]).1 (fresh [4, 4]).2 [4, 4] where
  nonempty := by decide
  sorted := by decide
  pos := by decide
  made := ⟨emptyHeap, _, _, rfl, rfl⟩

/-- Real scores, the real duplicate test, no stop request, and some outcomes of the random choices. -/
def oracle44 : Oracle :=
  { oracle [1, 2, 5] none with
    iso := realIso
    random := fun n => if (n + 1) * 136405 / 64 % 5 = 0 then some ((n + 1) * 136405 / 64 / 5) else none }

/-- With these outcomes the search ends with one solution of size 4. -/
theorem run44_random : summary (solve P44 oracle44 1000 (fresh [4, 4]).1 (fresh [4, 4]).2 11) = .ok (4, 1, 0, 717) := by
  decide +kernel

/-- Always taking the best candidate, it finds a solution of size 3. -/
theorem run44_best : summary (solve P44 { oracle44 with random := fun _ => none } 1000 (fresh [4, 4]).1 (fresh [4, 4]).2 11) =
    .ok (3, 1, 0, 205) := by
  decide +kernel

end Solver.Example

/-- C38 is false: for "4 4 to 1 2 5", with the bound `load` computes, the real scores and the real duplicate test, there are outcomes
of the random choices for which the search ends by itself and reports the best size 4, although permitted moves of total cost 3
lead to the targets. -/
theorem C38_optimal_false : ∃ (O : Oracle) (s : Search), O.stopAt = none ∧
    solve Example.P44 O 1000 (Example.fresh [4, 4]).1 (Example.fresh [4, 4]).2 11 = .ok s ∧ s.bestSize = 4 ∧
    ∃ h t hist costs, Play Example.P44 11 [4, 4] h t hist costs ∧ t.sourceValues = Example.P44.targetValues ∧ costs.sum = 3 := by
  obtain ⟨s, h1, h2, h3, _⟩ := Example.of_summary Example.run44_random
  obtain ⟨s', h1', h2', h3', _⟩ := Example.of_summary Example.run44_best
  refine ⟨Example.oracle44, s, rfl, h1, h2, ?_⟩
  have hr : Reached Example.P44 { Example.oracle44 with random := fun _ => none } (Example.fresh [4, 4]).1 (Example.fresh [4, 4]).2
    11 s' := solveLoop_visited _ .start h1'
  obtain ⟨t, l, hq⟩ : ∃ t l, s'.solutions = t :: l := List.exists_cons_of_length_eq_add_one h3'
  have ht : t ∈ s'.solutions := by rw [hq]; simp
  obtain ⟨h4, hist, costs, hp, h5⟩ := (C34_best_size Example.P44_wf Example.source44 (by decide) hr).1 t ht
  exact ⟨s'.heap, t, hist, costs, hp, ((hr.inv Example.P44_wf Example.source44 (by decide)).sols t ht).2.1, by rw [h5, h4, h2']⟩

end Satis
