import Verif.Side.SimFacts
import Verif.Cost.Costs

/-!
C80-C82: the simulation in `tests/sim.py`.
-/

namespace Satis.Sim
open Greedy

/-! ## C80 -/

/-- C80.  Whatever the request and whatever `extract_cost` returns or raises, the loop ends: every round makes the two lists together
shorter, so one round more than there are values is enough (the difference appended at the start counts as a value). -/
theorem C80_ends (ec : ℤ → ℤ → Py ℤ) (sources targets : List ℤ) :
    ∃ r, ∀ fuel, sources.length + targets.length + 1 < fuel → solve ec fuel sources targets = some r := by
  refine loop_ends ec (sources.length + targets.length + 1) _ _ ?_
  have h1 : (sources.insertionSort (· ≤ ·)).length = sources.length := List.length_insertionSort _ _
  have h2 : (targets.insertionSort (· ≤ ·)).length = targets.length := List.length_insertionSort _ _
  unfold start
  simp only
  split_ifs with c1 c2 c2 <;> simp only [List.length_append, List.length_singleton, h1, h2] <;> omega

-- Three rounds.
example : solve (Cost.extractCost config) 20 [100] [20, 35, 45] = some (.ok .returned) := by decide +kernel

/-! ## C81 -/

/-- C81 for merges: if some sources, at least two, add up to a target, `apply_best_merge` takes away such sources, and no others
would be merged for less; otherwise it does nothing.  It never raises. -/
theorem C81_merge (sources targets : List ℤ) : ∃ r, mergeStep sources targets = .ok r ∧
    (r = none ↔ ∀ c : List ℤ, c.Sublist sources → 2 ≤ c.length → c.sum ∉ targets) ∧
    (∀ rest, r = some rest → ∃ c : List ℤ, c.Sublist sources ∧ 2 ≤ c.length ∧ c.sum ∈ targets ∧ sources.Perm (c ++ rest) ∧
      ∀ c' : List ℤ, c'.Sublist sources → 2 ≤ c'.length → c'.sum ∈ targets → Cost.mergeCost c.length 1 ≤ Cost.mergeCost c'.length 1) := by
  obtain ⟨r, h1, h2, h3⟩ := mergeStep_facts sources targets
  refine ⟨r, h1, ⟨h2, fun h => ?_⟩, h3⟩
  rcases r with _ | rest
  · rfl
  · obtain ⟨c, g1, g2, g3, -⟩ := h3 rest rfl
    exact absurd g3 (h c g1 g2)

/-- C81 for two targets: a source that is the sum of two targets, and no such source and targets cost less. -/
theorem C81_two (ec : ℤ → ℤ → Py ℤ) (sources targets : List ℤ) (r : Option (List ℤ × List ℤ)) (h : extractTwo ec sources targets = .ok r) :
    (r = none → ∀ s ∈ sources, ∀ t1 t2, [t1, t2].Sublist targets → s ≠ t1 + t2) ∧
    (∀ s' t', r = some (s', t') → ∃ s t1 t2 k, s = t1 + t2 ∧ ec s t1 = .ok k ∧ sources.Perm (s :: s') ∧ targets.Perm (t1 :: t2 :: t') ∧
      ∀ a ∈ sources, ∀ b1 b2, [b1, b2].Sublist targets → a = b1 + b2 → ∃ k', ec a b1 = .ok k' ∧ k ≤ k') := extractTwo_facts h

/-- C81 for one target: a source at least as large, and no such source and target cost less; what is left of the source stays. -/
theorem C81_one (ec : ℤ → ℤ → Py ℤ) (sources targets s' t' : List ℤ) (h : extractOne ec sources targets = .ok (s', t')) :
    ∃ s t k rest, t ≤ s ∧ ec s t = .ok k ∧ sources.Perm (s :: rest) ∧ s' = rest ++ [s - t] ∧ targets.Perm (t :: t') ∧
      ∀ a ∈ sources, ∀ b ∈ targets, b ≤ a → ∃ k', ec a b = .ok k' ∧ k ≤ k' := extractOne_facts h

/-- No source is as large as any target: the last step raises. -/
theorem C81_one_raises (ec : ℤ → ℤ → Py ℤ) (sources targets : List ℤ) (h : ∀ s ∈ sources, ∀ t ∈ targets, s < t) :
    extractOne ec sources targets = .error .valueError := extractOne_raises h

-- Two sources (one merger) are preferred to four (two mergers), although 1, 2, 3 and 5 make 11 too.
example : mergeStep [1, 2, 3, 5, 9] [11, 14] = .ok (some [1, 3, 5]) := by decide +kernel
example : extractTwo (fun a b => .ok (a + b)) [9, 7] [3, 4, 5] = .ok (some ([9], [5])) ∧
    extractOne (fun a b => .ok (a + b)) [10, 7] [3, 6] = .ok ([10, 4], [6]) := by decide +kernel

/-! ## C82 -/

/-- The property: a request of positive values is served: `solve` returns. -/
def Served (ec : ℤ → ℤ → Py ℤ) : Prop := ∀ sources targets : List ℤ, sources ≠ [] → targets ≠ [] → (∀ x ∈ sources, 3 ≤ x) → (∀ x ∈ targets, 3 ≤ x) →
  ∀ fuel, sources.length + targets.length + 1 < fuel → solve ec fuel sources targets = some (.ok .returned)

/-- C82 is false: a merge does not strike off its target.  With the sources 3 6 30 and the targets 9 12 18 the merge of 3 and 6 leaves
the 9 behind, which is extracted from the 30 instead; the 12 and the rest of the 30 do not match any more. -/
theorem C82_merge_false : solve (Cost.extractCost config) 20 [3, 6, 30] [9, 12, 18] = some (.ok .oopsie) := by
  decide +kernel

/-- C82 is false: equal targets are grouped into a value that equals the source; all of it is extracted, and `0` stays. -/
theorem C82_group_false : solve (Cost.extractCost config) 20 [6] [3, 3] = some (.ok .oopsie) := by decide +kernel

/-- C82 is false: if the targets are the sources, nothing is left after the pairs are removed and the last step raises. -/
theorem C82_equal_false : ∃ ec, ¬ Served ec ∧ solve ec 20 [5, 7] [7, 5] = some (.error .valueError) := by
  refine ⟨Cost.extractCost config, fun h => ?_, by decide +kernel⟩
  have h1 := h [6] [3, 3] (by simp) (by simp) (by simp) (by simp) 20 (by simp)
  rw [C82_group_false] at h1
  simp at h1

/-- The loop starts with balanced lists: the request and, where the sums differ, the positive difference on the smaller side. -/
theorem C82_start (sources targets : List ℤ) :
    (start sources targets).1.sum = (start sources targets).2.sum ∧
    (∃ d, (start sources targets).1.Perm (sources ++ d) ∧ (∀ v ∈ d, v = targets.sum - sources.sum ∧ 0 < v) ∧ d.length ≤ 1) ∧
    (∃ d, (start sources targets).2.Perm (targets ++ d) ∧ (∀ v ∈ d, v = sources.sum - targets.sum ∧ 0 < v) ∧ d.length ≤ 1) := by
  have h1 : (sources.insertionSort (· ≤ ·)).Perm sources := List.perm_insertionSort _ _
  have h2 : (targets.insertionSort (· ≤ ·)).Perm targets := List.perm_insertionSort _ _
  unfold start
  simp only [h1.sum_eq, h2.sum_eq]
  rcases lt_trichotomy sources.sum targets.sum with q | q | q
  · rw [if_pos q, if_neg (by omega)]
    refine ⟨?_, ⟨[targets.sum - sources.sum], h1.append_right _, ?_, le_rfl⟩, ⟨[], by simpa using h2, by simp, by simp⟩⟩
    · rw [List.sum_append, h1.sum_eq, h2.sum_eq, List.sum_singleton]
      omega
    · intro v hv
      rw [List.mem_singleton.1 hv]
      exact ⟨rfl, by omega⟩
  · rw [if_neg (by omega), if_neg (by omega)]
    exact ⟨by rw [h1.sum_eq, h2.sum_eq, q], ⟨[], by simpa using h1, by simp, by simp⟩, ⟨[], by simpa using h2, by simp, by simp⟩⟩
  · rw [if_neg (by omega), if_pos q]
    refine ⟨?_, ⟨[], by simpa using h1, by simp, by simp⟩, ⟨[sources.sum - targets.sum], h2.append_right _, ?_, le_rfl⟩⟩
    · rw [List.sum_append, h1.sum_eq, h2.sum_eq, List.sum_singleton]
      omega
    · intro v hv
      rw [List.mem_singleton.1 hv]
      exact ⟨rfl, by omega⟩

/-- C82 as far as it holds: one source and different targets, the rest of the source counted, with the costs of `cost.py`.
Missing: several sources and equal targets, for which the claim is false. -/
theorem C82_single_partial (cfg : Config) (x : ℤ) (targets all : List ℤ) (hall : all = if targets.sum < x then targets ++ [x - targets.sum] else targets)
    (h2 : 2 ≤ all.length) (hnd : all.Nodup) (hpos : ∀ t ∈ targets, 0 < t) (hsum : targets.sum ≤ x) (fuel : ℕ) (hf : all.length < fuel) :
    solve (Cost.extractCost cfg) fuel [x] targets = some (.ok .returned) := by
  have hp : (targets.insertionSort (· ≤ ·)).Perm targets := List.perm_insertionSort _ _
  have hs1 : (start [x] targets).1 = [x] := by
    unfold start
    simp only [List.insertionSort_cons, List.insertionSort_nil, List.orderedInsert_nil, List.sum_singleton, hp.sum_eq]
    rw [if_neg (by omega)]
  have hs2 : (start [x] targets).2.Perm all := by
    unfold start
    simp only [List.insertionSort_cons, List.insertionSort_nil, List.orderedInsert_nil, List.sum_singleton, hp.sum_eq]
    rw [hall]
    split_ifs
    · exact hp.append_right _
    · exact hp
  have hposall : ∀ t ∈ all, 0 < t := by
    intro t ht
    rw [hall] at ht
    split_ifs at ht with q
    · rcases List.mem_append.1 ht with ht | ht
      · exact hpos t ht
      · rw [List.mem_singleton.1 ht]
        omega
    · exact hpos t ht
  have hsumall : all.sum = x := by
    rw [hall]
    split_ifs with q
    · simp
    · omega
  unfold solve
  rw [hs1]
  refine loop_single (fun x c h1 h2 h3 => ?_) fuel x _ (by rw [hs2.length_eq]; exact hf) (by rw [hs2.length_eq]; exact h2) (hs2.nodup_iff.2 hnd)
    (fun t ht => hposall t (hs2.mem_iff.1 ht)) (by rw [hs2.sum_eq, hsumall])
  obtain ⟨k, hk, -⟩ := Cost.extractCost_pos cfg x c h1 h2 h3
  exact ⟨k, hk⟩

-- 25 out of 100, and 20, 35 and 45.
example : solve (Cost.extractCost config) 9 [100] [25] = some (.ok .returned) ∧
    solve (Cost.extractCost config) 9 [100] [20, 35, 45] = some (.ok .returned) :=
  ⟨C82_single_partial config 100 [25] [25, 75] rfl (by decide) (by decide) (by decide) (by decide) 9 (by decide),
    C82_single_partial config 100 [20, 35, 45] [20, 35, 45] rfl (by decide) (by decide) (by decide) (by decide) 9 (by decide)⟩

/-- Only a merge unbalances the sums, by the value of the target it leaves behind. -/
theorem C82_sums_partial (ec : ℤ → ℤ → Py ℤ) (sources targets s' t' : List ℤ) (h : step ec sources targets = .ok (s', t')) :
    (∃ v, mergeStep sources targets = .ok (some s') ∧ t' = targets ∧ v ∈ targets ∧ s'.sum = sources.sum - v) ∨
      (mergeStep sources targets = .ok none ∧ s'.sum - t'.sum = sources.sum - targets.sum) := step_sum h

end Satis.Sim
