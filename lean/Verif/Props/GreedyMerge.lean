import Verif.Side.GreedyCheap
import Verif.Props.Greedy
import Verif.Cost.Costs
import Mathlib.Data.List.Sublists

/-! C90: the merge step of the greedy solver finds a merge whenever there is one, and the cheapest one (test.py 333-369).
Both fail: the enumeration of combinations skips some unless the sources are listed in ascending order, and the inner loop
is left too early. -/

namespace Satis.Greedy
open Satis Utils Utils.Spec

/-- Some of the sources, each smaller than the target, sum to the target: a merge that the step is looking for. -/
def MergeOf (sources targets vs : List ℤ) (t : ℤ) : Prop := t ∈ targets ∧ vs.Subperm sources ∧ (∀ v ∈ vs, v < t) ∧ vs.sum = t

/-- C90, finding: if the set of sources is listed in ascending order, then the step reports no merge exactly if there is none. -/
theorem C90_finds_partial (order : List ℤ → List ℤ) (hord : ∀ l, (order l).Pairwise (· < ·)) (hmem : ∀ l x, x ∈ order l ↔ x ∈ l)
    (sources targets : List ℤ) (hs : ∀ s ∈ sources, 0 < s) (ht : ∀ t ∈ targets, 0 < t) :
    mergeStep order sources targets = .ok none ↔ ¬ ∃ t vs, MergeOf sources targets vs t := by
  rw [mergeStep_none hord hmem hs ht]
  constructor
  · rintro h ⟨t, vs, h1, h2⟩
    exact h t h1 ⟨vs, h2⟩
  · rintro h t h1 ⟨vs, h2⟩
    exact h ⟨t, vs, h1, h2⟩

/-- C90 is false for finding in general: with the sources 3 8 8 and the target 16, CPython lists the set {3, 8} as 8, 3 and the
step finds no merge although 8 + 8 = 16. -/
theorem C90_finds_false : MergeOf [3, 8, 8] [16, 3] [8, 8] 16 ∧ byHash [3, 8, 8] = [8, 3] ∧ mergeStep byHash [3, 8, 8] [16, 3] = .ok none := by
  refine ⟨⟨by decide, ?_, by decide, by decide⟩, ?_, ?_⟩
  · exact (List.sublist_cons_self 3 [8, 8]).subperm
  · decide +kernel
  · decide +kernel

/-- C90 is false for the cost: with the sources 1 1 1 2 and the targets 5 3 the step merges all four sources into 5 (cost 2)
although 1 + 2 = 3 costs 1; with the targets in the other order it takes the cheap one. -/
theorem C90_cheapest_false : MergeOf [1, 1, 1, 2] [5, 3] [1, 2] 3 ∧
    mergeStep byHash [1, 1, 1, 2] [5, 3] = .ok (some ([], [3], .merge [1, 1, 1, 2])) ∧ Cost.mergeCost 4 1 = 2 ∧ Cost.mergeCost 2 1 = 1 ∧
    mergeStep byHash [1, 1, 1, 2] [3, 5] = .ok (some ([1, 1], [5], .merge [1, 2])) := by
  refine ⟨⟨by decide, ?_, by decide, by decide⟩, ?_, ?_, ?_, ?_⟩
  · exact ((List.sublist_cons_self 1 [1, 2]).trans (List.sublist_cons_self 1 [1, 1, 2])).subperm
  all_goals decide +kernel

/-- The same with merges of equal sources: 2 + 2 + 2 + 2 + 2 = 10 (cost 2) is applied although 7 + 7 = 14 costs 1. -/
theorem C90_cheapest_equal_false : MergeOf [2, 2, 2, 2, 2, 7, 7] [10, 14] [7, 7] 14 ∧
    mergeStep byHash [2, 2, 2, 2, 2, 7, 7] [10, 14] = .ok (some ([7, 7], [14], .merge [2, 2, 2, 2, 2])) ∧ Cost.mergeCost 5 1 = 2 := by
  refine ⟨⟨by decide, ?_, by decide, by decide⟩, ?_, ?_⟩
  · exact (List.sublist_append_right [2, 2, 2, 2, 2] [7, 7]).subperm
  all_goals decide +kernel

/-- C90, cost: if the set of sources is listed in ascending order, no target is asked for twice and no two different merges
use the same number of different sources, then the merge that is applied is one that needs the fewest mergers: `n` belts are
merged by `n / 2` mergers with three inputs. -/
theorem C90_cheapest_partial (order : List ℤ → List ℤ) (hord : ∀ l, (order l).Pairwise (· < ·)) (hmem : ∀ l x, x ∈ order l ↔ x ∈ l)
    (sources targets : List ℤ) (hs : ∀ s ∈ sources, 0 < s) (ht : ∀ t ∈ targets, 0 < t) (hnd : targets.Nodup)
    (huniq : ∀ t vs t' vs', MergeOf sources targets vs t → MergeOf sources targets vs' t' → vs.dedup.length = vs'.dedup.length → vs.Perm vs')
    (rest left vs : List ℤ) (h : mergeStep order sources targets = .ok (some (rest, left, .merge vs))) :
    (∃ t, MergeOf sources targets vs t) ∧ ∀ t ws, MergeOf sources targets ws t → vs.length / 2 ≤ ws.length / 2 := by
  unfold mergeStep at h
  cases hb : targets.foldlM (mergeTarget order sources) none with
  | error e => rw [hb] at h; simp [bind, Except.bind] at h
  | ok best =>
    rw [hb] at h
    obtain ⟨ts, h1, h2, h3⟩ := best_cheapest hord hmem hs targets [] none best ht (by simpa using hnd)
      (fun t q t' q' vs vs' w w' => huniq t vs t' vs' ⟨by simpa using q, w⟩ ⟨by simpa using q', w'⟩) ⟨by simp, by simp⟩ hb
    rw [List.append_nil] at h1
    cases best with
    | none => simp [bind, Except.bind, pure, Except.pure] at h
    | some b =>
      obtain ⟨cost, srcs, t, k⟩ := b
      obtain ⟨q1, q2, q3, q4⟩ := h3 _ rfl
      simp only at q1 q2 q3 q4
      have e : srcs = vs := by
        simp only [bind, Except.bind, pure, Except.pure] at h
        split_ifs at h with h0
        · simp at h
        · split at h
          · simp at h
          · simp only [Except.ok.injEq, Option.some.injEq, Prod.mk.injEq, Op.merge.injEq] at h
            exact h.2.2
      subst e
      refine ⟨⟨t, h1.subset q1, q2⟩, fun t' ws w => ?_⟩
      obtain ⟨b, e1, e2⟩ := h2 t' (h1.symm.subset w.1) ws w.2
      simp only [Option.some.injEq] at e1
      rw [← e1, q3, Cost.mergeCost_eq, Cost.mergeCost_eq] at e2
      simp only at e2
      omega

-- The hypotheses of C90_cheapest_partial hold for these sources: 30 = 1 + 1 + 11 + 17 with two mergers or 10 + 10 + 10 with one.
example : (∀ t vs t' vs', MergeOf [1, 1, 10, 10, 10, 11, 17] [30] vs t → MergeOf [1, 1, 10, 10, 10, 11, 17] [30] vs' t' →
      vs.dedup.length = vs'.dedup.length → vs.Perm vs') ∧
    MergeOf [1, 1, 10, 10, 10, 11, 17] [30] [1, 1, 11, 17] 30 ∧ MergeOf [1, 1, 10, 10, 10, 11, 17] [30] [10, 10, 10] 30 ∧
    mergeStep (fun l => l.dedup.insertionSort (· ≤ ·)) [1, 1, 10, 10, 10, 11, 17] [30] = .ok (some ([1, 1, 11, 17], [], .merge [10, 10, 10])) := by
  have key : ∀ t vs, MergeOf [1, 1, 10, 10, 10, 11, 17] [30] vs t → vs.Perm [1, 1, 11, 17] ∨ vs.Perm [10, 10, 10] := by
    rintro t vs ⟨h1, ⟨l, h2, h3⟩, -, h4⟩
    simp only [List.mem_singleton] at h1
    subst h1
    have : ∀ l ∈ [1, 1, 10, 10, 10, 11, (17 : ℤ)].sublists', l.sum = 30 → l = [1, 1, 11, 17] ∨ l = [10, 10, 10] := by decide +kernel
    rcases this l (List.mem_sublists'.2 h3) (by rw [h2.sum_eq, h4]) with rfl | rfl
    · exact Or.inl h2.symm
    · exact Or.inr h2.symm
  refine ⟨fun t vs t' vs' w w' e => ?_, ?_, ?_, ?_⟩
  · rcases key t vs w with h | h <;> rcases key t' vs' w' with h' | h'
    · exact h.trans h'.symm
    · rw [(h.dedup).length_eq, (h'.dedup).length_eq] at e
      exact absurd e (by decide)
    · rw [(h.dedup).length_eq, (h'.dedup).length_eq] at e
      exact absurd e (by decide)
    · exact h.trans h'.symm
  · exact ⟨by decide, (List.mem_sublists'.1 (by decide +kernel)).subperm, by decide, by decide⟩
  · exact ⟨by decide, (List.mem_sublists'.1 (by decide +kernel)).subperm, by decide, by decide⟩
  · decide +kernel

-- The order of the hypothesis exists, and the same request is then served.
example : mergeStep (fun l => l.dedup.insertionSort (· ≤ ·)) [3, 8, 8] [16, 3] = .ok (some ([3], [3], .merge [8, 8])) ∧
    mergeStep (fun l => l.dedup.insertionSort (· ≤ ·)) [3, 8, 8] [17, 3] = .ok none := by
  refine ⟨?_, ?_⟩ <;> decide +kernel

-- Of two merges of equal price the one with more different sources is taken: 1 + 2 + 3 before 1 + 5.
example : mergeStep (fun l => l.dedup.insertionSort (· ≤ ·)) [1, 2, 3, 5] [6] = .ok (some ([5], [], .merge [1, 2, 3])) ∧
    Cost.mergeCost 3 1 = Cost.mergeCost 2 1 := by
  refine ⟨?_, ?_⟩ <;> decide +kernel

example : (∀ l : List ℤ, (l.dedup.insertionSort (· ≤ ·)).Pairwise (· < ·)) ∧ ∀ (l : List ℤ) x, x ∈ l.dedup.insertionSort (· ≤ ·) ↔ x ∈ l := by
  refine ⟨fun l => ?_, fun l x => by simp⟩
  have h1 := List.pairwise_insertionSort (· ≤ · : ℤ → ℤ → Prop) l.dedup
  have h2 : (l.dedup.insertionSort (· ≤ ·)).Nodup := (List.perm_insertionSort _ _).nodup_iff.2 l.nodup_dedup
  exact (h1.and h2).imp fun h => lt_of_le_of_ne h.1 h.2

end Satis.Greedy
