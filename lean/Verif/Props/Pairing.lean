import Verif.Side.Pairing

/-!
C73: the two ways of removing pairs of `tests/gpt.py` agree.
-/

namespace Satis.Pairing

/-- C73.  On every pair of lists the first method and the one in use leave the same values with the same
multiplicities, and each is what the lists have not in common: the first method keeps the order too.  So the comparison
of the script finds them consistent, whatever the test cases. -/
theorem C73_methods_agree (sim targets : List ℤ) :
    (removePairsOriginal sim targets).1.Perm (Utils.removePairs sim targets).1 ∧
    (removePairsOriginal sim targets).2.Perm (Utils.removePairs sim targets).2 ∧
    (∀ x, (removePairsOriginal sim targets).1.count x = sim.count x - targets.count x ∧
      (removePairsOriginal sim targets).2.count x = targets.count x - sim.count x) ∧
    (removePairsOriginal sim targets).1.Sublist sim ∧ (removePairsOriginal sim targets).2.Sublist targets := by
  refine ⟨?_, ?_, ?_, (original_sublist sim targets).1, (original_sublist sim targets).2⟩
  · rw [List.perm_iff_count]
    intro x
    rw [(original_count sim targets x).1, (Utils.removePairs_count sim targets x).1]
  · rw [List.perm_iff_count]
    intro x
    rw [(original_count sim targets x).2, (Utils.removePairs_count sim targets x).2]
  · intro x
    have := original_count sim targets x
    omega

theorem C73_consistent (cases : List (List ℤ × List ℤ)) :
    consistent removePairsOriginal Utils.removePairs cases = true := by
  induction cases with
  | nil => rfl
  | cons c cases ih =>
    rw [consistent, if_pos (same_of_perm (C73_methods_agree c.1 c.2).1 (C73_methods_agree c.1 c.2).2.1), ih]

/-- The comparison is not blind: it says yes only if every case leaves the same values. -/
theorem C73_comparison (m1 m2 : List ℤ → List ℤ → List ℤ × List ℤ) (cases : List (List ℤ × List ℤ)) :
    consistent m1 m2 cases = true ↔
      ∀ c ∈ cases, (m1 c.1 c.2).1.Perm (m2 c.1 c.2).1 ∧ (m1 c.1 c.2).2.Perm (m2 c.1 c.2).2 := by
  induction cases with
  | nil => simp [consistent]
  | cons c cases ih =>
    rw [consistent, List.forall_mem_cons, ← ih]
    constructor
    · intro h
      split_ifs at h with hs
      exact ⟨perm_of_same hs, h⟩
    · rintro ⟨h1, h2⟩
      rw [if_pos (same_of_perm h1.1 h1.2), h2]

-- Equal values are struck one for one; the orders differ.
example : removePairsOriginal [3, 1, 3, 2, 1] [1, 4, 3, 1, 1] = ([3, 2], [4, 1]) := by decide +kernel
example : Utils.removePairs [2, 3, 2, (1 : ℤ)] [1] = ([2, 2, 3], []) ∧
    removePairsOriginal [2, 3, 2, 1] [1] = ([2, 3, 2], []) := by decide +kernel

end Satis.Pairing
