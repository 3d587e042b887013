import Verif.Side.GreedyFacts
import Verif.Utils.Numbers
import Mathlib.Algebra.Order.BigOperators.Group.List

/-! `solve` and `run_problem` of `test.py`. -/

namespace Satis.Greedy
open Utils

/-- The numbers the search starts with. -/
def scaledSources (sources targets : List ℚ) : List ℤ :=
  (fractionsToIntegers ((balance sources targets).1 ++ (balance sources targets).2)).1.take (balance sources targets).1.length

/-- The numbers the search starts with. -/
def scaledTargets (sources targets : List ℚ) : List ℤ :=
  (fractionsToIntegers ((balance sources targets).1 ++ (balance sources targets).2)).1.drop (balance sources targets).1.length

theorem balance_pos {sources targets : List ℚ} (hs : ∀ x ∈ sources, 0 < x) (ht : ∀ x ∈ targets, 0 < x) :
    (∀ x ∈ (balance sources targets).1, 0 < x) ∧ (∀ x ∈ (balance sources targets).2, 0 < x) ∧
      (balance sources targets).1.sum = (balance sources targets).2.sum := by
  unfold balance
  simp only
  have h1 : ∀ x ∈ sources.insertionSort (· ≤ ·), 0 < x := fun x hx => hs x ((List.mem_insertionSort _).mp hx)
  have h2 : ∀ x ∈ targets.insertionSort (· ≤ ·), 0 < x := fun x hx => ht x ((List.mem_insertionSort _).mp hx)
  generalize sources.insertionSort (· ≤ ·) = s at h1 ⊢
  generalize targets.insertionSort (· ≤ ·) = t at h2 ⊢
  rcases lt_trichotomy s.sum t.sum with h | h | h
  · rw [if_pos h, if_neg (not_lt.mpr h.le)]
    refine ⟨?_, h2, by simp⟩
    intro x hx
    rcases List.mem_append.mp hx with hx | hx
    · exact h1 x hx
    · rw [List.mem_singleton.mp hx]; linarith
  · rw [if_neg (by rw [h]; exact lt_irrefl _), if_neg (by rw [h]; exact lt_irrefl _)]
    exact ⟨h1, h2, h⟩
  · rw [if_pos h, if_neg (not_lt.mpr h.le)]
    refine ⟨h1, ?_, by simp⟩
    intro x hx
    rcases List.mem_append.mp hx with hx | hx
    · exact h2 x hx
    · rw [List.mem_singleton.mp hx]; linarith

theorem scaled_cast (sources targets : List ℚ) : ∃ D : ℚ, 0 < D ∧
    (scaledSources sources targets).map (fun (z : ℤ) => (z : ℚ)) = (balance sources targets).1.map (fun x => x * D) ∧
    (scaledTargets sources targets).map (fun (z : ℤ) => (z : ℚ)) = (balance sources targets).2.map (fun x => x * D) := by
  have h := fractionsToIntegers_cast ((balance sources targets).1 ++ (balance sources targets).2)
  refine ⟨(fractionsToIntegers ((balance sources targets).1 ++ (balance sources targets).2)).2, ?_, ?_, ?_⟩
  · exact_mod_cast common_pos _
  · unfold scaledSources
    rw [List.map_take, h, List.map_append]
    exact List.take_left' (by simp)
  · unfold scaledTargets
    rw [List.map_drop, h, List.map_append]
    exact List.drop_left' (by simp)

theorem scaled_facts {sources targets : List ℚ} (hs : ∀ x ∈ sources, 0 < x) (ht : ∀ x ∈ targets, 0 < x) :
    (∀ z ∈ scaledSources sources targets, 0 < z) ∧ (∀ z ∈ scaledTargets sources targets, 0 < z) ∧
      (scaledSources sources targets).sum = (scaledTargets sources targets).sum := by
  obtain ⟨D, hD, h1, h2⟩ := scaled_cast sources targets
  obtain ⟨b1, b2, b3⟩ := balance_pos hs ht
  have key : ∀ (l : List ℤ) (m : List ℚ), l.map (fun (z : ℤ) => (z : ℚ)) = m.map (fun x => x * D) → (∀ x ∈ m, 0 < x) →
      (∀ z ∈ l, 0 < z) ∧ ((l.sum : ℤ) : ℚ) = m.sum * D := by
    intro l m h hm
    constructor
    · intro z hz
      have : ((z : ℤ) : ℚ) ∈ m.map (fun x => x * D) := by rw [← h]; exact List.mem_map_of_mem hz
      obtain ⟨x, hx, he⟩ := List.mem_map.mp this
      have : (0 : ℚ) < z := by rw [← he]; exact mul_pos (hm x hx) hD
      exact_mod_cast this
    · have hc : ((l.sum : ℤ) : ℚ) = (l.map (fun (z : ℤ) => (z : ℚ))).sum := by
        induction l generalizing m with
        | nil => simp
        | cons a l ih =>
          cases m with
          | nil => simp at h
          | cons c m =>
            simp only [List.map_cons, List.cons.injEq] at h
            rw [List.sum_cons, List.map_cons, List.sum_cons, ← ih m h.2 (fun x hx => hm x (by simp [hx]))]
            push_cast
            rfl
      rw [hc, h, List.sum_map_mul_right]
      simp
  obtain ⟨k1, k2⟩ := key _ _ h1 b1
  obtain ⟨k3, k4⟩ := key _ _ h2 b2
  refine ⟨k1, k3, ?_⟩
  have : (((scaledSources sources targets).sum : ℤ) : ℚ) = (((scaledTargets sources targets).sum : ℤ) : ℚ) := by
    rw [k2, k4, b3]
  exact_mod_cast this

theorem solve_eq (sources targets : List ℚ) : solve sources targets =
    if ((removePairs (scaledSources sources targets) (scaledTargets sources targets)).1.length = 0 ∧
        (removePairs (scaledSources sources targets) (scaledTargets sources targets)).2.length ≠ 0) ∨
       ((removePairs (scaledSources sources targets) (scaledTargets sources targets)).1.length ≠ 0 ∧
        (removePairs (scaledSources sources targets) (scaledTargets sources targets)).2.length = 0) then .exit 1
    else if (removePairs (scaledSources sources targets) (scaledTargets sources targets)).2.length = 1 then
      .ret (scaledSources sources targets) (scaledTargets sources targets)
        [.merge (removePairs (scaledSources sources targets) (scaledTargets sources targets)).1]
    else .exit 0 := rfl

theorem sum_pos_nil {l : List ℤ} (h : ∀ z ∈ l, 0 < z) (h0 : l.sum = 0) : l = [] := by
  cases l with
  | nil => rfl
  | cons a l =>
    have h1 := h a (by simp)
    have h2 : 0 ≤ l.sum := List.sum_nonneg (fun z hz => (h z (by simp [hz])).le)
    rw [List.sum_cons] at h0
    omega

/-- What is left over on both sides has the same sum. -/
theorem left_over {a b : List ℤ} (ha : ∀ z ∈ a, 0 < z) (hb : ∀ z ∈ b, 0 < z) (h : a.sum = b.sum) :
    (removePairs a b).1.sum = (removePairs a b).2.sum ∧ ((removePairs a b).1 = [] ↔ (removePairs a b).2 = []) := by
  obtain ⟨c, h1, h2⟩ := removePairs_perm a b
  have s1 := h1.sum_eq
  have s2 := h2.sum_eq
  rw [List.sum_append] at s1 s2
  have hs : (removePairs a b).1.sum = (removePairs a b).2.sum := by omega
  refine ⟨hs, ?_, ?_⟩
  · intro hn
    rw [hn, List.sum_nil] at hs
    exact sum_pos_nil (fun z hz => hb z (h2.mem_iff.mp (List.mem_append_left _ hz))) hs.symm
  · intro hn
    rw [hn, List.sum_nil] at hs
    exact sum_pos_nil (fun z hz => ha z (h1.mem_iff.mp (List.mem_append_left _ hz))) hs

/-- The single merge gives exactly the targets. -/
theorem merge_delivers {a b : List ℤ} (h : a.sum = b.sum) (h1 : (removePairs a b).2.length = 1) :
    ∃ r, run [.merge (removePairs a b).1] a = some r ∧ r.Perm b := by
  obtain ⟨c, p1, p2⟩ := removePairs_perm a b
  obtain ⟨t, ht⟩ := List.length_eq_one_iff.mp h1
  obtain ⟨r, hr, hrc⟩ := removes_of_perm p1.symm
  have s1 := p1.sum_eq
  have s2 := p2.sum_eq
  rw [List.sum_append] at s1 s2
  rw [ht] at s2 p2
  have hsum : (removePairs a b).1.sum = t := by
    simp only [List.sum_cons, List.sum_nil] at s2
    omega
  refine ⟨r ++ [t], ?_, ?_⟩
  · simp [run, apply, hr, hsum]
  · exact (List.perm_append_comm).trans ((List.Perm.append_left [t] hrc).trans p2)

end Satis.Greedy
