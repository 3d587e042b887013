import Verif.Cost.Unique
import Mathlib.Algebra.BigOperators.Group.Finset.Basic
import Mathlib.Algebra.BigOperators.Ring.Finset
/-!
# Selected subtrees can be taken disjoint; per-level counts
-/

namespace Satis.Cost
open Satis Satis.Spec

/-- Cutting a sorted selection into a part filling one subtree and the rest. -/
theorem chunk (n m k : Nat) (s : List Nat) (hs : s.Pairwise (· ≤ ·)) (hd : ∀ i ∈ s, i ≤ n + m)
    (ht : tot (Lat n m) s ≤ (k + 1) * L n m) :
    ∃ s1 s2, s = s1 ++ s2 ∧ tot (Lat n m) s1 ≤ L n m ∧ tot (Lat n m) s2 ≤ k * L n m := by
  by_cases h : tot (Lat n m) s ≤ L n m
  · exact ⟨s, [], by simp, h, by simp⟩
  · have hpw : (s.map (Lat n m)).Pairwise (fun a b => b ∣ a) := by
      rw [List.pairwise_map]
      refine List.Pairwise.imp_of_mem ?_ hs
      intro a b ha hb hab
      exact Lat_dvd n m a b hab (hd b hb)
    obtain ⟨a, b, hab, hsum⟩ := prefix_sum (s.map (Lat n m)) (L n m) hpw (by
      intro c hc
      obtain ⟨j, hj, rfl⟩ := List.mem_map.1 hc
      exact ⟨by rw [← Lat0]; exact Lat_dvd n m 0 j (by omega) (hd j hj), Lat_pos _ _ _⟩) (by unfold tot at h; omega)
    obtain ⟨s1, s2, h1, h2, h3⟩ := List.map_eq_append_iff.1 hab
    have e1 : tot (Lat n m) s1 = L n m := by unfold tot; rw [h2, hsum]
    refine ⟨s1, s2, h1, by omega, ?_⟩
    rw [h1, tot_append, e1, add_mul] at ht
    omega

theorem tot_succ_eq (f g : Nat → Nat) (s : List Nat) (h : ∀ i ∈ s, f (i + 1) = g i) : tot f (s.map (· + 1)) = tot g s := by
  induction s with
  | nil => rfl
  | cons a s ih =>
    simp only [List.map_cons, tot_cons]
    rw [ih (fun i hi => h i (by simp [hi])), h a (by simp)]

theorem zero_mem_full (n m : Nat) (s : List Nat) (ht : tot (Lat n m) s ≤ L n m) (h0 : 0 ∈ s) : s = [0] := by
  obtain ⟨a, b, rfl⟩ := List.append_of_mem h0
  rw [tot_append, tot_cons, Lat0] at ht
  have key : ∀ c : List Nat, tot (Lat n m) c = 0 → c = [] := by
    intro c hc
    cases c with
    | nil => rfl
    | cons x c => have := Lat_pos n m x; simp at hc; omega
  rw [key a (by omega), key b (by omega)]; rfl

theorem pred_list (s : List Nat) (h0 : 0 ∉ s) : ∃ s' : List Nat, s = s'.map (· + 1) := by
  refine ⟨s.map (· - 1), ?_⟩
  rw [List.map_map]
  symm
  have : ∀ i ∈ s, ((· + 1) ∘ (· - 1)) i = i := by
    intro i hi
    have : i ≠ 0 := by rintro rfl; exact h0 hi
    simp; omega
  rw [List.map_congr_left this, List.map_id']

theorem sorted_pred {s' : List Nat} (h : (s'.map (· + 1)).Pairwise (· ≤ ·)) : s'.Pairwise (· ≤ ·) := by
  rw [List.pairwise_map] at h
  exact h.imp (by intro a b h; omega)

theorem packs_ternary (m : Nat) : ∀ s : List Nat, s.Pairwise (· ≤ ·) → (∀ i ∈ s, i ≤ m) → tot (Lat 0 m) s ≤ L 0 m →
    Packs (ternary m) s := by
  induction m with
  | zero =>
    intro s hs hd ht
    by_cases h0 : 0 ∈ s
    · rw [zero_mem_full 0 0 s ht h0]; exact Packs.whole _
    · have : s = [] := by
        cases s with
        | nil => rfl
        | cons a s => exact absurd (by have := hd a (by simp); have : a = 0 := by omega
                                       simp [this]) h0
      rw [this]; exact Packs.nothing _
  | succ m ih =>
    intro s hs hd ht
    by_cases h0 : 0 ∈ s
    · rw [zero_mem_full 0 (m + 1) s ht h0]; exact Packs.whole _
    · obtain ⟨s', rfl⟩ := pred_list s h0
      have hs' := sorted_pred hs
      have hd' : ∀ i ∈ s', i ≤ 0 + m := by
        intro i hi; have := hd (i + 1) (by simp [hi]); omega
      rw [tot_succ_eq _ (Lat 0 m) s' (by intro i hi; unfold Lat; simp), L_zero_succ] at ht
      obtain ⟨s1, r, e, t1, tr⟩ := chunk 0 m 2 s' hs' hd' (by omega)
      subst e
      rw [List.pairwise_append] at hs'
      obtain ⟨s2, s3, e, t2, t3⟩ := chunk 0 m 1 r hs'.2.1 (fun i hi => hd' i (by simp [hi])) (by omega)
      subst e
      have hr := List.pairwise_append.1 hs'.2.1
      have := Packs.three (ih s1 hs'.1 (fun i hi => by have := hd' i (by simp [hi]); omega) t1)
        (ih s2 hr.1 (fun i hi => by have := hd' i (by simp [hi]); omega) t2)
        (ih s3 hr.2.1 (fun i hi => by have := hd' i (by simp [hi]); omega) (by omega))
      simpa [ternary] using this

/-- Kraft: subtrees whose leaves do not exceed those of the tree can be chosen pairwise disjoint. -/
theorem packs_complete (n m : Nat) : ∀ s : List Nat, s.Pairwise (· ≤ ·) → (∀ i ∈ s, i ≤ n + m) → tot (Lat n m) s ≤ L n m →
    Packs (complete n m) s := by
  induction n with
  | zero =>
    intro s hs hd ht
    exact packs_ternary m s hs (fun i hi => by have := hd i hi; omega) ht
  | succ n ih =>
    intro s hs hd ht
    by_cases h0 : 0 ∈ s
    · rw [zero_mem_full (n + 1) m s ht h0]; exact Packs.whole _
    · obtain ⟨s', rfl⟩ := pred_list s h0
      have hs' := sorted_pred hs
      have hd' : ∀ i ∈ s', i ≤ n + m := by
        intro i hi; have := hd (i + 1) (by simp [hi]); omega
      rw [tot_succ_eq _ (Lat n m) s' (by intro i hi; unfold Lat; congr 1 <;> omega), L_succ] at ht
      obtain ⟨s1, s2, e, t1, t2⟩ := chunk n m 1 s' hs' hd' (by omega)
      subst e
      rw [List.pairwise_append] at hs'
      exact Packs.two (ih s1 hs'.1 (fun i hi => hd' i (by simp [hi])) t1)
        (ih s2 hs'.2.1 (fun i hi => hd' i (by simp [hi])) (by omega))

theorem packs_perm (n m : Nat) (s : List Nat) (hd : ∀ i ∈ s, i ≤ n + m) (ht : tot (Lat n m) s ≤ L n m) :
    ∃ s', s'.Perm s ∧ Packs (complete n m) s' := by
  have hperm := List.perm_insertionSort (· ≤ ·) s
  refine ⟨s.insertionSort (· ≤ ·), hperm, ?_⟩
  refine packs_complete n m _ (List.pairwise_insertionSort _ _) (fun i hi => hd i (hperm.mem_iff.1 hi)) ?_
  rw [tot_perm _ hperm]; exact ht

/-! ### Per-level counts -/

theorem tot_count (f : Nat → Nat) (N : Nat) (s : List Nat) (hs : ∀ i ∈ s, i < N) :
    tot f s = ∑ i ∈ Finset.range N, s.count i * f i := by
  induction s with
  | nil => simp
  | cons a s ih =>
    rw [tot_cons, ih (fun i hi => hs i (by simp [hi]))]
    have ha := hs a (by simp)
    have : ∀ i, (a :: s).count i * f i = s.count i * f i + (if i = a then f a else 0) := by
      intro i
      by_cases h : i = a
      · subst h; simp [add_mul]
      · rw [List.count_cons_of_ne (Ne.symm h), if_neg h]; rfl
    simp only [this, Finset.sum_add_distrib]
    rw [Finset.sum_ite_eq' (Finset.range N) a (fun _ => f a), if_pos (by simpa using ha)]
    omega

theorem under_eq (n m i j : Nat) (hij : i < j) (hj : j ≤ n + m) :
    under n m i j = ((subtreeAt n m i).atDepth (j - i)).length := by
  unfold under
  rw [if_pos hij]
  have h := atDepth_length (n - i) (m - (i - n)) (j - i) (by omega)
  have e : L (n - i - (j - i)) (m - (i - n) - (j - i - (n - i))) = Lat n m j := by
    unfold Lat; congr 1 <;> omega
  rw [e] at h
  have h' : ((subtreeAt n m i).atDepth (j - i)).length * Lat n m j = Lat n m i := h
  rw [← h', Nat.mul_div_cancel _ (Lat_pos _ _ _)]

theorem under_mul (n m i j : Nat) (hj : j ≤ n + m) : under n m i j * Lat n m j = if i < j then Lat n m i else 0 := by
  unfold under
  split
  · exact Nat.div_mul_cancel (Lat_dvd n m i j (by omega) hj)
  · simp

theorem level_fits (n m j : Nat) (hj : j ≤ n + m) (s : List Nat) :
    (s.count j + tot (fun i => under n m i j) s) * Lat n m j ≤ tot (Lat n m) s := by
  induction s with
  | nil => simp
  | cons a s ih =>
    simp only [tot_cons, List.count_cons]
    have h := under_mul n m a j hj
    by_cases e : a = j
    · subst e
      rw [if_neg (by omega)] at h
      have hp := Lat_pos n m a
      have : under n m a a = 0 := by simp [under]
      rw [this]
      simp only [beq_self_eq_true, if_true]
      nlinarith
    · have : (a == j) = false := by simpa using e
      rw [this]
      simp only [Bool.false_eq_true, if_false]
      have h2 : under n m a j * Lat n m j ≤ Lat n m a := by rw [h]; split <;> omega
      nlinarith

end Satis.Cost
