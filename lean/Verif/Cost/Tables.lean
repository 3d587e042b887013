import Verif.Cost.Model
import Verif.Cost.Spec
import Mathlib.Tactic.Ring
import Mathlib.Tactic.Linarith
/-!
# Closed forms of the tables of `src/cost.py`
-/

namespace Satis.Cost
open Satis Satis.Spec

/-- Leaves of the complete tree. -/
def L (n m : Nat) : Nat := 2 ^ n * 3 ^ m
/-- Splitters of the complete tree. -/
def S (n m : Nat) : Nat := 2 ^ n * (3 ^ m + 1) / 2 - 1

theorem three_pow_odd (m : Nat) : 3 ^ m % 2 = 1 := by
  induction m with
  | zero => rfl
  | succ m ih => rw [pow_succ]; omega

theorem two_S (n m : Nat) : 2 * (S n m + 1) = 2 ^ n * (3 ^ m + 1) := by
  have h := three_pow_odd m
  have h1 : 0 < 2 ^ n := Nat.pow_pos (by norm_num)
  obtain ⟨k, hk⟩ : ∃ k, 3 ^ m + 1 = 2 * k := ⟨(3 ^ m + 1) / 2, by omega⟩
  have hk0 : 0 < k := by have := Nat.pow_pos (n := m) (show 0 < 3 by norm_num); omega
  unfold S
  rw [hk, show 2 ^ n * (2 * k) = 2 * (2 ^ n * k) by ring]
  rw [Nat.mul_div_cancel_left _ (by norm_num)]
  have : 0 < 2 ^ n * k := Nat.mul_pos h1 hk0
  omega

theorem S_zero_zero : S 0 0 = 0 := by decide
theorem S_succ (n m : Nat) : S (n + 1) m = 2 * S n m + 1 := by
  have h1 := two_S (n + 1) m
  have h2 := two_S n m
  rw [pow_succ] at h1
  have : 2 ^ n * 2 * (3 ^ m + 1) = 2 * (2 ^ n * (3 ^ m + 1)) := by ring
  omega
theorem S_zero_succ (m : Nat) : S 0 (m + 1) = 3 * S 0 m + 1 := by
  have h1 := two_S 0 (m + 1)
  have h2 := two_S 0 m
  simp [pow_succ] at h1 h2
  omega

theorem L_succ (n m : Nat) : L (n + 1) m = 2 * L n m := by simp [L, pow_succ]; ring
theorem L_zero_succ (m : Nat) : L 0 (m + 1) = 3 * L 0 m := by simp [L, pow_succ]; ring
theorem L_pos (n m : Nat) : 0 < L n m := Nat.mul_pos (Nat.pow_pos (by norm_num)) (Nat.pow_pos (by norm_num))

theorem complete_leaves (n m : Nat) : (complete n m).leaves = L n m := by
  induction n with
  | zero =>
    induction m with
    | zero => rfl
    | succ m ih => rw [complete, ternary, STree.leaves, L_zero_succ, ← ih, complete]; ring
  | succ n ih => rw [complete, STree.leaves, L_succ]; simp only [ih]; ring

theorem complete_splitters (n m : Nat) : (complete n m).splitters = S n m := by
  induction n with
  | zero =>
    induction m with
    | zero => rfl
    | succ m ih => rw [complete, ternary, STree.splitters, S_zero_succ, ← ih, complete]; ring
  | succ n ih => rw [complete, STree.splitters, S_succ]; simp only [ih]; ring

theorem atDepth_complete (n m i : Nat) (hi : i ≤ n + m) (t : STree) :
    t ∈ (complete n m).atDepth i ↔ t = complete (n - i) (m - (i - n)) := by
  induction i generalizing n m with
  | zero => simp [STree.atDepth]
  | succ i ih =>
    match n, m with
    | n + 1, m =>
      simp only [complete, STree.atDepth, List.mem_append, or_self]
      rw [ih n m (by omega)]
      simp [Nat.add_sub_add_right]
    | 0, m + 1 =>
      simp only [complete, ternary, STree.atDepth, List.mem_append, or_self]
      have := ih 0 m (by omega)
      rw [complete] at this
      rw [this]
      simp
    | 0, 0 => omega

/-- number of nodes at depth `i` -/
theorem atDepth_length (n m i : Nat) (hi : i ≤ n + m) :
    ((complete n m).atDepth i).length * L (n - i) (m - (i - n)) = L n m := by
  induction i generalizing n m with
  | zero => simp [STree.atDepth]
  | succ i ih =>
    match n, m with
    | n + 1, m =>
      have := ih n m (by omega)
      simp only [complete, STree.atDepth, List.length_append, Nat.add_sub_add_right]
      rw [L_succ, ← this]; ring
    | 0, m + 1 =>
      have := ih 0 m (by omega)
      simp only [complete, ternary, STree.atDepth, List.length_append]
      simp [complete] at this
      simp
      rw [L_zero_succ, ← this]; ring
    | 0, 0 => omega

/-! ### `count_splits` -/

theorem fold_two (n a b : Nat) :
    (List.range n).foldl (fun (s : Nat × Nat) _ => (s.1 + (s.2 * 2) / 2, s.2 * 2)) (a, b) = (a + b * (2 ^ n - 1), b * 2 ^ n) := by
  induction n with
  | zero => simp
  | succ n ih =>
    rw [List.range_succ, List.foldl_append, ih]
    simp only [List.foldl_cons, List.foldl_nil, Prod.mk.injEq]
    have h1 : 0 < 2 ^ n := Nat.pow_pos (by norm_num)
    refine ⟨?_, by rw [pow_succ]; ring⟩
    rw [Nat.mul_div_cancel _ (by norm_num), pow_succ]
    obtain ⟨k, hk⟩ : ∃ k, 2 ^ n = k + 1 := ⟨2 ^ n - 1, by omega⟩
    rw [hk]
    have : (k + 1) * 2 - 1 = 2 * k + 1 := by omega
    rw [this]; simp; ring

theorem fold_three (m a b : Nat) :
    2 * ((List.range m).foldl (fun (s : Nat × Nat) _ => (s.1 + (s.2 * 3) / 3, s.2 * 3)) (a, b)).1 + b = 2 * a + b * 3 ^ m
    ∧ ((List.range m).foldl (fun (s : Nat × Nat) _ => (s.1 + (s.2 * 3) / 3, s.2 * 3)) (a, b)).2 = b * 3 ^ m := by
  induction m with
  | zero => simp
  | succ n ih =>
    rw [List.range_succ, List.foldl_append]
    simp only [List.foldl_cons, List.foldl_nil]
    rw [Nat.mul_div_cancel _ (by norm_num)]
    obtain ⟨h1, h2⟩ := ih
    refine ⟨?_, by rw [h2, pow_succ]; ring⟩
    rw [h2, pow_succ]; linarith

theorem countSplits_eq (n m : Nat) : countSplits n m = S n m := by
  have h := two_S n m
  unfold countSplits
  rw [fold_two]
  obtain ⟨h1, -⟩ := fold_three m (0 + 1 * (2 ^ n - 1)) (1 * 2 ^ n)
  have h2 : 0 < 2 ^ n := Nat.pow_pos (by norm_num)
  simp only [Nat.zero_add, Nat.one_mul] at h1 ⊢
  have : 2 ^ n * (3 ^ m + 1) = 2 ^ n * 3 ^ m + 2 ^ n := by ring
  omega

/-! ### the tables -/

/-- Leaves / splitters below depth `i`. -/
def Lat (n m i : Nat) : Nat := L (n - i) (m - (i - n))
def Sat (n m i : Nat) : Nat := S (n - i) (m - (i - n))

theorem splittersCount_eq (n m : Nat) : splittersCount n m = (List.range (n + m + 1)).map (Sat n m) := by
  have hm : ∀ m, (List.range m).foldl (fun acc _ => (acc.headD 0 * 3 + 1) :: acc) [0] = (List.range (m + 1)).map (Sat 0 m) := by
    intro m
    induction m with
    | zero => rfl
    | succ m ih =>
      rw [List.range_succ, List.foldl_append, ih, List.range_succ_eq_map (n := m + 1)]
      simp only [List.foldl_cons, List.foldl_nil, List.map_cons, List.map_map]
      congr 1
      · rw [List.range_succ_eq_map]
        simp [Sat, S_zero_succ]; ring
      · apply List.map_congr_left
        intro i _
        simp [Sat]
  unfold splittersCount
  simp only [hm]
  induction n with
  | zero => simp
  | succ n ih =>
    rw [List.range_succ (n := n), List.foldl_append, ih, show n + 1 + m + 1 = (n + m + 1) + 1 by ring, List.range_succ_eq_map (n := n + m + 1)]
    simp only [List.foldl_cons, List.foldl_nil, List.map_cons, List.map_map]
    congr 1
    · rw [List.range_succ_eq_map]
      simp [Sat, S_succ]; ring
    · apply List.map_congr_left
      intro i _
      simp [Sat]

theorem Lat_zero (n m : Nat) : Lat n m 0 = 2 ^ n * 3 ^ m := by simp [Lat, L]

theorem Lat_succ_n (n m i : Nat) (h : i < n) : Lat n m i = 2 * Lat n m (i + 1) := by
  unfold Lat
  obtain ⟨k, hk⟩ : ∃ k, n - i = k + 1 := ⟨n - i - 1, by omega⟩
  rw [hk, show n - (i + 1) = k by omega, L_succ, show i - n = 0 by omega, show i + 1 - n = 0 by omega]

theorem Lat_succ_m (n m i : Nat) (h : n ≤ i) (h2 : i < n + m) : Lat n m i = 3 * Lat n m (i + 1) := by
  unfold Lat
  obtain ⟨k, hk⟩ : ∃ k, m - (i - n) = k + 1 := ⟨m - (i - n) - 1, by omega⟩
  rw [hk, show m - (i + 1 - n) = k by omega, show n - i = 0 by omega, show n - (i + 1) = 0 by omega, L_zero_succ]

theorem Sat_succ_n (n m i : Nat) (h : i < n) : Sat n m i = 2 * Sat n m (i + 1) + 1 := by
  unfold Sat
  obtain ⟨k, hk⟩ : ∃ k, n - i = k + 1 := ⟨n - i - 1, by omega⟩
  rw [hk, show n - (i + 1) = k by omega, S_succ, show i - n = 0 by omega, show i + 1 - n = 0 by omega]

theorem Sat_succ_m (n m i : Nat) (h : n ≤ i) (h2 : i < n + m) : Sat n m i = 3 * Sat n m (i + 1) + 1 := by
  unfold Sat
  obtain ⟨k, hk⟩ : ∃ k, m - (i - n) = k + 1 := ⟨m - (i - n) - 1, by omega⟩
  rw [hk, show m - (i + 1 - n) = k by omega, show n - i = 0 by omega, show n - (i + 1) = 0 by omega, S_zero_succ]

theorem Lat_pos (n m i : Nat) : 0 < Lat n m i := L_pos _ _
theorem Lat_last (n m : Nat) : Lat n m (n + m) = 1 := by simp [Lat, L]

theorem branchesCount_eq (n m : Nat) : branchesCount n m = (List.range (n + m + 1)).map (Lat n m) := by
  have hn : ∀ k, k ≤ n → (List.range k).foldl (fun acc _ => acc ++ [acc.getLastD 0 / 2]) [2 ^ n * 3 ^ m]
      = (List.range (k + 1)).map (Lat n m) := by
    intro k
    induction k with
    | zero => intro _; simp [Lat_zero]
    | succ k ih =>
      intro hk
      rw [List.range_succ, List.foldl_append, ih (by omega), List.range_succ (n := k + 1), List.map_append]
      simp only [List.foldl_cons, List.foldl_nil, List.map_cons, List.map_nil]
      congr 2
      rw [List.range_succ]
      simp only [List.map_append, List.map_cons, List.map_nil, List.getLastD_concat]
      rw [Lat_succ_n n m k (by omega)]; omega
  unfold branchesCount
  simp only [hn n le_rfl]
  have hm : ∀ k, k ≤ m → (List.range k).foldl (fun acc _ => acc ++ [acc.getLastD 0 / 3]) ((List.range (n + 1)).map (Lat n m))
      = (List.range (n + k + 1)).map (Lat n m) := by
    intro k
    induction k with
    | zero => intro _; rfl
    | succ k ih =>
      intro hk
      rw [List.range_succ (n := k), List.foldl_append, ih (by omega), show n + (k + 1) + 1 = (n + k + 1) + 1 by ring,
        List.range_succ (n := n + k + 1), List.map_append]
      simp only [List.foldl_cons, List.foldl_nil, List.map_cons, List.map_nil]
      congr 2
      rw [List.range_succ]
      simp only [List.map_append, List.map_cons, List.map_nil, List.getLastD_concat]
      rw [Lat_succ_m n m (n + k) (by omega) (by omega)]; simp [Nat.add_assoc]
  exact hm m le_rfl

end Satis.Cost
