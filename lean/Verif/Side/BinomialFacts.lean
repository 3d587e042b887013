import Verif.Side.SortFacts
import Mathlib.Data.Nat.Choose.Basic

/-! `binomial_coefficient` of `tests/combinations.c`. -/

namespace Satis.Comb

theorem zeros_ok {r : ℕ} : ∀ (k i : ℕ) (C : List ℤ), i + k ≤ r + 1 → r < C.length → (∀ j, j < i → C.getD j 0 = 0) →
    ∃ C', (List.range' i k).foldlM (fun C i => wr C i 0) C = .ok C' ∧ C'.length = C.length ∧
      (∀ j, j < i + k → C'.getD j 0 = 0) := by
  intro k
  induction k with
  | zero => intro i C _ _ h; exact ⟨C, rfl, rfl, h⟩
  | succ k ih =>
    intro i C hi hC h
    obtain ⟨C', e, hl, h'⟩ := ih (i + 1) (C.set i 0) (by omega) (by rw [List.length_set]; exact hC) (by
      intro j hj
      rw [getD_set _ _ _ _ (by omega)]
      split_ifs with hji
      · rfl
      · exact h j (by omega))
    refine ⟨C', ?_, by rw [hl, List.length_set], fun j hj => h' j (by omega)⟩
    rw [List.range'_succ, List.foldlM_cons, wr_ok (by omega)]
    exact e

theorem pascalRow_ok {r i : ℕ} (hint : ∀ j, j ≤ r → ((i + 1).choose j : ℤ) ≤ intMax) :
    ∀ (k : ℕ) (C : List ℤ), k ≤ r → r < C.length →
      (∀ j, j ≤ r → C.getD j 0 = if k < j then ((i + 1).choose j : ℤ) else (i.choose j : ℤ)) →
      ∃ C', (List.range' 1 k).reverse.foldlM (fun C j => do
          let a ← rd C j
          let b ← rd C (j - 1)
          let s ← checked (a + b)
          wr C j s) C = .ok C' ∧ C'.length = C.length ∧
        ∀ j, j ≤ r → C'.getD j 0 = ((i + 1).choose j : ℤ) := by
  intro k
  induction k with
  | zero =>
    intro C _ _ h
    refine ⟨C, rfl, rfl, fun j hj => ?_⟩
    rw [h j hj]
    split_ifs with h0
    · rfl
    · have : j = 0 := by omega
      subst this
      simp
  | succ k ih =>
    intro C hk hC h
    rw [List.range'_1_concat, List.reverse_append, List.reverse_singleton, List.singleton_append, List.foldlM_cons]
    have hval : C.getD (1 + k) 0 + C.getD (1 + k - 1) 0 = ((i + 1).choose (1 + k) : ℤ) := by
      rw [h _ (by omega), h _ (by omega), if_neg (by omega), if_neg (by omega)]
      have : 1 + k - 1 = k := by omega
      rw [this, Nat.add_comm 1 k, Nat.choose_succ_succ']
      push_cast
      omega
    rw [rd_ok (by omega)]
    dsimp only [bind, Except.bind]
    rw [rd_ok (by omega)]
    dsimp only
    rw [hval, checked_ok ⟨le_trans (by decide) (Int.natCast_nonneg _), hint _ (by omega)⟩]
    dsimp only
    rw [wr_ok (by omega)]
    obtain ⟨C', e, hl, h'⟩ := ih (C.set (1 + k) ((i + 1).choose (1 + k) : ℤ)) (by omega)
      (by rw [List.length_set]; exact hC) (by
        intro j hj
        rw [getD_set _ _ _ _ (by omega)]
        by_cases hjk : j = 1 + k
        · subst hjk
          rw [if_pos rfl, if_pos (by omega)]
        · rw [if_neg hjk, h j hj]
          by_cases hlt : k < j
          · rw [if_pos (by omega), if_pos hlt]
          · rw [if_neg (by omega), if_neg hlt])
    exact ⟨C', e, by rw [hl, List.length_set], h'⟩

theorem rows_ok {r n : ℕ} (hint : ∀ j, j ≤ r → (n.choose j : ℤ) ≤ intMax) :
    ∀ (k i : ℕ) (C : List ℤ), i + k = n → r < C.length → (∀ j, j ≤ r → C.getD j 0 = (i.choose j : ℤ)) →
      ∃ C', (List.range' (i + 1) k).foldlM (fun C i => pascalRow r i C) C = .ok C' ∧ C'.length = C.length ∧
        ∀ j, j ≤ r → C'.getD j 0 = (n.choose j : ℤ) := by
  intro k
  induction k with
  | zero => intro i C hi _ h; have hi : i = n := hi; subst hi; exact ⟨C, rfl, rfl, h⟩
  | succ k ih =>
    intro i C hi hC h
    have hint' : ∀ j, j ≤ r → ((i + 1).choose j : ℤ) ≤ intMax := fun j hj =>
      le_trans (by exact_mod_cast Nat.choose_le_choose j (show i + 1 ≤ n by omega)) (hint j hj)
    obtain ⟨C1, e1, l1, h1⟩ := pascalRow_ok hint' (min (i + 1) r) C (by omega) hC (by
      intro j hj
      rw [h j hj]
      split_ifs with hlt
      · rw [Nat.choose_eq_zero_of_lt (show i < j by omega), Nat.choose_eq_zero_of_lt (show i + 1 < j by omega)]
      · rfl)
    obtain ⟨C2, e2, l2, h2⟩ := ih (i + 1) C1 (by omega) (by omega) h1
    refine ⟨C2, ?_, by omega, h2⟩
    rw [List.range'_succ, List.foldlM_cons]
    have : pascalRow r (i + 1) C = .ok C1 := e1
    rw [this]
    exact e2

theorem binomialCoefficient_ok {C : List ℤ} {r n : ℕ} (hr : r < C.length)
    (hint : ∀ j, j ≤ r → (n.choose j : ℤ) ≤ intMax) :
    ∃ C', binomialCoefficient C r n = .ok (C', (n.choose r : ℤ)) ∧ C'.length = C.length := by
  obtain ⟨C1, e1, l1, h1⟩ := zeros_ok (r := r) (r + 1) 0 C (by omega) hr (fun j hj => absurd hj (Nat.not_lt_zero j))
  have h2 : ∀ j, j ≤ r → (C1.set 0 1).getD j 0 = (Nat.choose 0 j : ℤ) := by
    intro j hj
    rw [getD_set _ _ _ _ (by omega)]
    split_ifs with h0
    · subst h0; rfl
    · rw [h1 j (by omega), Nat.choose_eq_zero_of_lt (by omega)]
      rfl
  obtain ⟨C2, e2, l2, h2⟩ := rows_ok hint n 0 (C1.set 0 1) (by omega) (by rw [List.length_set]; omega) h2
  rw [List.length_set] at l2
  refine ⟨C2, ?_, by omega⟩
  unfold binomialCoefficient
  rw [List.range_eq_range', e1]
  dsimp only [bind, Except.bind]
  rw [wr_ok (by omega)]
  dsimp only
  rw [Nat.zero_add] at e2
  rw [e2]
  dsimp only
  rw [rd_ok (by omega), h2 r (le_refl r)]
  rfl

theorem zeros_oob {C : List ℤ} : ∀ (k i : ℕ) (C' : List ℤ), C'.length = C.length → i ≤ C.length → C.length < i + k →
    (List.range' i k).foldlM (fun C i => wr C i 0) C' = (.error .oob : CM _) := by
  intro k
  induction k with
  | zero => intro i C' _ h1 h2; omega
  | succ k ih =>
    intro i C' hl hi hk
    rw [List.range'_succ, List.foldlM_cons]
    by_cases h : i < C'.length
    · rw [wr_ok h]
      exact ih (i + 1) (C'.set i 0) (by rw [List.length_set]; exact hl) (by omega) (by omega)
    · have : wr C' i 0 = .error .oob := if_neg h
      rw [this]
      rfl

theorem binomialCoefficient_oob {C : List ℤ} {r n : ℕ} (hr : C.length ≤ r) :
    binomialCoefficient C r n = .error .oob := by
  unfold binomialCoefficient
  rw [List.range_eq_range', zeros_oob (C := C) (r + 1) 0 C rfl (by omega) (by omega)]
  rfl

end Satis.Comb
