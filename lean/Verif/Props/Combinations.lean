import Verif.Side.OldCombFacts
import Verif.Side.BinomialFacts
import Mathlib.Data.Nat.Choose.Basic

/-! C68-C70: `tests/combinations.c`. -/

namespace Satis.Comb

theorem le_intMax {m : ℕ} (h : m ≤ 2147483647) : (m : ℤ) ≤ intMax := by
  have : ((2147483647 : ℕ) : ℤ) = intMax := rfl
  omega

/-- `n` and `r` in the range the arrays are made for: `r` at most `MAX_R`, `n` at most `MAX_N`. The buffers have one
row per element of the binomial coefficient, and the numbers fit into an `int`: then `combinations` ends without
leaving an array and without overflow, and stores every way to take `r` of the values exactly once. -/
theorem C68_combinations (values all₀ sums₀ : List ℤ) (r : ℕ) (hr : r ≤ 3) (hn : values.length ≤ 2 ^ 16)
    (hall : values.length.choose r * r ≤ all₀.length) (hsums : values.length.choose r ≤ sums₀.length)
    (hindex : values.length.choose r * r ≤ 2147483647)
    (hsum : ∀ l : List ℤ, l.Subperm values → l.length ≤ r → -2147483648 ≤ l.sum ∧ l.sum ≤ 2147483647) :
    ∃ (o : Out) (rows : List (List ℤ)) (k : ℕ),
      (∀ fuel, k ≤ fuel → combinations fuel values values.length r all₀ sums₀ = .ok (some o)) ∧
      o.count = rows.length ∧
      o.all = rows.flatten ++ all₀.drop (rows.length * r) ∧
      o.sums = rows.map List.sum ++ sums₀.drop rows.length ∧
      rows.Nodup ∧
      (∀ l : List ℤ, l ∈ rows ↔ l.Pairwise (· ≤ ·) ∧ l.length = r ∧ l.Subperm values) ∧
      rows.length ≤ values.length.choose r := by
  have room : Room values r all₀ sums₀ := ⟨hall, hsums, le_intMax hindex, hsum⟩
  obtain ⟨o, rows, h⟩ := handle room hr r 0 0 (List.replicate maxR 0) [] ⟨all₀, sums₀, 0⟩ [] (by omega) rfl
    (by simpa [maxN] using hn) (by intro t ht; simpa using ht)
    ⟨rfl, by simp, by simp, by simp, by simp, by simp⟩ ⟨by simp, by simp, by simp, by simp⟩
  obtain ⟨k, hk⟩ := h.steps.loop_eq
  refine ⟨o, rows, k, hk, h.holds.count, h.holds.all, h.holds.sums, h.good.nodup, ?_, h.good.length_le⟩
  intro l
  constructor
  · intro hl
    exact ⟨h.good.sorted l hl, h.good.len l hl, h.good.sub l hl⟩
  · rintro ⟨hs, hlen, l', hp, hsub⟩
    obtain ⟨row, hrow, hp'⟩ := h.found l' ⟨l', by simpa using hsub, by rw [hp.length_eq, hlen], by simp⟩
    have : row = l := (hp'.trans hp).eq_of_pairwise' (h.good.sorted row hrow) hs
    rwa [← this]

/-- The values of the commented out test at the end of the file. -/
example : combinations 20 [25, 25, 75, 25] 4 2 (List.replicate 12 0) (List.replicate 6 0)
    = .ok (some ⟨[25, 75, 25, 25, 0, 0, 0, 0, 0, 0, 0, 0], [100, 50, 0, 0, 0, 0], 2⟩) := by decide +kernel

theorem sum_range {values : List ℤ} {m : ℤ} (hm : 0 ≤ m) (hv : ∀ v ∈ values, 0 ≤ v ∧ v ≤ m) :
    ∀ l : List ℤ, l ⊆ values → 0 ≤ l.sum ∧ l.sum ≤ l.length * m := by
  intro l
  induction l with
  | nil => intro _; simp
  | cons a l ih =>
    intro h
    have ha := hv a (h (List.mem_cons_self ..))
    have := ih (fun x hx => h (List.mem_cons_of_mem _ hx))
    rw [List.sum_cons, List.length_cons]
    push_cast
    rw [Int.add_mul]
    omega

/-- The sums fit for all belt speeds: non-negative values up to `INT_MAX / 3`. -/
example (values : List ℤ) (hv : ∀ v ∈ values, 0 ≤ v ∧ v ≤ 715827882) :
    ∀ l : List ℤ, l.Subperm values → l.length ≤ 3 → -2147483648 ≤ l.sum ∧ l.sum ≤ 2147483647 := by
  intro l hl hlen
  have := sum_range (by decide) hv l hl.subset
  have h3 : (l.length : ℤ) ≤ 3 := by exact_mod_cast hlen
  constructor
  · omega
  · omega

theorem pushAll_oob {values : List ℤ} {start index : ℕ} :
    ∀ (is : List ℕ) (cur : List ℤ) (stack : List Frame), (∀ i ∈ is, i < values.length) → index < cur.length →
      stack.length ≤ maxN → maxN < stack.length + is.length →
      pushAll values start index is cur stack = .error .oob := by
  intro is
  induction is with
  | nil => intro cur stack _ _ h1 h2; simp at h2; omega
  | cons i is ih =>
    intro cur stack h hidx h1 h2
    unfold pushAll
    rw [rd_ok (h i (List.mem_cons_self ..))]
    dsimp only [bind, Except.bind]
    rw [wr_ok hidx]
    dsimp only
    rw [List.length_cons] at h2
    by_cases hl : stack.length < maxN
    · have hp : push stack ⟨i + 1, index + 1, cur.set index (values.getD i 0)⟩
          = .ok (⟨i + 1, index + 1, cur.set index (values.getD i 0)⟩ :: stack) := if_pos hl
      rw [hp]
      dsimp only
      exact ih _ _ (fun x hx => h x (List.mem_cons_of_mem _ hx)) (by simpa using hidx)
        (by rw [List.length_cons]; omega) (by rw [List.length_cons]; omega)
    · have hp : push stack ⟨i + 1, index + 1, cur.set index (values.getD i 0)⟩ = .error .oob := if_neg hl
      rw [hp]

/-- The bound on the number of values is exact: one more and the stack array is left. -/
theorem C68_stack_exact (values all₀ sums₀ : List ℤ) (r fuel : ℕ) (hr : 0 < r) (hn : 2 ^ 16 < values.length) :
    combinations (fuel + 1) values values.length r all₀ sums₀ = .error .oob := by
  unfold combinations
  rw [loop, visit]
  dsimp only
  rw [if_neg (by omega), Nat.sub_zero,
    pushAll_oob _ _ _ (by intro i hi; have := List.mem_range'_1.mp hi; omega) (by decide) (by decide)
      (by rw [List.length_range']; simpa [maxN] using hn)]
  rfl

/-- The statement of C69 for `old_combinations`: with buffers for all combinations, the rows stored are exactly the
ways to take `r` of the values. -/
def OldComplete : Prop :=
  ∀ (values junk all₀ sums₀ : List ℤ) (r : ℕ), junk.length = r → values.length.choose r * r ≤ all₀.length →
    values.length.choose r ≤ sums₀.length →
    (∀ l : List ℤ, l.Subperm values → l.length ≤ r → -2147483648 ≤ l.sum ∧ l.sum ≤ 2147483647) →
    values.length.choose r * r ≤ 2147483647 →
    ∃ (o : Out) (rows : List (List ℤ)), oldCombinations junk values values.length r all₀ sums₀ = .ok o ∧
      o.all = rows.flatten ++ all₀.drop (rows.length * r) ∧
      ∀ l : List ℤ, l ∈ rows ↔ l.Pairwise (· ≤ ·) ∧ l.length = r ∧ l.Subperm values

/-- Two out of `1 2 3`: `old_combinations` writes behind the end of buffers that have room for the three
combinations.  Two out of `1 2`: it stores `2 2`.  Two out of `1 2 3 4`: it never stores `3 4`. -/
theorem C69_old_combinations_false :
    oldCombinations [0, 0] [1, 2, 3] 3 2 (List.replicate 6 0) (List.replicate 3 0) = .error .oob ∧
    oldCombinations [0, 0] [1, 2] 2 2 (List.replicate 4 0) (List.replicate 2 0)
      = .ok ⟨[1, 2, 2, 2], [3, 4], 2⟩ ∧
    oldCombinations [0, 0] [1, 2, 3, 4] 4 2 (List.replicate 12 0) (List.replicate 6 0)
      = .ok ⟨[1, 2, 1, 3, 1, 4, 2, 2, 2, 3, 2, 4], [3, 4, 5, 4, 5, 6], 6⟩ ∧
    ¬ OldComplete := by
  have h3 : oldCombinations [0, 0] [1, 2, 3] 3 2 (List.replicate 6 0) (List.replicate 3 0) = .error .oob := by
    decide +kernel
  refine ⟨h3, by decide +kernel, by decide +kernel, ?_⟩
  intro h
  obtain ⟨o, rows, e, _⟩ := h [1, 2, 3] [0, 0] (List.replicate 6 0) (List.replicate 3 0) 2 rfl (by decide) (by decide)
    (by
      intro l hl hlen
      have hb : ∀ v ∈ l, 1 ≤ v ∧ v ≤ 3 := by
        intro v hv
        have := hl.subset hv
        simp at this
        omega
      match l, hlen, hb with
      | [], _, _ => simp
      | [a], _, hb =>
        have := hb a (by simp)
        simp
        omega
      | [a, b], _, hb =>
        have := hb a (by simp)
        have := hb b (by simp)
        simp
        omega
      | _ :: _ :: _ :: _, h, _ => simp at h) (by decide)
  have h3' : oldCombinations [0, 0] [1, 2, 3] ([1, 2, 3] : List ℤ).length 2 (List.replicate 6 0)
    (List.replicate 3 0) = .error .oob := h3
  rw [h3'] at e
  cases e

/-- What holds of `old_combinations`: with room for `n (n - 1) … (n - r + 1)` rows it ends without leaving an array,
and stores different sorted rows of `r` of the values with their sums. A value may be taken more often than it is
there, and rows may be missing. -/
theorem C69_old_combinations_partial (values junk all₀ sums₀ : List ℤ) (r : ℕ) (hj : junk.length = r)
    (hall : values.length.descFactorial r * r ≤ all₀.length) (hsums : values.length.descFactorial r ≤ sums₀.length)
    (hindex : values.length.descFactorial r * r ≤ 2147483647)
    (hsum : ∀ l : List ℤ, (∀ v ∈ l, v ∈ values) → l.length ≤ r → -2147483648 ≤ l.sum ∧ l.sum ≤ 2147483647) :
    ∃ (o : Out) (rows : List (List ℤ)), oldCombinations junk values values.length r all₀ sums₀ = .ok o ∧
      o.count = rows.length ∧
      o.all = rows.flatten ++ all₀.drop (rows.length * r) ∧
      o.sums = rows.map List.sum ++ sums₀.drop rows.length ∧
      rows.Nodup ∧ rows.length ≤ values.length.descFactorial r ∧
      ∀ l ∈ rows, l.Pairwise (· ≤ ·) ∧ l.length = r ∧ ∀ v ∈ l, v ∈ values := by
  have ht : tries values.length r 0 = values.length.descFactorial r := by rw [tries_eq, Nat.sub_zero]
  obtain ⟨cur', o, rows, e, h⟩ := generate (values := values) (N := values.length.descFactorial r) hall hsums
    (le_intMax hindex) hsum r 0 0 junk ⟨all₀, sums₀, 0⟩ [] (by omega) hj
    (fun j hj => absurd hj (Nat.not_lt_zero j))
    ⟨rfl, by simp, by simp, by simp, by simp, by simp⟩ ⟨by simp, by simp, by simp⟩ (by rw [ht]; simp)
  refine ⟨o, rows, ?_, h.holds.count, h.holds.all, h.holds.sums, h.fair.nodup, ?_, ?_⟩
  · unfold oldCombinations
    rw [e]
    rfl
  · have := h.few
    rw [ht] at this
    simpa using this
  · intro l hl
    exact ⟨h.fair.sorted l hl, h.holds.rows_len l hl, h.fair.drawn l hl⟩

/-- Six tries for two out of three values. -/
example : oldCombinations [0, 0] [1, 2, 3] 3 2 (List.replicate 12 0) (List.replicate 6 0)
    = .ok ⟨[1, 2, 1, 3, 2, 2, 2, 3, 0, 0, 0, 0], [3, 4, 4, 5, 0, 0], 4⟩ := by decide +kernel

/-- `binomial_coefficient` computes the binomial coefficient, whatever the global array holds from earlier calls, as
long as the coefficients up to `r` fit into an `int`; for `r > MAX_R` it leaves the array. -/
theorem C70_binomial (C : List ℤ) (hC : C.length = 4) (r n : ℕ) :
    (r ≤ 3 → (∀ j, j ≤ r → n.choose j ≤ 2147483647) →
      ∃ C', binomialCoefficient C r n = .ok (C', (n.choose r : ℤ)) ∧ C'.length = 4) ∧
    (3 < r → binomialCoefficient C r n = .error .oob) := by
  constructor
  · intro hr hint
    obtain ⟨C', e, hl⟩ := binomialCoefficient_ok (C := C) (r := r) (n := n) (by omega)
      (fun j hj => le_intMax (hint j hj))
    exact ⟨C', e, by omega⟩
  · intro hr
    exact binomialCoefficient_oob (by omega)

/-- Three out of twenty; 2345 values, three at a time, is the most that fits. -/
example : binomialCoefficient [7, 7, 7, 7] 3 20 = .ok ([1, 20, 190, 1140], 1140) ∧ Nat.choose 2345 3 ≤ 2147483647 ∧
    ¬ Nat.choose 2346 3 ≤ 2147483647 := by
  refine ⟨by decide +kernel, ?_, ?_⟩ <;> rw [Nat.choose_eq_descFactorial_div_factorial] <;> decide +kernel

end Satis.Comb
