import Verif.Side.Show
import Mathlib.Tactic.Linarith
import Mathlib.Tactic.NormNum
import Mathlib.Tactic.Ring
import Mathlib.Tactic.FieldSimp
import Mathlib.Algebra.Order.Archimedean.Basic
import Mathlib.Data.Rat.Floor

/-!
C86: the demonstration of a looped-back belt in `tests/show.py` ends for every rounding that takes the numbers near 2 to 2, and then shows the
flows within that distance of the steady ones; with the rounding of Python's floats it takes 21 rounds.
-/

namespace Satis.Show

/-- The flows `k` rounds after the first: what is missing from the steady flows 12, 6, 6 and five times 2. -/
def near (k : ℕ) : Flows :=
  let m := 1 / 3 / 6 ^ k
  ⟨12 - 6 * m, 6 - 3 * m, 6 - 3 * m, 2 - m, 2 - m, 2 - m, 2 - m, 2 - m⟩

theorem first : round start = near 0 := by
  simp only [round, start, near, pow_zero]
  norm_num

theorem next (k : ℕ) : round (near k) = near (k + 1) := by
  have h : (6 : ℚ) ^ k ≠ 0 := pow_ne_zero _ (by norm_num)
  simp only [round, near, Flows.mk.injEq, pow_succ]
  refine ⟨?_, ?_, ?_, ?_, ?_, ?_, ?_, ?_⟩ <;> field_simp <;> ring

theorem goesOn_near (float : ℚ → ℚ) (k : ℕ) : goesOn float (near k) = decide (float (2 - 1 / 3 / 6 ^ k) ≠ 2) := by
  simp [goesOn, near]

theorem loop_near (float : ℚ → ℚ) (K : ℕ) (hK : float (2 - 1 / 3 / 6 ^ K) = 2) (hmin : ∀ k < K, float (2 - 1 / 3 / 6 ^ k) ≠ 2) :
    ∀ d k, k + d = K → ∀ n fuel, d ≤ fuel → loop float fuel n (near k) = some (n + d, near K)
  | 0, k, h, n, fuel, _ => by
    have : k = K := by omega
    subst this
    have q : goesOn float (near k) = false := by rw [goesOn_near]; simpa using hK
    cases fuel <;> simp [loop, q]
  | d + 1, k, h, n, fuel, hf => by
    obtain ⟨fuel, rfl⟩ : ∃ f, fuel = f + 1 := ⟨fuel - 1, by omega⟩
    have q : goesOn float (near k) = true := by rw [goesOn_near]; simpa using hmin k (by omega)
    rw [loop, if_pos q, next, loop_near float K hK hmin d (k + 1) (by omega) (n + 1) fuel (by omega)]
    congr 2
    omega

theorem loop_start (float : ℚ → ℚ) (h0 : float 0 ≠ 2) (K : ℕ) (hK : float (2 - 1 / 3 / 6 ^ K) = 2)
    (hmin : ∀ k < K, float (2 - 1 / 3 / 6 ^ k) ≠ 2) (fuel : ℕ) (hf : K < fuel) : loop float fuel 0 start = some (K + 1, near K) := by
  obtain ⟨fuel, rfl⟩ : ∃ f, fuel = f + 1 := ⟨fuel - 1, by omega⟩
  have q : goesOn float start = true := by simp [goesOn, start, h0]
  rw [loop, if_pos q, first, loop_near float K hK hmin K 0 (by omega) 1 fuel (by omega), Nat.add_comm]

/-- The flows of the network the script follows: `a` is what comes in and what is looped back, the rest are halves and thirds. -/
structure Steady (s : Flows) : Prop where
  merged : s.a = 10 + s.b / 3
  halves : s.b = s.a / 2 ∧ s.c = s.a / 2
  thirds : s.d = s.b / 3 ∧ s.e = s.b / 3 ∧ s.f = s.c / 3 ∧ s.g = s.c / 3 ∧ s.h = s.c / 3

/-- The network has one steady state: five outputs of 2. -/
theorem C86_steady (s : Flows) : Steady s ↔ s = ⟨12, 6, 6, 2, 2, 2, 2, 2⟩ := by
  constructor
  · rintro ⟨h1, ⟨h2, h3⟩, h4, h5, h6, h7, h8⟩
    have ha : s.a = 12 := by linarith
    obtain ⟨a, b, c, d, e, f, g, h⟩ := s
    simp only at *
    subst ha
    simp only [Flows.mk.injEq]
    refine ⟨trivial, ?_, ?_, ?_, ?_, ?_, ?_, ?_⟩ <;> linarith
  · rintro rfl
    constructor <;> norm_num

/-- For every rounding that keeps 0 apart from 2 and takes all numbers close enough to 2 to 2 the loop ends. In the end the outputs look like
2, are less than 2, all five alike, and each flow is as far below its steady value as its size makes it. -/
theorem C86_loop_ends (float : ℚ → ℚ) (h0 : float 0 ≠ 2) (ε : ℚ) (hε : 0 < ε) (hnear : ∀ x, 2 - ε < x → x < 2 → float x = 2) :
    ∃ n s, (∀ fuel, n ≤ fuel → loop float fuel 0 start = some (n, s)) ∧ float s.d = 2 ∧ s.d < 2 ∧ s.e = s.d ∧ s.f = s.d ∧ s.g = s.d ∧ s.h = s.d ∧
      s.a = 6 * s.d ∧ s.b = 3 * s.d ∧ s.c = 3 * s.d ∧ 10 - (s.d + s.e + s.f + s.g + s.h) = 5 * (2 - s.d) := by
  have ex : ∃ k, float (2 - 1 / 3 / 6 ^ k) = 2 := by
    obtain ⟨k, hk⟩ := pow_unbounded_of_one_lt (1 / ε) (show (1 : ℚ) < 6 by norm_num)
    have p : (0 : ℚ) < 6 ^ k := pow_pos (by norm_num) k
    refine ⟨k, hnear _ ?_ ?_⟩
    · have : 1 < 6 ^ k * ε := (div_lt_iff₀ hε).1 hk
      have : (1 : ℚ) / 3 / 6 ^ k < ε := by
        rw [div_lt_iff₀ p]
        linarith [mul_comm ε ((6 : ℚ) ^ k)]
      linarith
    · have : (0 : ℚ) < 1 / 3 / 6 ^ k := by positivity
      linarith
  classical
  have p : (0 : ℚ) < 1 / 3 / 6 ^ Nat.find ex := by positivity
  refine ⟨Nat.find ex + 1, near (Nat.find ex), fun fuel hf => loop_start float h0 _ (Nat.find_spec ex) (fun k hk => Nat.find_min ex hk) fuel hf,
    Nat.find_spec ex, ?_, rfl, rfl, rfl, rfl, ?_, ?_, ?_, ?_⟩
  · show 2 - 1 / 3 / 6 ^ Nat.find ex < (2 : ℚ)
    linarith
  all_goals
    simp only [near]
    ring

/-- With the rounding of Python's floats between 1 and 2 - the floats there are 2⁻⁵² apart, and halfway goes to 2 - the loop makes 21 rounds. -/
theorem C86_rounds (float : ℚ → ℚ) (h0 : float 0 ≠ 2) (hfloat : ∀ x, 1 ≤ x → x < 2 → (float x = 2 ↔ 2 - x ≤ 1 / 2 ^ 53)) (fuel : ℕ)
    (hf : 21 ≤ fuel) : loop float fuel 0 start = some (21, near 20) := by
  refine loop_start float h0 20 ?_ (fun k hk => ?_) fuel hf
  · rw [hfloat _ (by norm_num) (by norm_num)]
    norm_num
  · have h1 : (1 : ℚ) ≤ 6 ^ k := one_le_pow₀ (by norm_num)
    have h2 : (6 : ℚ) ^ k ≤ 6 ^ 19 := pow_le_pow_right₀ (by norm_num) (by omega)
    have p : (0 : ℚ) < 6 ^ k := by linarith
    rw [Ne, hfloat]
    · rw [not_le, sub_sub_cancel, lt_div_iff₀ p]
      norm_num at h2 ⊢
      linarith
    · have : (1 : ℚ) / 3 / 6 ^ k ≤ 1 := by
        rw [div_le_iff₀ p]
        linarith
      linarith
    · have : (0 : ℚ) < 1 / 3 / 6 ^ k := by positivity
      linarith

-- Rounding to the next multiple of 1/100: four rounds. The hypotheses of the theorems are met.
example : loop (fun x => if 2 - 1 / 200 < x ∧ x < 2 + 1 / 200 then 2 else x) 10 0 start =
    some (4, ⟨1295 / 108, 1295 / 216, 1295 / 216, 1295 / 648, 1295 / 648, 1295 / 648, 1295 / 648, 1295 / 648⟩) := by decide +kernel

example : ∃ float : ℚ → ℚ, float 0 ≠ 2 ∧ ∀ x, 1 ≤ x → x < 2 → (float x = 2 ↔ 2 - x ≤ 1 / 2 ^ 53) :=
  ⟨fun x => if 2 - x ≤ 1 / 2 ^ 53 then 2 else x, by norm_num, fun x _ h => by
    by_cases q : 2 - x ≤ 1 / 2 ^ 53
    · simp only [q, if_true]
    · simp only [q, if_false, iff_false]
      exact h.ne⟩

end Satis.Show
