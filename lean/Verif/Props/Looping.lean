import Verif.Side.Looping

/-!
C78, C79: the experiments about looped-back branches.
-/

namespace Satis.Looping
open Cost

/-- The belt after the first splitter of the tree: everything that is fed in, `x` and `l` belts of `x / d`, over two or
three outputs. -/
def realFirstBelt (x : ℚ) (d n l : ℕ) : ℚ := (x + l * (x / d)) / (if n > 0 then 2 else 3)

/-- C78.  The experiment never says 'please no', for no belt within the limit and no division; and that is not an accident
of its formula: with the belts really looped back (`x / d` each) the outputs of the first splitter stay below `x`. -/
theorem C78_never_please_no (limit x : ℚ) (hx : 0 < x) (hlim : x ≤ limit) (d : ℕ) (hd : 1 ≤ d) :
    pleaseNo limit x d = some false ∧
    ∀ n m l s, findNML d = .ok (n, m, l, s) → realFirstBelt x d n l < x ∧ firstBelt x n m l ≤ realFirstBelt x d n l := by
  obtain ⟨n, m, h1, h2, h3, _⟩ := findNML_core d (by omega)
  have hlt : L n m - d < d := findNML_loop_lt d n m (by omega) h2 h3
  have hL : (2 : ℚ) ^ n * 3 ^ m = (L n m : ℕ) := by simp [L]
  have hdq : (0 : ℚ) < d := by exact_mod_cast hd
  have hle : (d : ℚ) ≤ (L n m : ℕ) := by exact_mod_cast h2
  have hlq : ((L n m - d : ℕ) : ℚ) < d := by exact_mod_cast hlt
  have hnn : (0 : ℚ) ≤ ((L n m - d : ℕ) : ℚ) := by positivity
  have hloop : ((L n m - d : ℕ) : ℚ) * (x / d) < x := by
    rw [← mul_div_assoc, div_lt_iff₀ hdq]
    nlinarith
  have hcode : ((L n m - d : ℕ) : ℚ) * (x / (2 ^ n * 3 ^ m)) ≤ ((L n m - d : ℕ) : ℚ) * (x / d) := by
    rw [hL]
    exact mul_le_mul_of_nonneg_left (div_le_div_of_nonneg_left hx.le hdq hle) hnn
  have hreal : realFirstBelt x d n (L n m - d) < x := by
    unfold realFirstBelt
    split_ifs
    · rw [div_lt_iff₀ (by norm_num)]; linarith
    · rw [div_lt_iff₀ (by norm_num)]; linarith
  have hfirst : firstBelt x n m (L n m - d) ≤ realFirstBelt x d n (L n m - d) := by
    unfold firstBelt realFirstBelt
    simp only
    rw [← add_div]
    split_ifs
    · exact div_le_div_of_nonneg_right (by linarith) (by norm_num)
    · exact div_le_div_of_nonneg_right (by linarith) (by norm_num)
  constructor
  · unfold pleaseNo
    rw [h1]
    simp only
    split_ifs
    · rw [Option.some.injEq, decide_eq_false_iff_not]
      intro h
      linarith
    · rfl
  · intro n' m' l' s' h
    rw [h1, Except.ok.injEq, Prod.mk.injEq, Prod.mk.injEq, Prod.mk.injEq] at h
    obtain ⟨rfl, rfl, rfl, _⟩ := h
    exact ⟨hreal, hfirst⟩

/-- C78.  `compute` is the share of each branch that is kept when `l` of the branches of the tree are looped back: the
solution of the balance equation, in closed form `x / (2^n 3^m - l)`. -/
theorem C78_compute (x : ℚ) (n m : ℕ) (l : ℤ) (hl : l ≠ 2 ^ n * 3 ^ m) :
    ∃ t, compute x n m l = some t ∧ t = x / (2 ^ n * 3 ^ m - l) ∧ t * (2 ^ n * 3 ^ m) = x + l * t := by
  have hne : (2 : ℤ) ^ n * 3 ^ m - l ≠ 0 := by omega
  have hq : (2 : ℚ) ^ n * 3 ^ m - l ≠ 0 := by exact_mod_cast hne
  have hd : (2 : ℚ) ^ n * 3 ^ m ≠ 0 := by positivity
  have key : ∀ a : ℚ, a ≠ 0 → a - l ≠ 0 → x / a + l * (x / a) / (a - l) = x / (a - l) := by
    intro a ha hal
    field_simp
    ring
  refine ⟨x / (2 ^ n * 3 ^ m - l), ?_, rfl, ?_⟩
  · unfold compute
    simp only
    rw [if_neg hne, Option.some.injEq]
    push_cast
    exact key _ hd hq
  · have : ∀ a : ℚ, a - l ≠ 0 → x / (a - l) * a = x + l * (x / (a - l)) := by
      intro a hal
      field_simp
      ring
    exact this _ hq

/-- C79 is false: three branches joining a belt need two mergers, it says one. -/
theorem C79_count_merges_false : countMerges 3 = .ok 1 ∧ mergeCost (3 + 1) 1 = 2 := by decide +kernel

/-- It is right exactly for one branch and for an even number of branches; otherwise it is one short. -/
theorem C79_count_merges_partial (l : ℕ) :
    (∃ r : ℤ, countMerges l = .ok r ∧ (mergeCost (l + 1) 1 : ℤ) - 1 ≤ r ∧ r ≤ mergeCost (l + 1) 1) ∧
      (countMerges l = .ok (mergeCost (l + 1) 1 : ℤ) ↔ l = 1 ∨ 2 ∣ l) := by
  rw [countMerges_eq, mergeCost_eq]
  have : (((l : ℤ) + 1 - 1).toNat + 1) / 2 = (l + 1) / 2 := by congr 1; omega
  rw [this]
  constructor
  · refine ⟨_, rfl, ?_⟩
    split_ifs <;> omega
  · rw [Except.ok.injEq]
    split_ifs <;> omega

-- The belt 1200 in seven parts: nine leaves, two looped back; the first splitter has three outputs.
example : pleaseNo 1200 1200 7 = some false ∧ findNML 7 = .ok (0, 2, 2, 4) ∧ realFirstBelt 1200 7 0 2 = 3600 / 7 := by
  refine ⟨(C78_never_please_no 1200 1200 (by norm_num) (le_refl _) 7 (by norm_num)).1, by decide +kernel, ?_⟩
  unfold realFirstBelt
  norm_num
-- Without a division there is nothing to check: `find_n_m_l(0)` raises.
example : pleaseNo 1200 1200 0 = none := by decide +kernel
-- The two calls of `compute` that are commented out.
example : compute 780 1 1 1 = some 156 ∧ compute 28 0 2 2 = some 4 := by decide +kernel

end Satis.Looping
