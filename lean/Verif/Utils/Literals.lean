import Verif.Utils.TextLemmas
import Mathlib.Analysis.SpecificLimits.Basic
/-!
# Lemmas about number literals
-/

namespace Satis.Utils
open Satis Spec

theorem digitChar_digit (d : Fin 10) : digit? (digitChar d) = some d.val := by
  revert d; decide

theorem allDigits_map (ds : List (Fin 10)) : AllDigits (ds.map digitChar) := by
  intro c hc
  obtain ⟨d, _, rfl⟩ := List.mem_map.1 hc
  unfold isDigit; rw [digitChar_digit]; rfl

theorem digitsFold_map (ds : List (Fin 10)) : digitsFold 0 (ds.map digitChar) = digitsNat ds := by
  induction ds with
  | nil => rfl
  | cons d ds ih =>
    rw [List.map_cons, ← List.singleton_append, digitsFold_append, digitsFold_shift, ih, List.length_map, digitsNat]
    simp [digitsFold, digitChar_digit]

theorem digitsNat_append (a b : List (Fin 10)) : digitsNat (a ++ b) = digitsNat a * 10 ^ b.length + digitsNat b := by
  induction a with
  | nil => simp [digitsNat]
  | cons d a ih => simp only [List.cons_append, digitsNat, ih, List.length_append, pow_add]; ring

theorem length_rep (r : List (Fin 10)) (k : ℕ) : (List.replicate k r).flatten.length = k * r.length := by simp

theorem digitsNat_rep (r : List (Fin 10)) (k : ℕ) :
    (digitsNat (List.replicate k r).flatten : ℚ) * (10 ^ r.length - 1) = digitsNat r * ((10 ^ r.length) ^ k - 1) := by
  induction k with
  | zero => simp [digitsNat]
  | succ k ih =>
    rw [List.replicate_succ, List.flatten_cons, digitsNat_append, length_rep]
    push_cast
    rw [add_mul, ih, mul_comm k, pow_mul, pow_succ]; ring

theorem decimalValue_rep (w f r : List (Fin 10)) (hr : r ≠ []) (k : ℕ) :
    decimalValue w (f ++ (List.replicate k r).flatten) =
      ((digitsNat w : ℚ) + (digitsNat f : ℚ) / 10 ^ f.length + (digitsNat r : ℚ) / (10 ^ f.length * (10 ^ r.length - 1))) -
      (digitsNat r : ℚ) / (10 ^ f.length * (10 ^ r.length - 1)) * (1 / 10 ^ r.length) ^ k := by
  have h1 : 1 ≤ r.length := List.length_pos_iff.2 hr
  have hB : (10 : ℚ) ≤ 10 ^ r.length := by
    have : (10 : ℚ) ^ 1 ≤ 10 ^ r.length := pow_le_pow_right₀ (by norm_num) h1
    simpa using this
  have hrep := digitsNat_rep r k
  unfold decimalValue
  rw [← List.append_assoc, digitsNat_append, digitsNat_append, List.length_append, length_rep, mul_comm k, pow_add, pow_mul]
  push_cast
  rw [pow_mul]
  generalize (10 : ℚ) ^ r.length = B at *
  generalize (digitsNat (List.replicate k r).flatten : ℚ) = X at *
  have hF : (10 : ℚ) ^ f.length ≠ 0 := by positivity
  generalize (10 : ℚ) ^ f.length = F at *
  have hB0 : B ≠ 0 := by linarith
  have hB1 : B - 1 ≠ 0 := by linarith
  have hX : X = digitsNat r * (B ^ k - 1) / (B - 1) := by
    rw [eq_div_iff hB1]; exact hrep
  rw [hX, div_pow, one_pow]
  have hBk : B ^ k ≠ 0 := pow_ne_zero k hB0
  field_simp
  ring

theorem literal_denotes (l : Literal) (h : l.Valid) : ∃ q, parseFraction l.text = .ok q ∧ l.Denotes q := by
  cases l with
  | integer sg ds =>
    have hd := allDigits_map ds
    have hne : ds.map digitChar ≠ [] := by simpa [Literal.Valid] using h
    have hno : ∀ c ∈ sg.text ++ ds.map digitChar, c ≠ '/' ∧ c ≠ '⧸' ∧ c ≠ '.' := by
      intro c hc
      rcases List.mem_append.1 hc with hc | hc
      · cases sg <;> simp [Sign.text] at hc <;> subst hc <;> decide
      · have := digit_facts c (hd c hc); exact ⟨this.2.2.2.2.1, this.2.2.2.2.2.1, this.2.2.2.2.2.2.1⟩
    refine ⟨(sg.apply (digitsNat ds) : ℤ), ?_, rfl⟩
    simp only [Literal.text]
    unfold parseFraction
    rw [if_neg (fun h => (hno _ h).1 rfl), if_neg (fun h => (hno _ h).2.1 rfl), if_pos (fun h => (hno _ h).2.2 rfl),
      pyInt_signed sg _ hd hne, digitsFold_map]
    rfl
  | ratio big sg a sg' b =>
    obtain ⟨ha, hb⟩ := h
    have hb0 : b ≠ [] := by rintro rfl; exact hb rfl
    refine ⟨_, ?_, rfl⟩
    simp only [Literal.text]
    rw [parseRatio_spec (if big then '⧸' else '/') (by cases big <;> simp) sg sg' _ _ (allDigits_map a) (allDigits_map b)
      (by simpa using ha) (by simpa using hb0), digitsFold_map, digitsFold_map, mkFraction_ok]
    cases sg' <;> simp [Sign.apply] <;> exact hb
  | decimal w f =>
    refine ⟨_, ?_, rfl⟩
    simp only [Literal.text]
    have := parseFraction_decimal _ _ [] (allDigits_map w) (allDigits_map f) (by intro c hc; simp at hc) [] (Or.inl ⟨rfl, rfl⟩)
    rw [List.append_nil] at this
    rw [this, digitsFold_map, digitsFold_map, List.length_map]
    congr 1
    unfold decimalValue
    rw [digitsNat_append]
    have hF : (10 : ℚ) ^ f.length ≠ 0 := by positivity
    push_cast
    rw [add_div, mul_div_cancel_right₀ _ hF]; simp [digitsFold]
  | repeating w f r =>
    have hr : r ≠ [] := h
    refine ⟨_, parseFraction_decimal _ _ _ (allDigits_map w) (allDigits_map f) (allDigits_map r) _ (Or.inr ⟨by simpa using hr, rfl⟩), ?_⟩
    simp only [Literal.Denotes]
    rw [digitsFold_map, digitsFold_map, digitsFold_map, List.length_map, List.length_map]
    simp only [decimalValue_rep w f r hr]
    have h1 : 1 ≤ r.length := List.length_pos_iff.2 hr
    have hB : (1 : ℚ) < 10 ^ r.length := one_lt_pow₀ (by norm_num) (by omega)
    have hlim : Filter.Tendsto (fun k : ℕ => ((1 : ℚ) / 10 ^ r.length) ^ k) Filter.atTop (nhds 0) :=
      tendsto_pow_atTop_nhds_zero_of_lt_one (by positivity) (by rw [div_lt_one (by positivity)]; exact hB)
    have h2 := (hlim.const_mul ((digitsNat r : ℚ) / (10 ^ f.length * (10 ^ r.length - 1)))).const_sub
      ((digitsNat w : ℚ) + (digitsNat f : ℚ) / 10 ^ f.length + (digitsNat r : ℚ) / (10 ^ f.length * (10 ^ r.length - 1)))
    simpa using h2

end Satis.Utils
