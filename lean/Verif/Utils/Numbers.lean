import Verif.Utils.Model
import Verif.Utils.Spec
import Mathlib.FieldTheory.Finite.Basic
import Mathlib.Data.Nat.Totient
import Mathlib.Algebra.Order.Archimedean.Basic
import Mathlib.Algebra.Order.Archimedean.Real.Basic
import Mathlib.Tactic.Linarith
import Mathlib.Tactic.Ring
import Mathlib.Tactic.FieldSimp
import Mathlib.Tactic.Positivity
/-!
# Lemmas about `fractions_to_integers`, `decimal_representation_info` and `compute_gcd`
-/

namespace Satis.Utils
open Satis Spec

/-! ### Integral multiples -/

theorem integral_mul_iff (f : ℚ) (n : ℕ) : Integral (f * n) ↔ f.den ∣ n := by
  have hd : (f.den : ℚ) ≠ 0 := by exact_mod_cast f.den_nz
  have hf : f = f.num / f.den := (Rat.num_div_den f).symm
  constructor
  · rintro ⟨z, hz⟩
    have h1 : (f.num * n : ℚ) = z * f.den := by
      rw [← hz]; nth_rw 2 [hf]; field_simp
    have h2 : f.num * (n : ℤ) = z * f.den := by exact_mod_cast h1
    have h3 : f.den ∣ f.num.natAbs * n := by
      have : (f.den : ℤ) ∣ f.num * n := ⟨z, by rw [h2]; ring⟩
      have := Int.natAbs_dvd_natAbs.2 this
      rwa [Int.natAbs_mul, Int.natAbs_natCast, Int.natAbs_natCast] at this
    exact (Nat.Coprime.dvd_of_dvd_mul_left f.reduced.symm h3)
  · rintro ⟨k, rfl⟩
    refine ⟨f.num * k, ?_⟩
    nth_rw 1 [hf]; push_cast; field_simp

/-! ### `fractions_to_integers` -/

theorem foldl_lcm_dvd (l : List ℕ) (a : ℕ) : a ∣ l.foldl Nat.lcm a ∧ ∀ x ∈ l, x ∣ l.foldl Nat.lcm a := by
  induction l generalizing a with
  | nil => simp
  | cons y l ih =>
    obtain ⟨h1, h2⟩ := ih (Nat.lcm a y)
    refine ⟨(Nat.dvd_lcm_left a y).trans h1, ?_⟩
    intro x hx
    rcases List.mem_cons.1 hx with rfl | hx
    · exact (Nat.dvd_lcm_right a x).trans h1
    · exact h2 x hx

theorem foldl_lcm_min (l : List ℕ) (a e : ℕ) (ha : a ∣ e) (h : ∀ x ∈ l, x ∣ e) : l.foldl Nat.lcm a ∣ e := by
  induction l generalizing a with
  | nil => exact ha
  | cons y l ih =>
    exact ih (Nat.lcm a y) (Nat.lcm_dvd ha (h y (by simp))) (fun x hx => h x (by simp [hx]))

theorem den_dvd_common (fs : List ℚ) (f : ℚ) (hf : f ∈ fs) : f.den ∣ commonDenominator fs :=
  (foldl_lcm_dvd _ 1).2 _ (List.mem_map.2 ⟨f, hf, rfl⟩)

theorem common_min (fs : List ℚ) (e : ℕ) (h : ∀ f ∈ fs, Integral (f * e)) : commonDenominator fs ∣ e := by
  refine foldl_lcm_min _ 1 e (one_dvd e) ?_
  intro x hx
  obtain ⟨f, hf, rfl⟩ := List.mem_map.1 hx
  exact (integral_mul_iff f e).1 (h f hf)

theorem common_pos (fs : List ℚ) : 1 ≤ commonDenominator fs := by
  have h : commonDenominator fs ∣ (fs.map fun f => f.den).prod := by
    refine foldl_lcm_min _ 1 _ (one_dvd _) ?_
    intro x hx; exact List.dvd_prod hx
  refine Nat.pos_of_dvd_of_pos h ?_
  refine Nat.pos_of_ne_zero ?_
  rw [Ne, List.prod_eq_zero_iff]
  intro h0
  obtain ⟨f, _, hf⟩ := List.mem_map.1 h0
  exact f.den_nz hf

theorem fractionsToIntegers_cast (fs : List ℚ) :
    (fractionsToIntegers fs).1.map (fun (z : ℤ) => (z : ℚ)) = fs.map (fun f => f * ((fractionsToIntegers fs).2 : ℚ)) := by
  simp only [fractionsToIntegers, List.map_map]
  refine List.map_congr_left ?_
  intro f hf
  obtain ⟨k, hk⟩ := den_dvd_common fs f hf
  have hd : (f.den : ℚ) ≠ 0 := by exact_mod_cast f.den_nz
  simp only [Function.comp]
  rw [hk, Nat.mul_div_cancel_left k f.den_pos]
  nth_rw 2 [← Rat.num_div_den f]
  push_cast; field_simp

/-! ### `decimal_representation_info` -/

theorem factorOut_spec (p : ℕ) (hp : 2 ≤ p) (fuel d k : ℕ) (hd : 1 ≤ d) (hf : d ≤ fuel) :
    ∃ j, (factorOut p fuel d k).2 = k + j ∧ d = p ^ j * (factorOut p fuel d k).1 ∧ ¬ p ∣ (factorOut p fuel d k).1 := by
  induction fuel generalizing d k with
  | zero => omega
  | succ fuel ih =>
    unfold factorOut
    by_cases h : d % p = 0
    · rw [if_pos h]
      have hdv : p * (d / p) = d := Nat.mul_div_cancel' (Nat.dvd_of_mod_eq_zero h)
      have h1 : 1 ≤ d / p := by
        rcases Nat.eq_zero_or_pos (d / p) with h0 | h0
        · rw [h0] at hdv; omega
        · exact h0
      have h2 : d / p < d := Nat.div_lt_self hd hp
      obtain ⟨j, e1, e2, e3⟩ := ih (d / p) (k + 1) h1 (by omega)
      refine ⟨j + 1, by omega, ?_, e3⟩
      rw [pow_succ, mul_comm (p ^ j) p, mul_assoc, ← e2, hdv]
    · rw [if_neg h]
      exact ⟨0, rfl, by simp, fun hdvd => h (Nat.mod_eq_zero_of_dvd hdvd)⟩

/-- The denominator splits as `2 ^ a * 5 ^ b * r` with `r` prime to ten, and `decimalInfo` is a function of `a`, `b`, `r`. -/
theorem decimalInfo_split (f : ℚ) : ∃ a b r, f.den = 2 ^ a * 5 ^ b * r ∧ ¬ 2 ∣ r ∧ ¬ 5 ∣ r ∧
    decimalInfo f = if r = 1 then (true, some (max a b)) else if a = 0 ∧ b = 0 then (false, none) else (false, some (max a b)) := by
  obtain ⟨a, a1, a2, a3⟩ := factorOut_spec 2 (by omega) f.den f.den 0 f.den_pos (le_refl _)
  unfold decimalInfo
  generalize factorOut 2 f.den f.den 0 = s2 at *
  obtain ⟨d2, p2⟩ := s2
  simp only at a1 a2 a3 ⊢
  have hd2 : 1 ≤ d2 := by
    rcases Nat.eq_zero_or_pos d2 with h | h
    · exact absurd (by rw [h]; exact dvd_zero 2) a3
    · exact h
  obtain ⟨b, b1, b2, b3⟩ := factorOut_spec 5 (by omega) d2 d2 0 hd2 (le_refl _)
  generalize factorOut 5 d2 d2 0 = s5 at *
  obtain ⟨d5, p5⟩ := s5
  simp only at b1 b2 b3 ⊢
  simp only [Nat.zero_add] at a1 b1
  subst a1 b1
  refine ⟨p2, p5, d5, by rw [mul_assoc, ← b2, ← a2], ?_, b3, rfl⟩
  intro h
  exact a3 (by rw [b2]; exact h.mul_left _)

theorem coprime_ten {r : ℕ} (h2 : ¬ 2 ∣ r) (h5 : ¬ 5 ∣ r) : Nat.Coprime 10 r := by
  have e2 : Nat.Coprime 2 r := (Nat.Prime.coprime_iff_not_dvd Nat.prime_two).2 h2
  have e5 : Nat.Coprime 5 r := (Nat.Prime.coprime_iff_not_dvd Nat.prime_five).2 h5
  exact Nat.Coprime.mul_left e2 e5

theorem split_dvd {a b k : ℕ} (n : ℕ) (hn : Nat.Coprime 10 n) : 2 ^ a * 5 ^ b ∣ 10 ^ k * n ↔ a ≤ k ∧ b ≤ k := by
  have e2 : Nat.Coprime (2 ^ a) n := (Nat.Coprime.coprime_dvd_left (by norm_num : 2 ∣ 10) hn).pow_left a
  have e5 : Nat.Coprime (5 ^ b) n := (Nat.Coprime.coprime_dvd_left (by norm_num : 5 ∣ 10) hn).pow_left b
  have e10 : (10 : ℕ) ^ k = 2 ^ k * 5 ^ k := by rw [← mul_pow]; rfl
  have c25 : ∀ i j : ℕ, Nat.Coprime (2 ^ i) (5 ^ j) := fun i j => (by norm_num : Nat.Coprime 2 5).pow i j
  constructor
  · intro h
    have h1 : 2 ^ a ∣ 10 ^ k := e2.dvd_of_dvd_mul_right ((dvd_mul_right _ _).trans h)
    have h2 : 5 ^ b ∣ 10 ^ k := e5.dvd_of_dvd_mul_right ((dvd_mul_left _ _).trans h)
    rw [e10] at h1 h2
    exact ⟨(Nat.pow_dvd_pow_iff_le_right (by omega)).1 ((c25 a k).dvd_of_dvd_mul_right h1),
      (Nat.pow_dvd_pow_iff_le_right (by omega)).1 (((c25 k b).symm).dvd_of_dvd_mul_left h2)⟩
  · rintro ⟨h1, h2⟩
    rw [e10]
    exact (Nat.mul_dvd_mul (pow_dvd_pow 2 h1) (pow_dvd_pow 5 h2)).mul_right n

theorem exactWith_iff (f : ℚ) {a b r : ℕ} (h : f.den = 2 ^ a * 5 ^ b * r) (h2 : ¬ 2 ∣ r) (h5 : ¬ 5 ∣ r) (k : ℕ) :
    ExactWith f k ↔ r = 1 ∧ a ≤ k ∧ b ≤ k := by
  have hi := integral_mul_iff f (10 ^ k)
  unfold ExactWith
  push_cast at hi
  rw [hi, h]
  have hs := split_dvd (a := a) (b := b) (k := k) 1 (by norm_num)
  rw [mul_one] at hs
  constructor
  · intro hd
    have hr : r ∣ 10 ^ k := (dvd_mul_left _ _).trans hd
    have hr1 : r = 1 := ((coprime_ten h2 h5).symm.pow_right k).eq_one_of_dvd hr
    exact ⟨hr1, hs.1 ((dvd_mul_right _ _).trans hd)⟩
  · rintro ⟨rfl, hab⟩
    rw [mul_one]; exact hs.2 hab

/-! Decimal digits -/

theorem floor_mul_ten (x : ℚ) : ⌊x * 10⌋ = 10 * ⌊x⌋ + ⌊x * 10⌋ % 10 := by
  have h1 : 10 * ⌊x⌋ ≤ ⌊x * 10⌋ := by
    rw [Int.le_floor]; push_cast
    have := Int.floor_le x
    linarith
  have h2 : ⌊x * 10⌋ < 10 * ⌊x⌋ + 10 := by
    rw [Int.floor_lt]; push_cast
    have := Int.lt_floor_add_one x
    linarith
  omega

theorem digits_determine (A B : ℚ) (h : ∀ k : ℕ, ⌊A * 10 ^ (k + 1)⌋ % 10 = ⌊B * 10 ^ (k + 1)⌋ % 10) :
    B - A = ((⌊B⌋ - ⌊A⌋ : ℤ) : ℚ) := by
  have key : ∀ k : ℕ, ⌊A * 10 ^ k⌋ - 10 ^ k * ⌊A⌋ = ⌊B * 10 ^ k⌋ - 10 ^ k * ⌊B⌋ := by
    intro k
    induction k with
    | zero => simp
    | succ k ih =>
      have ha := floor_mul_ten (A * 10 ^ k)
      have hb := floor_mul_ten (B * 10 ^ k)
      rw [show A * 10 ^ k * 10 = A * 10 ^ (k + 1) by ring] at ha
      rw [show B * 10 ^ k * 10 = B * 10 ^ (k + 1) by ring] at hb
      rw [ha, hb, h k, pow_succ (10 : ℤ) k]
      have : (10 : ℤ) * (⌊A * 10 ^ k⌋ - 10 ^ k * ⌊A⌋) = 10 * (⌊B * 10 ^ k⌋ - 10 ^ k * ⌊B⌋) := by rw [ih]
      linarith
  by_contra hne
  have hpos : 0 < |B - A - ((⌊B⌋ - ⌊A⌋ : ℤ) : ℚ)| := abs_pos.2 (sub_ne_zero.2 hne)
  obtain ⟨k, hk⟩ := pow_unbounded_of_one_lt (1 / |B - A - ((⌊B⌋ - ⌊A⌋ : ℤ) : ℚ)|) (by norm_num : (1 : ℚ) < 10)
  rw [div_lt_iff₀ hpos] at hk
  have hkey : ((⌊A * 10 ^ k⌋ : ℤ) : ℚ) - 10 ^ k * (⌊A⌋ : ℚ) = ((⌊B * 10 ^ k⌋ : ℤ) : ℚ) - 10 ^ k * (⌊B⌋ : ℚ) := by
    exact_mod_cast key k
  have a1 := Int.floor_le (A * 10 ^ k)
  have a2 := Int.lt_floor_add_one (A * 10 ^ k)
  have b1 := Int.floor_le (B * 10 ^ k)
  have b2 := Int.lt_floor_add_one (B * 10 ^ k)
  have hp : (0 : ℚ) < 10 ^ k := by positivity
  rw [← abs_of_pos hp, ← abs_mul, lt_abs] at hk
  push_cast at hk
  rcases hk with hk | hk <;> nlinarith

theorem periodicAfter_iff (x : ℚ) (m : ℕ) :
    PeriodicAfter x m ↔ ∃ p : ℕ, 1 ≤ p ∧ Integral (x * (10 ^ m * (10 ^ p - 1) : ℕ)) := by
  have hcast : ∀ p : ℕ, ((10 ^ m * (10 ^ p - 1) : ℕ) : ℚ) = 10 ^ m * (10 ^ p - 1) := by
    intro p
    rw [Nat.cast_mul, Nat.cast_sub (Nat.one_le_pow _ _ (by omega))]; push_cast; ring
  constructor
  · rintro ⟨p, hp, h⟩
    refine ⟨p, hp, ?_⟩
    have := digits_determine (x * 10 ^ m) (x * 10 ^ (m + p)) (by
      intro k
      have hk := h (m + k) (by omega)
      unfold digit at hk
      rw [show m + k + p + 1 = (m + p) + (k + 1) by ring, show m + k + 1 = m + (k + 1) by ring, pow_add _ (m + p), pow_add _ m (k + 1),
        ← mul_assoc, ← mul_assoc] at hk
      exact hk.symm)
    refine ⟨⌊x * 10 ^ (m + p)⌋ - ⌊x * 10 ^ m⌋, ?_⟩
    rw [hcast]
    have e : x * (10 ^ m * (10 ^ p - 1)) = x * 10 ^ (m + p) - x * 10 ^ m := by rw [pow_add]; ring
    rw [e]; exact this
  · rintro ⟨p, hp, z, hz⟩
    refine ⟨p, hp, ?_⟩
    intro i hi
    rw [hcast] at hz
    obtain ⟨j, rfl⟩ := Nat.exists_eq_add_of_le hi
    unfold digit
    have e : x * 10 ^ (m + j + p + 1) = x * 10 ^ (m + j + 1) + ((10 ^ (j + 1) * z : ℤ) : ℚ) := by
      have hz' : x * (10 ^ m * 10 ^ p) = x * 10 ^ m + z := by linarith
      calc x * 10 ^ (m + j + p + 1) = (x * (10 ^ m * 10 ^ p)) * 10 ^ (j + 1) := by ring
        _ = _ := by rw [hz']; push_cast; ring
    rw [e, Int.floor_add_intCast, pow_succ (10 : ℤ) j, show (10 : ℤ) ^ j * 10 * z = 10 * (10 ^ j * z) by ring, Int.add_mul_emod_self_left]

theorem den_abs (f : ℚ) : |f|.den = f.den := by
  rcases abs_choice f with h | h <;> rw [h]
  exact Rat.neg_den f

theorem periodicAfter_abs_iff (f : ℚ) {a b r : ℕ} (h : f.den = 2 ^ a * 5 ^ b * r) (h2 : ¬ 2 ∣ r) (h5 : ¬ 5 ∣ r) (m : ℕ) :
    PeriodicAfter |f| m ↔ a ≤ m ∧ b ≤ m := by
  rw [periodicAfter_iff]
  simp only [integral_mul_iff, den_abs, h]
  have hc10 := coprime_ten h2 h5
  have hcop : ∀ p, 1 ≤ p → Nat.Coprime 10 (10 ^ p - 1) := by
    intro p hp
    refine coprime_ten ?_ ?_
    · intro hd
      have : 2 ∣ 10 ^ p := dvd_pow (by norm_num) (by omega)
      have h1 : 1 ≤ 10 ^ p := Nat.one_le_pow _ _ (by omega)
      omega
    · intro hd
      have : 5 ∣ 10 ^ p := dvd_pow (by norm_num) (by omega)
      have h1 : 1 ≤ 10 ^ p := Nat.one_le_pow _ _ (by omega)
      omega
  constructor
  · rintro ⟨p, hp, hd⟩
    exact (split_dvd _ (hcop p hp)).1 ((dvd_mul_right _ _).trans hd)
  · intro hab
    have hrpos : 0 < r := by
      rcases Nat.eq_zero_or_pos r with h0 | h0
      · exact absurd (by rw [h0]; exact dvd_zero 2) h2
      · exact h0
    refine ⟨Nat.totient r, Nat.totient_pos.2 hrpos, ?_⟩
    have hmod := Nat.ModEq.pow_totient hc10
    have hr : r ∣ 10 ^ Nat.totient r - 1 := (Nat.modEq_iff_dvd' (Nat.one_le_pow _ _ (by omega))).1 hmod.symm
    have hs := (split_dvd (a := a) (b := b) (k := m) 1 (by norm_num)).2 hab
    rw [mul_one] at hs
    exact Nat.mul_dvd_mul hs hr

/-! ### `compute_gcd` -/

theorem foldl_gcd_dvd (xs : List ℤ) (x : ℤ) : (xs.foldl (fun a b => (Int.gcd a b : ℤ)) x) ∣ x ∧
    ∀ y ∈ xs, (xs.foldl (fun a b => (Int.gcd a b : ℤ)) x) ∣ y := by
  induction xs generalizing x with
  | nil => simp
  | cons y xs ih =>
    obtain ⟨h1, h2⟩ := ih (Int.gcd x y : ℤ)
    refine ⟨h1.trans (Int.gcd_dvd_left ..), ?_⟩
    intro z hz
    rcases List.mem_cons.1 hz with rfl | hz
    · exact h1.trans (Int.gcd_dvd_right ..)
    · exact h2 z hz

theorem dvd_foldl_gcd (xs : List ℤ) (x d : ℤ) (hx : d ∣ x) (h : ∀ y ∈ xs, d ∣ y) :
    d ∣ xs.foldl (fun a b => (Int.gcd a b : ℤ)) x := by
  induction xs generalizing x with
  | nil => exact hx
  | cons y xs ih => exact ih _ (Int.dvd_coe_gcd hx (h y (by simp))) (fun z hz => h z (by simp [hz]))

theorem foldl_gcd_nonneg (xs : List ℤ) (x : ℤ) (hx : 0 ≤ x) : 0 ≤ xs.foldl (fun a b => (Int.gcd a b : ℤ)) x := by
  induction xs generalizing x with
  | nil => exact hx
  | cons y xs ih => exact ih _ (by positivity)

/-! ### `all_sums` -/

theorem mem_update_keys (d e : Dict ℤ ℕ) (k : ℤ) : k ∈ (d.update e).keys ↔ k ∈ d.keys ∨ k ∈ e.keys := by
  unfold Dict.update
  induction e generalizing d with
  | nil => simp [Dict.keys]
  | cons kv e ih =>
    rw [List.foldl_cons, ih, Dict.mem_keys_set]
    simp only [Dict.keys, List.map_cons, List.mem_cons]; tauto

theorem get_update (d e : Dict ℤ ℕ) (k : ℤ) (v : ℕ) (h : (d.update e).get? k = some v) : d.get? k = some v ∨ (k, v) ∈ e := by
  unfold Dict.update at h
  induction e generalizing d with
  | nil => exact Or.inl h
  | cons kv e ih =>
    rw [List.foldl_cons] at h
    rcases ih _ h with h' | h'
    · rw [Dict.get?_set] at h'
      split at h'
      · rename_i hk; right; simp at h'; simp [hk, ← h']
      · exact Or.inl h'
    · right; simp [h']

theorem new_eq (sums : Dict ℤ ℕ) (num : ℤ) :
    sums.foldl (fun (d : Dict ℤ ℕ) kv => d.set (kv.1 + num) (kv.2 + 1)) [] =
      Dict.update [] (sums.map fun kv => (kv.1 + num, kv.2 + 1)) := by
  unfold Dict.update; rw [List.foldl_map]

theorem sumsStep_keys_nodup (d : Dict ℤ ℕ) (num : ℤ) (h : d.keys.Nodup) : (sumsStep d num).keys.Nodup := by
  unfold sumsStep Dict.update
  generalize List.foldl _ _ d = e
  induction e generalizing d with
  | nil => exact h
  | cons kv e ih => exact ih _ (Dict.keys_nodup_set _ _ _ h)

theorem sumsStep_mem (d : Dict ℤ ℕ) (num k : ℤ) :
    k ∈ (sumsStep d num).keys ↔ k ∈ d.keys ∨ ∃ s ∈ d.keys, k = s + num := by
  unfold sumsStep
  simp only
  rw [mem_update_keys, new_eq, mem_update_keys]
  simp only [Dict.keys, List.map_map, List.map_nil, List.not_mem_nil, false_or, List.mem_map, Function.comp]
  constructor
  · rintro (h | ⟨a, ha, rfl⟩)
    · exact Or.inl h
    · exact Or.inr ⟨a.1, ⟨a, ha, rfl⟩, rfl⟩
  · rintro (h | ⟨s, ⟨a, ha, rfl⟩, rfl⟩)
    · exact Or.inl h
    · exact Or.inr ⟨a, ha, rfl⟩

theorem sumsStep_get (d : Dict ℤ ℕ) (num k : ℤ) (v : ℕ) (h : (sumsStep d num).get? k = some v) :
    d.get? k = some v ∨ ∃ s c, (s, c) ∈ d ∧ k = s + num ∧ v = c + 1 := by
  unfold sumsStep at h
  rcases get_update _ _ _ _ h with h | h
  · exact Or.inl h
  · right
    rw [new_eq] at h
    have hn : (Dict.update ([] : Dict ℤ ℕ) (d.map fun kv => (kv.1 + num, kv.2 + 1))).keys.Nodup := by
      unfold Dict.update
      generalize d.map _ = e
      have : ∀ (d : Dict ℤ ℕ), d.keys.Nodup → (e.foldl (fun d kv => d.set kv.1 kv.2) d).keys.Nodup := by
        induction e with
        | nil => intro d hd; exact hd
        | cons kv e ih => intro d hd; exact ih _ (Dict.keys_nodup_set _ _ _ hd)
      exact this [] (by simp [Dict.keys])
    rcases get_update _ _ _ _ (Dict.get?_of_mem _ hn _ _ h) with h' | h'
    · simp [Dict.get?] at h'
    · obtain ⟨a, ha, he⟩ := List.mem_map.1 h'
      simp only [Prod.mk.injEq] at he
      exact ⟨a.1, a.2, ha, he.1.symm, he.2.symm⟩

/-- The dictionary after the loop. -/
theorem sums_inv (numbers : List ℤ) :
    (numbers.foldl sumsStep [(0, 0)]).keys.Nodup ∧
    (∀ s, s ∈ (numbers.foldl sumsStep [(0, 0)]).keys ↔ ∃ n, SubSum numbers s n) ∧
    ∀ s n, (numbers.foldl sumsStep [(0, 0)]).get? s = some n → SubSum numbers s n := by
  induction numbers using List.reverseRecOn with
  | nil =>
    refine ⟨by simp [Dict.keys], ?_, ?_⟩
    · intro s
      simp [Dict.keys, SubSum, eq_comm]
    · intro s n h
      simp only [List.foldl_nil, Dict.get?] at h
      split at h
      · rename_i h0; simp at h; exact ⟨[], by simp, by simpa using h0, by simpa using h⟩
      · simp at h
  | append_singleton l x ih =>
    obtain ⟨i1, i2, i3⟩ := ih
    rw [List.foldl_append, List.foldl_cons, List.foldl_nil]
    have mono : ∀ s n, SubSum l s n → SubSum (l ++ [x]) s n := by
      rintro s n ⟨sub, h1, h2, h3⟩
      exact ⟨sub, h1.trans (List.sublist_append_left _ _), h2, h3⟩
    have add : ∀ s n, SubSum l s n → SubSum (l ++ [x]) (s + x) (n + 1) := by
      rintro s n ⟨sub, h1, h2, h3⟩
      exact ⟨sub ++ [x], h1.append (List.Sublist.refl _), by simp [h2], by simp [h3]⟩
    refine ⟨sumsStep_keys_nodup _ _ i1, ?_, ?_⟩
    · intro s
      rw [sumsStep_mem, i2]
      constructor
      · rintro (⟨n, h⟩ | ⟨t, ht, rfl⟩)
        · exact ⟨n, mono s n h⟩
        · obtain ⟨n, h⟩ := (i2 t).1 ht
          exact ⟨n + 1, add t n h⟩
      · rintro ⟨n, sub, h1, h2, h3⟩
        obtain ⟨u, v, rfl, hu, hv⟩ := List.sublist_append_iff.1 h1
        rcases List.sublist_singleton.1 hv with rfl | rfl
        · left; exact ⟨_, u, hu, by simpa using h2, rfl⟩
        · right; exact ⟨u.sum, (i2 _).2 ⟨_, u, hu, rfl, rfl⟩, by simpa using h2.symm⟩
    · intro s n h
      rcases sumsStep_get _ _ _ _ h with h | ⟨t, c, ht, rfl, rfl⟩
      · exact mono s n (i3 s n h)
      · exact add t c (i3 t c (Dict.get?_of_mem _ i1 _ _ ht))

theorem get_update_eq (d e : Dict ℤ ℕ) (he : e.keys.Nodup) (k : ℤ) : (d.update e).get? k = match e.get? k with
    | none => d.get? k
    | some v => some v := by
  unfold Dict.update
  induction e generalizing d with
  | nil => rfl
  | cons kv e ih =>
    have hn := List.nodup_cons.1 he
    rw [List.foldl_cons, ih _ hn.2]
    simp only [Dict.get?]
    by_cases hk : kv.1 = k
    · rw [if_pos hk, (Dict.get?_eq_none e k).2 (by rw [← hk]; exact hn.1)]
      simp only [Dict.get?_set]
      rw [if_pos hk.symm]
    · rw [if_neg hk, Dict.get?_set, if_neg (Ne.symm hk)]

theorem get_shift (d : Dict ℤ ℕ) (x k : ℤ) : Dict.get? (d.map fun kv => (kv.1 + x, kv.2 + 1)) k = (d.get? (k - x)).map (· + 1) := by
  induction d with
  | nil => rfl
  | cons kv d ih =>
    simp only [List.map_cons, Dict.get?]
    by_cases h : kv.1 = k - x
    · rw [if_pos h, if_pos (by omega)]; rfl
    · rw [if_neg h, if_neg (by omega), ih]

/-- A sum that the new number can be part of is counted with it, and otherwise as before. -/
theorem sumsStep_get_eq (d : Dict ℤ ℕ) (hd : d.keys.Nodup) (x k : ℤ) : (sumsStep d x).get? k = match d.get? (k - x) with
    | none => d.get? k
    | some n => some (n + 1) := by
  have hk : (Dict.keys (d.map fun kv => (kv.1 + x, kv.2 + 1))).Nodup := by
    have : Dict.keys (d.map fun kv => (kv.1 + x, kv.2 + 1)) = d.keys.map (· + x) := by simp [Dict.keys]
    rw [this]
    exact hd.map (add_left_injective x)
  have hn : ∀ (e f : Dict ℤ ℕ), f.keys.Nodup → (f.update e).keys.Nodup := by
    intro e
    unfold Dict.update
    induction e with
    | nil => intro f hf; exact hf
    | cons kv e ih => intro f hf; exact ih _ (Dict.keys_nodup_set _ _ _ hf)
  unfold sumsStep
  simp only
  rw [new_eq, get_update_eq _ _ (hn _ _ (by simp [Dict.keys])), get_update_eq _ _ hk, get_shift]
  cases d.get? (k - x) <;> rfl

theorem sums_taken (numbers : List ℤ) (s : ℤ) (n : ℕ) (h : (numbers.foldl sumsStep [(0, 0)]).get? s = some n) : Taken numbers s n := by
  induction numbers using List.reverseRecOn generalizing s n with
  | nil =>
    simp only [List.foldl_nil, Dict.get?] at h
    split at h
    · rename_i h0
      cases h
      subst h0
      exact .none
    · simp at h
  | append_singleton l x ih =>
    obtain ⟨i1, i2, -⟩ := sums_inv l
    rw [List.foldl_append, List.foldl_cons, List.foldl_nil, sumsStep_get_eq _ i1] at h
    cases e : (l.foldl sumsStep [(0, 0)]).get? (s - x) with
    | none =>
      rw [e] at h
      exact .leave (fun w => (Dict.get?_eq_none _ _).1 e ((i2 _).2 w)) (ih s n h)
    | some m =>
      rw [e] at h
      cases h
      refine .take ((i2 _).1 ?_) (ih _ m e)
      by_contra hc
      rw [(Dict.get?_eq_none _ _).2 hc] at e
      cases e

theorem keys_filter (d : Dict ℤ ℕ) (k x : ℤ) : x ∈ Dict.keys (d.filter (fun kv => kv.1 ≠ k)) ↔ x ∈ d.keys ∧ x ≠ k := by
  simp only [Dict.keys, List.mem_map, List.mem_filter]
  constructor
  · rintro ⟨a, ⟨ha, hk⟩, rfl⟩; exact ⟨⟨a, ha, rfl⟩, by simpa using hk⟩
  · rintro ⟨⟨a, ha, rfl⟩, hk⟩; exact ⟨a, ⟨ha, by simpa using hk⟩, rfl⟩

theorem get_filter (d : Dict ℤ ℕ) (k x : ℤ) (v : ℕ) (h : Dict.get? (d.filter (fun kv => kv.1 ≠ k)) x = some v) :
    d.get? x = some v := by
  induction d with
  | nil => simp [Dict.get?] at h
  | cons kv d ih =>
    obtain ⟨a, b⟩ := kv
    by_cases ha : a = k
    · rw [List.filter_cons_of_neg (by simp [ha])] at h
      have hx := (keys_filter d k x).1 (by
        by_contra hn; rw [(Dict.get?_eq_none _ _).2 hn] at h; simp at h)
      simp only [Dict.get?]
      rw [if_neg (by rw [ha]; exact fun e => hx.2 e.symm)]; exact ih h
    · rw [List.filter_cons_of_pos (by simp [ha])] at h
      simp only [Dict.get?] at h ⊢
      split at h
      · rename_i e; rw [if_pos e]; exact h
      · rename_i e; rw [if_neg e]; exact ih h

end Satis.Utils
