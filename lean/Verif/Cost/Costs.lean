import Verif.Cost.Looping
import Mathlib.Tactic.FieldSimp
import Mathlib.Tactic.Linarith
import Mathlib.Data.Int.GCD
import Mathlib.Tactic.IntervalCases
/-!
# `merge_cost`, `extract_cost`, `divide_cost`
-/

namespace Satis.Cost
open Satis Satis.Spec

/-! ### Mergers -/

theorem mergeLoop_eq (t : Int) : ∀ fuel (n : Int) r, (n - t).toNat ≤ fuel → mergeLoop t fuel n r = r + ((n - t).toNat + 1) / 2 := by
  intro fuel
  induction fuel with
  | zero => intro n r h; simp [mergeLoop]; omega
  | succ fuel ih =>
    intro n r h
    simp only [mergeLoop]
    split
    · rw [ih _ _ (by omega)]; omega
    · omega

theorem mergeCost_eq (n t : Int) : mergeCost n t = ((n - t).toNat + 1) / 2 := by
  unfold mergeCost
  split
  · omega
  · rw [mergeLoop_eq t _ n 0 le_rfl]; omega

theorem mergeSteps_bound {k n t : Nat} (h : MergeSteps k n t) : n ≤ t + 2 * k := by
  induction h with
  | done => omega
  | two _ ih => omega
  | three _ ih => omega

theorem mergeSteps_exists (t : Nat) (ht : 1 ≤ t) (k : Nat) : ∀ n, t < n → (n - t + 1) / 2 = k → MergeSteps k n t := by
  induction k with
  | zero => intro n h1 h2; omega
  | succ k ih =>
    intro n h1 h2
    by_cases h3 : n = t + 1
    · subst h3
      have : k = 0 := by omega
      subst this
      obtain ⟨s, rfl⟩ : ∃ s, t = s + 1 := ⟨t - 1, by omega⟩
      exact MergeSteps.two (MergeSteps.done _)
    · by_cases h4 : n = t + 2
      · subst h4
        have : k = 0 := by omega
        subst this
        obtain ⟨s, rfl⟩ : ∃ s, t = s + 1 := ⟨t - 1, by omega⟩
        exact MergeSteps.three (MergeSteps.done _)
      · obtain ⟨s, rfl⟩ : ∃ s, n = s + 3 := ⟨n - 3, by omega⟩
        exact MergeSteps.three (ih (s + 1) (by omega) (by omega))

/-! ### Saved splitters -/

theorem Sat_Lat_succ (n m i : Nat) (h : i < n + m) :
    Sat n m (i + 1) * Lat n m i < Sat n m i * Lat n m (i + 1) := by
  have hp := Lat_pos n m (i + 1)
  by_cases hn : i < n
  · rw [Lat_succ_n n m i hn, Sat_succ_n n m i hn]; nlinarith
  · rw [Lat_succ_m n m i (by omega) h, Sat_succ_m n m i (by omega) h]; nlinarith

theorem Sat_Lat (n m i : Nat) (h0 : 1 ≤ i) (h : i ≤ n + m) :
    Sat n m i * Lat n m 0 < Sat n m 0 * Lat n m i := by
  induction i with
  | zero => omega
  | succ i ih =>
    have h1 := Sat_Lat_succ n m i (by omega)
    rcases Nat.eq_zero_or_pos i with rfl | hi
    · exact h1
    · have h2 := ih hi (by omega)
      have hp := Lat_pos n m i
      have hq := Lat_pos n m (i + 1)
      have hr := Lat_pos n m 0
      have e1 : Sat n m (i + 1) * Lat n m i * Lat n m 0 < Sat n m i * Lat n m (i + 1) * Lat n m 0 := by gcongr
      have e2 : Sat n m i * Lat n m 0 * Lat n m (i + 1) < Sat n m 0 * Lat n m i * Lat n m (i + 1) := by gcongr
      have e3 : (Sat n m (i + 1) * Lat n m 0) * Lat n m i < (Sat n m 0 * Lat n m (i + 1)) * Lat n m i := by
        calc _ = Sat n m (i + 1) * Lat n m i * Lat n m 0 := by ring
          _ < _ := e1
          _ = Sat n m i * Lat n m 0 * Lat n m (i + 1) := by ring
          _ < _ := e2
          _ = _ := by ring
      exact lt_of_mul_lt_mul_right e3 (Nat.zero_le _)

theorem saved_le (n m : Nat) (sel : List Nat) (h : ∀ i ∈ sel, 1 ≤ i ∧ i ≤ n + m) :
    tot (Sat n m) sel * Lat n m 0 + sel.length ≤ Sat n m 0 * tot (Lat n m) sel := by
  induction sel with
  | nil => simp
  | cons i sel ih =>
    have h1 := ih (fun j hj => h j (by simp [hj]))
    obtain ⟨h2, h3⟩ := h i (by simp)
    have h4 := Sat_Lat n m i h2 h3
    simp only [tot_cons, List.length_cons]
    nlinarith

/-- Selections with fewer leaves than the tree never save all its splitters. -/
theorem saved_lt (n m : Nat) (sel : List Nat) (hsel : ∀ i ∈ sel, 1 ≤ i ∧ i ≤ n + m) (hne : sel ≠ [])
    (ht : tot (Lat n m) sel ≤ Lat n m 0) : tot (Sat n m) sel < Sat n m 0 := by
  have h := saved_le n m sel hsel
  have hl : 0 < sel.length := List.length_pos_iff.2 hne
  have hp := Lat_pos n m 0
  by_contra hc
  have : Sat n m 0 * tot (Lat n m) sel ≤ tot (Sat n m) sel * Lat n m 0 := Nat.mul_le_mul (by omega) ht
  omega

theorem tot_append (f : Nat → Nat) (a b : List Nat) : tot f (a ++ b) = tot f a + tot f b := by simp [tot]

theorem gsel_depth (n m l : Nat) (h : l < L n m) : ∀ i ∈ gsel n m l l, 1 ≤ i ∧ i ≤ n + m := by
  intro i hi
  obtain ⟨g1, g2⟩ := gsel_greedy n m l l le_rfl
  refine ⟨?_, g1.depth i hi⟩
  by_contra hc
  have : i = 0 := by omega
  subst this
  have := g2 0 hi
  unfold Lat at this
  simp at this
  omega

theorem gsel_total (n m l : Nat) : tot (Lat n m) (gsel n m l l) = l := (gsel_greedy n m l l le_rfl).1.total

theorem gsel_zero (n m : Nat) : gsel n m 0 0 = [] := rfl

theorem Sat0 (n m : Nat) : Sat n m 0 = S n m := by simp [Sat]
theorem Lat0 (n m : Nat) : Lat n m 0 = L n m := by simp [Lat]

theorem gsel_ne (n m l : Nat) (h : 0 < l) : gsel n m l l ≠ [] := by
  intro hc
  have := gsel_total n m l
  rw [hc] at this
  simp at this; omega

/-! ### extract_cost -/

/-- Quantities of an extraction: the divisor `d = x // gcd(x, x - c)` and `c = e * (x / d)`. -/
theorem extract_arith (x c : Int) (hc : 0 < c) (hx : c < x) :
    ∃ g d e : Nat, 0 < g ∧ x = g * d ∧ c = g * e ∧ 0 < e ∧ e < d ∧ Int.gcd x (x - c) = g ∧
      (x / (Int.gcd x (x - c) : Int)).toNat = d ∧ ⌊(c : ℚ) / ((x : ℚ) / (d : ℚ))⌋ = (e : Int) := by
  have hg0 : 0 < Int.gcd x (x - c) := Int.gcd_pos_of_ne_zero_left _ (by omega)
  obtain ⟨d, hd⟩ := Int.gcd_dvd_left x (x - c)
  obtain ⟨b, hb⟩ := Int.gcd_dvd_right x (x - c)
  generalize hg : Int.gcd x (x - c) = g at *
  have hgz : (0 : Int) < g := by omega
  have hcg : c = g * (d - b) := by rw [mul_sub, ← hd, ← hb]; ring
  have hd0 : 0 < d := by by_contra h; nlinarith
  have hb0 : 0 < b := by by_contra h; nlinarith
  have he0 : 0 < d - b := by by_contra h; nlinarith
  refine ⟨g, d.toNat, (d - b).toNat, by omega, ?_, ?_, by omega, by omega, rfl, ?_, ?_⟩
  · rw [Int.toNat_of_nonneg (by omega)]; exact hd
  · rw [Int.toNat_of_nonneg (by omega)]; exact hcg
  · have : x / (g : Int) = d := by
      rw [hd]; exact Int.mul_ediv_cancel_left _ (by omega)
    rw [this]
  · have hdq : ((d.toNat : Nat) : ℚ) = (d : ℚ) := by
      have : ((d.toNat : Nat) : Int) = d := Int.toNat_of_nonneg (by omega)
      exact_mod_cast this
    have hgq : (g : ℚ) ≠ 0 := by exact_mod_cast (show g ≠ 0 by omega)
    have hdne : (d : ℚ) ≠ 0 := by exact_mod_cast (show d ≠ 0 by omega)
    have : (c : ℚ) / ((x : ℚ) / ((d.toNat : Nat) : ℚ)) = ((d - b : Int) : ℚ) := by
      rw [hdq, hd, hcg]
      push_cast
      field_simp
    rw [this, Int.floor_intCast, Int.toNat_of_nonneg (by omega)]

/-- The quantity called `new_x` by both cost functions. -/
def codeBelt (x : Int) (n m l : Nat) : ℚ := x + l * ((x : ℚ) / (L n m : ℚ))

/-- Mergers of the looped branches as charged by both cost functions. -/
def loopCharge (over : Prop) [Decidable over] (k n : Nat) : Nat :=
  if over then mergeCost k 1 + 1 + fanOut n else mergeCost (k + 1) 1

theorem extractCost_eq (cfg : Config) (x c : Int) (hx : 3 ≤ x) (hc : 0 < c) (hcx : c < x)
    (hs : c ∉ cfg.speeds.map (fun (s : Nat) => (s : Int))) :
    ∃ g d e n m : Nat, 0 < g ∧ x = g * d ∧ c = g * e ∧ 0 < e ∧ e < d ∧ Int.gcd x (x - c) = g ∧
      findNML d = .ok (n, m, L n m - d, S n m) ∧ d ≤ L n m ∧
      (∀ n' m', d ≤ L n' m' → S n m ≤ S n' m') ∧ (∀ n' m', d ≤ L n' m' → S n' m' = S n m → m' < m → False) ∧
      extractCost cfg x c = .ok ((S n m : Int)
        - tot (Sat n m) (gsel n m (L n m - d) (L n m - d))
        - tot (Sat n m) (gsel n m (d - e) (d - e))
        - tot (Sat n m) (gsel n m e e)
        + loopCharge (codeBelt x n m (L n m - d) > cfg.limit) (gsel n m (L n m - d) (L n m - d)).length n
        + mergeCost (gsel n m (d - e) (d - e)).length 1
        + mergeCost (gsel n m e e).length 1) := by
  obtain ⟨g, d, e, h1, h2, h3, h4, h5, h6, h7, h8⟩ := extract_arith x c hc hcx
  obtain ⟨n, m, k1, k2, k3, k4⟩ := findNML_core d (by omega)
  refine ⟨g, d, e, n, m, h1, h2, h3, h4, h5, h6, k1, k2, k3, k4, ?_⟩
  unfold extractCost
  rw [if_neg (by omega), if_neg (by omega), if_neg hs]
  simp only [h7, k1, h8, treeInfo, bind, Except.bind]
  rw [show ((d : Int) - (e : Int)) = ((d - e : Nat) : Int) by omega]
  simp only [nLooping_eq]
  have hb : (x : ℚ) + ((L n m - d : Nat) : ℚ) * ((x : ℚ) / ((2 ^ n * 3 ^ m : Nat) : ℚ)) = codeBelt x n m (L n m - d) := rfl
  rw [hb]
  simp only [pure, Except.pure, loopCharge]
  by_cases hov : codeBelt x n m (L n m - d) > cfg.limit
  · rw [if_pos hov, if_pos hov]; congr 1; push_cast; ring
  · rw [if_neg hov, if_neg hov]

theorem extractCost_pos (cfg : Config) (x c : Int) (hx : 3 ≤ x) (hc : 0 < c) (hcx : c < x) :
    ∃ r, extractCost cfg x c = .ok r ∧ 1 ≤ r := by
  by_cases hs : c ∈ cfg.speeds.map (fun (s : Nat) => (s : Int))
  · refine ⟨1, ?_, le_rfl⟩
    unfold extractCost
    rw [if_neg (by omega), if_neg (by omega), if_pos hs]
  · obtain ⟨g, d, e, n, m, h1, h2, h3, h4, h5, h6, h7, h8, h9, h10, h11⟩ := extractCost_eq cfg x c hx hc hcx hs
    refine ⟨_, h11, ?_⟩
    have hlt : tot (Sat n m) (gsel n m (L n m - d) (L n m - d)) + tot (Sat n m) (gsel n m (d - e) (d - e))
        + tot (Sat n m) (gsel n m e e) < S n m := by
      rw [← Sat0, ← tot_append, ← tot_append]
      apply saved_lt
      · intro i hi
        simp only [List.mem_append] at hi
        rcases hi with (hi | hi) | hi
        · exact gsel_depth n m _ (by omega) i hi
        · exact gsel_depth n m _ (by omega) i hi
        · exact gsel_depth n m _ (by omega) i hi
      · simp [gsel_ne n m e h4]
      · rw [tot_append, tot_append, gsel_total, gsel_total, gsel_total, Lat0]; omega
    omega

/-! ### divide_cost -/

theorem S_zero_iff (n m : Nat) : S n m = 0 ↔ L n m = 1 := by
  have h := two_S n m
  have hL : L n m = 2 ^ n * 3 ^ m := rfl
  have h2 : 0 < 2 ^ n := Nat.pow_pos (by norm_num)
  have h3 : 0 < 3 ^ m := Nat.pow_pos (by norm_num)
  constructor
  · intro h0
    rw [h0] at h
    have : 2 ^ n * (3 ^ m + 1) = 2 ^ n * 3 ^ m + 2 ^ n := by ring
    have : 1 ≤ 2 ^ n * 3 ^ m := Nat.mul_pos h2 h3
    omega
  · intro h0
    rw [hL] at h0
    obtain ⟨a, b⟩ := mul_eq_one.1 h0
    rw [a, b] at h; omega

/-- Only `d = 1, 2, 4` get a shape without ternary layer. -/
theorem no_ternary (d n : Nat) (hd : d ≠ 0) (h : d ≤ L n 0) (hopt : ∀ n' m', d ≤ L n' m' → S n 0 ≤ S n' m') :
    L n 0 = d := by
  have hS := two_S n 0
  have hL : L n 0 = 2 ^ n := by simp [L]
  have hc : n < 3 := by
    by_contra hc
    obtain ⟨k, rfl⟩ : ∃ k, n = k + 3 := ⟨n - 3, by omega⟩
    have hp : 0 < 2 ^ k := Nat.pow_pos (by norm_num)
    have e : 2 ^ (k + 3) = 8 * 2 ^ k := by ring
    have h1 := hopt k 2 (by rw [hL] at h; unfold L; omega)
    have h2 := two_S k 2
    rw [e] at hS
    omega
  interval_cases n
  · rw [hL] at h ⊢; omega
  · rw [hL] at h ⊢
    by_contra hne
    have := hopt 0 0 (by simp [L]; omega)
    revert this; decide
  · rw [hL] at h ⊢
    by_contra hne
    have := hopt 0 1 (by simp [L]; omega)
    revert this; decide

/-- With a ternary layer, one or two looped leaves are looped one by one. -/
theorem gsel_small (n m : Nat) : (gsel n (m + 1) 1 1 = [n + (m + 1)]) ∧ (gsel n (m + 1) 2 2 = [n + (m + 1), n + (m + 1)]) := by
  have hff : ∀ l : Nat, 1 ≤ l → l ≤ 2 → firstFit (l : Int) (branchesCount n (m + 1)) 0 = some (n + (m + 1), 1) := by
    intro l hl1 hl2
    obtain ⟨i, h1, h2, h3, h4⟩ := firstFit_pos n (m + 1) l (by omega)
    have : i = n + (m + 1) := by
      by_contra hne
      have h5 := Lat_le n (m + 1) i (n + m) (by omega) (by omega)
      rw [Lat_succ_m n (m + 1) (n + m) (by omega) (by omega), show n + m + 1 = n + (m + 1) by omega, Lat_last] at h5
      omega
    subst this
    rw [h1, Lat_last]
  constructor
  · simp only [gsel]
    rw [if_neg (by omega), hff 1 (by omega) (by omega)]
  · have a := hff 2 (by omega) (by omega)
    have b := hff 1 (by omega) (by omega)
    simp only [gsel]
    rw [if_neg (by omega), a]
    simp only []
    rw [if_neg (by omega), show (2 - 1 : Nat) = 1 from rfl, b]

theorem Sat_last (n m : Nat) : Sat n m (n + m) = 0 := by simp [Sat, S]

/-- The uniform formula (with the code's own over-limit test). -/
def divideFormula (cfg : Config) (x : Int) (d n m : Nat) : Int :=
  (S n m : Int) - tot (Sat n m) (gsel n m (L n m - d) (L n m - d))
    + (if L n m - d = 0 then 0
       else loopCharge (codeBelt x n m (L n m - d) > cfg.limit) (gsel n m (L n m - d) (L n m - d)).length n : Nat)

theorem divideCost_core (cfg : Config) (x : Int) (d : Nat) (hx : 2 ≤ x) (hd : 2 ≤ d) (hdx : (d : Int) ≤ x) :
    ∃ n m r, findNML d = .ok (n, m, L n m - d, S n m) ∧ d ≤ L n m ∧
      (∀ n' m', d ≤ L n' m' → S n m ≤ S n' m') ∧ (∀ n' m', d ≤ L n' m' → S n' m' = S n m → m' < m → False) ∧
      divideCost cfg x d = .ok r ∧ 1 ≤ r ∧
      ((L n m - d = 0 ∨ 3 ≤ L n m - d ∨ codeBelt x n m (L n m - d) ≤ cfg.limit) → r = divideFormula cfg x d n m) ∧
      (L n m - d ≠ 0 → L n m - d < 3 → r = S n m + 1) := by
  obtain ⟨n, m, k1, k2, k3, k4⟩ := findNML_core d (by omega)
  have hloop := findNML_loop_lt d n m (by omega) k2 k3
  have hS1 : 1 ≤ S n m := by
    rcases Nat.eq_zero_or_pos (S n m) with h | h
    · have := (S_zero_iff n m).1 h; omega
    · exact h
  by_cases h3 : d = 2 ∨ d = 3
  · -- shortcut
    refine ⟨n, m, 1, k1, k2, k3, k4, ?_, le_rfl, ?_, ?_⟩
    · unfold divideCost
      rw [if_neg (by omega), if_neg (by omega), if_neg (by omega), if_pos h3]
    · intro _
      unfold divideFormula
      have hz : L n m = d ∧ S n m = 1 := by
        rcases h3 with rfl | rfl
        · have a := k3 1 0 (by decide)
          have hs : S n m = 1 := by have : S 1 0 = 1 := by decide
                                    omega
          have b := findNML_min_loop 2 n m k2 k3 k4 1 0 (by decide) (by rw [hs]; decide)
          have : L 1 0 = 2 := by decide
          exact ⟨by omega, hs⟩
        · have a := k3 0 1 (by decide)
          have hs : S n m = 1 := by have : S 0 1 = 1 := by decide
                                    omega
          have b := findNML_min_loop 3 n m k2 k3 k4 0 1 (by decide) (by rw [hs]; decide)
          have : L 0 1 = 3 := by decide
          exact ⟨by omega, hs⟩
      rw [hz.1, hz.2]
      simp [gsel_zero]
    · intro hne hlt
      exfalso
      rcases h3 with rfl | rfl
      · have a := k3 1 0 (by decide)
        have hs : S n m = 1 := by have : S 1 0 = 1 := by decide
                                  omega
        have b := findNML_min_loop 2 n m k2 k3 k4 1 0 (by decide) (by rw [hs]; decide)
        have : L 1 0 = 2 := by decide
        omega
      · have a := k3 0 1 (by decide)
        have hs : S n m = 1 := by have : S 0 1 = 1 := by decide
                                  omega
        have b := findNML_min_loop 3 n m k2 k3 k4 0 1 (by decide) (by rw [hs]; decide)
        have : L 0 1 = 3 := by decide
        omega
  · have hdef : divideCost cfg x d = .ok (if L n m - d = 0 then (S n m : Int) else if L n m - d < 3 then (S n m : Int) + 1
        else (S n m : Int) - tot (Sat n m) (gsel n m (L n m - d) (L n m - d)) +
          (loopCharge (codeBelt x n m (L n m - d) > cfg.limit) (gsel n m (L n m - d) (L n m - d)).length n : Nat)) := by
      unfold divideCost
      rw [if_neg (by omega), if_neg (by omega), if_neg (by omega), if_neg h3]
      simp only [k1, treeInfo, bind, Except.bind, nLooping_eq]
      by_cases hl0 : L n m - d = 0
      · rw [if_pos hl0, if_pos hl0]; rfl
      · rw [if_neg hl0, if_neg hl0, if_neg (by omega)]
        by_cases hl3 : L n m - d < 3
        · rw [if_pos hl3, if_pos hl3]; rfl
        · rw [if_neg hl3, if_neg hl3]
          have hb : (x : ℚ) + (((L n m - d : Nat) : Int) * x : Int) / ((2 ^ n * 3 ^ m : Nat) : ℚ) = codeBelt x n m (L n m - d) := by
            unfold codeBelt L
            push_cast
            ring
          rw [hb]
          simp only [pure, Except.pure, loopCharge]
          by_cases hov : codeBelt x n m (L n m - d) > cfg.limit
          · rw [if_pos hov, if_pos hov]; congr 1; push_cast; ring
          · rw [if_neg hov, if_neg hov]
    refine ⟨n, m, _, k1, k2, k3, k4, hdef, ?_, ?_, ?_⟩
    · split
      · omega
      · split
        · omega
        · have := saved_lt n m (gsel n m (L n m - d) (L n m - d)) (gsel_depth n m _ (by omega)) (gsel_ne n m _ (by omega))
            (by rw [gsel_total, Lat0]; omega)
          rw [Sat0] at this
          omega
    · intro hcase
      unfold divideFormula
      by_cases hl0 : L n m - d = 0
      · rw [if_pos hl0, if_pos hl0, hl0]; simp [gsel_zero]
      · rw [if_neg hl0, if_neg hl0]
        by_cases hl3 : L n m - d < 3
        · rw [if_pos hl3]
          have hbelt : codeBelt x n m (L n m - d) ≤ cfg.limit := by
            rcases hcase with h | h | h
            · omega
            · omega
            · exact h
          have hover : ¬ (codeBelt x n m (L n m - d) > cfg.limit) := not_lt.2 hbelt
          rw [loopCharge, if_neg hover]
          obtain ⟨m', rfl⟩ : ∃ m', m = m' + 1 := by
            rcases m with _ | m'
            · have := no_ternary d n (by omega) k2 k3; omega
            · exact ⟨m', rfl⟩
          obtain ⟨a, b⟩ := gsel_small n m'
          have hcases : L n (m' + 1) - d = 1 ∨ L n (m' + 1) - d = 2 := by omega
          rcases hcases with h | h
          · rw [h, a]; simp [Sat_last, mergeCost_eq]
          · rw [h, b]; simp [Sat_last, mergeCost_eq]
        · rw [if_neg hl3]
    · intro h0 hlt
      rw [if_neg h0, if_pos hlt]

end Satis.Cost
