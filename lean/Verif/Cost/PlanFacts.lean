import Verif.Cost.Packing
import Verif.Cost.Unique
import Mathlib.Algebra.Order.BigOperators.Group.Finset
/-!
# Plans depth by depth
-/

namespace Satis.Cost
open Satis Spec

/-- Outputs of a splitter at depth `j`. -/
def fan (n j : Nat) : Nat := if j < n then 2 else 3

/-- Positions at depth `j` of the complete tree. -/
def width (n j : Nat) : Nat := 2 ^ min j n * 3 ^ (j - n)

theorem fan_pos (n j : Nat) : 0 < fan n j := by unfold fan; split <;> omega

theorem width_zero (n : Nat) : width n 0 = 1 := by simp [width]

theorem width_succ (n j : Nat) : width n (j + 1) = fan n j * width n j := by
  unfold width fan
  split
  · rename_i h
    rw [show min (j + 1) n = min j n + 1 by omega, show j + 1 - n = 0 by omega, show j - n = 0 by omega, pow_succ]
    ring
  · rename_i h
    rw [show min (j + 1) n = min j n by omega, show j + 1 - n = (j - n) + 1 by omega, pow_succ]
    ring

theorem Lat_fan (n m j : Nat) (hj : j < n + m) : Lat n m j = fan n j * Lat n m (j + 1) := by
  unfold fan
  split
  · rename_i h; exact Lat_succ_n n m j h
  · rename_i h; exact Lat_succ_m n m j (by omega) hj

theorem width_mul (n m : Nat) : ∀ j, j ≤ n + m → width n j * Lat n m j = L n m := by
  intro j
  induction j with
  | zero => intro _; rw [width_zero, Lat_zero]; simp [L]
  | succ j ih =>
    intro hj
    have := ih (by omega)
    rw [Lat_fan n m j (by omega)] at this
    rw [width_succ, ← this]
    ring

/-- A plan, depth by depth: `r j` positions are selected at depth `j` and `g j` lie below positions selected higher up; the selected
subtrees have `l` leaves. -/
structure PlanOK (n m l : Nat) (r g : Nat → Nat) : Prop where
  first : r 0 = 0
  start : g 0 = 0
  step : ∀ j, j < n + m → g (j + 1) = fan n j * (g j + r j)
  total : ∑ j ∈ Finset.range (n + m), r (j + 1) * Lat n m (j + 1) = l

theorem PlanOK.add {n m l l' : Nat} {r g r' g' : Nat → Nat} (P : PlanOK n m l r g) (Q : PlanOK n m l' r' g') :
    PlanOK n m (l + l') (fun j => r j + r' j) fun j => g j + g' j where
  first := by rw [P.first, Q.first]
  start := by rw [P.start, Q.start]
  step j hj := by rw [P.step j hj, Q.step j hj]; ring
  total := by
    rw [← P.total, ← Q.total, ← Finset.sum_add_distrib]
    apply Finset.sum_congr rfl
    intro j _
    ring

theorem PlanOK.upto {n m l : Nat} {r g : Nat → Nat} (P : PlanOK n m l r g) : ∀ j, j ≤ n + m →
    (r j + g j) * Lat n m j = ∑ i ∈ Finset.range j, r (i + 1) * Lat n m (i + 1) := by
  intro j
  induction j with
  | zero => intro _; simp [P.first, P.start]
  | succ j ih =>
    intro hj
    have := ih (by omega)
    rw [Finset.sum_range_succ, ← this, P.step j (by omega), Lat_fan n m j (by omega)]
    ring

theorem PlanOK.last {n m l : Nat} {r g : Nat → Nat} (P : PlanOK n m l r g) : r (n + m) + g (n + m) = l := by
  have := P.upto (n + m) le_rfl
  rw [P.total, Lat_last, Nat.mul_one] at this
  exact this

theorem PlanOK.fits {n m l : Nat} {r g : Nat → Nat} (P : PlanOK n m l r g) (hl : l ≤ L n m) (j : Nat) (hj : j ≤ n + m) :
    r j + g j ≤ width n j := by
  have h1 := P.upto j hj
  have h2 : ∑ i ∈ Finset.range j, r (i + 1) * Lat n m (i + 1) ≤ l := by
    rw [← P.total]
    exact Finset.sum_le_sum_of_subset (Finset.range_subset_range.2 hj)
  have h3 := width_mul n m j hj
  have : (r j + g j) * Lat n m j ≤ width n j * Lat n m j := by omega
  exact Nat.le_of_mul_le_mul_right this (Lat_pos n m j)

/-- What is left at a depth. -/
theorem PlanOK.left {n m l : Nat} {r g : Nat → Nat} (P : PlanOK n m l r g) (hl : l ≤ L n m) (j : Nat) (hj : j < n + m) :
    r (j + 1) + (width n (j + 1) - (r (j + 1) + g (j + 1))) = fan n j * (width n j - (r j + g j)) := by
  have h1 := P.fits hl (j + 1) (by omega)
  have h2 := P.fits hl j (by omega)
  have h3 := P.step j hj
  have h4 := width_succ n j
  obtain ⟨x, hx⟩ := Nat.exists_eq_add_of_le h2
  rw [hx] at h4 ⊢
  rw [Nat.add_sub_cancel_left]
  have : width n (j + 1) = g (j + 1) + fan n j * x := by rw [h4, h3]; ring
  omega

/-- Splitters of the subtrees at depths `0 … n + m`. -/
theorem Sat_fan (n m j : Nat) (hj : j < n + m) : Sat n m j = fan n j * Sat n m (j + 1) + 1 := by
  unfold fan
  split
  · rename_i h; exact Sat_succ_n n m j h
  · rename_i h; exact Sat_succ_m n m j (by omega) hj

/-- If `r j` subtrees start at depth `j` and `a j` of their positions lie there, `a` adds up to the splitters of the subtrees. -/
theorem positions_sum (n m : Nat) (a r : Nat → Nat) (h0 : a 0 = r 0) (hs : ∀ j, j < n + m → a (j + 1) = r (j + 1) + fan n j * a j) :
    ∑ j ∈ Finset.range (n + m), a j = ∑ j ∈ Finset.range (n + m + 1), r j * Sat n m j := by
  have key : ∀ i, i ≤ n + m → ∑ j ∈ Finset.range i, a j + a i * Sat n m i = ∑ j ∈ Finset.range (i + 1), r j * Sat n m j := by
    intro i
    induction i with
    | zero => intro _; simp [h0]
    | succ i ih =>
      intro hi
      have := ih (by omega)
      rw [Finset.sum_range_succ (n := i + 1), ← this, Finset.sum_range_succ, hs i (by omega), Sat_fan n m i (by omega)]
      ring
  have := key (n + m) le_rfl
  have hz : Sat n m (n + m) = 0 := by simp [Sat, S]
  rw [hz, Nat.mul_zero, Nat.add_zero] at this
  exact this

theorem width_sum (n m : Nat) : ∑ j ∈ Finset.range (n + m), width n j = S n m := by
  rw [positions_sum n m (width n) (fun j => if j = 0 then 1 else 0) (by simp [width_zero]) (fun j _ => by simp [width_succ])]
  rw [Finset.sum_eq_single 0]
  · simp [Sat]
  · intro j _ hj; simp [hj]
  · intro h; simp at h

theorem PlanOK.sum {n m l : Nat} {r g : Nat → Nat} (P : PlanOK n m l r g) :
    ∑ j ∈ Finset.range (n + m), (r j + g j) = ∑ j ∈ Finset.range (n + m + 1), r j * Sat n m j :=
  positions_sum n m (fun j => r j + g j) r (by simp [P.start]) fun j hj => by rw [P.step j hj, Nat.add_comm (g j)]

/-- What is left of the splitters. -/
theorem PlanOK.splitters {n m l : Nat} {r g : Nat → Nat} (P : PlanOK n m l r g) (hl : l ≤ L n m) :
    ∑ j ∈ Finset.range (n + m), (width n j - (r j + g j)) + ∑ j ∈ Finset.range (n + m + 1), r j * Sat n m j = S n m := by
  rw [← P.sum, ← width_sum, ← Finset.sum_add_distrib]
  apply Finset.sum_congr rfl
  intro j hj
  have := P.fits hl j (by have := Finset.mem_range.1 hj; omega)
  omega

theorem under_succ (n m i j : Nat) (hj : j < n + m) : under n m i (j + 1) = fan n j * (under n m i j + if i = j then 1 else 0) := by
  have h1 := under_mul n m i (j + 1) (by omega)
  have h2 := under_mul n m i j (by omega)
  have h3 := Lat_fan n m j hj
  have hp := Lat_pos n m (j + 1)
  apply Nat.eq_of_mul_eq_mul_right hp
  rw [h1]
  rcases lt_trichotomy i j with h | h | h
  · rw [if_pos (by omega)]
    rw [if_pos h] at h2
    rw [if_neg (by omega), ← h2, h3]
    ring
  · subst h
    rw [if_pos (by omega), if_pos rfl, h3]
    have : under n m i i = 0 := by simp [under]
    rw [this]
    ring
  · rw [if_neg (by omega), if_neg (by omega)]
    have : under n m i j = 0 := by simp [under]; omega
    rw [this]
    ring

theorem tot_under_succ (n m j : Nat) (hj : j < n + m) (s : List Nat) :
    tot (fun i => under n m i (j + 1)) s = fan n j * (tot (fun i => under n m i j) s + s.count j) := by
  induction s with
  | nil => simp
  | cons a s ih =>
    rw [tot_cons, tot_cons, ih, under_succ n m a j hj, List.count_cons]
    by_cases h : a = j
    · subst h; simp; ring
    · simp [h]; ring

/-- `compute_looping_branches(n, m, l, …)` for less leaves than the tree has. -/
theorem loopingBranches_plan (n m l : Nat) (hl : l < L n m) : ∃ p, loopingBranches n m (l : Int) (branchesCount n m) = .ok p ∧
    PlanOK n m l (fun j => (p (key n j)).1) fun j => (p (key n j)).2 := by
  obtain ⟨p, hp, hk⟩ := loopingBranches_eq n m l
  have hg := gsel_fewest n m l
  have hdep := hg.depth
  obtain ⟨-, htot⟩ := (covers_iff _ _ _ _).1 hg.toCovers
  have hsum := htot
  rw [tot_count (Lat n m) (n + m + 1) _ (fun i hi => by have := hdep i hi; omega), Finset.sum_range_succ'] at hsum
  have h0 : (gsel n m l l).count 0 = 0 := by
    rcases Nat.eq_zero_or_pos ((gsel n m l l).count 0) with h | h
    · exact h
    · have : Lat n m 0 = L n m := by rw [Lat_zero]; rfl
      rw [this] at hsum
      have := Nat.le_mul_of_pos_left (L n m) h
      omega
  refine ⟨p, hp, ?_, ?_, ?_, ?_⟩
  · show (p (key n 0)).1 = 0
    rw [hk 0 (by omega)]
    exact h0
  · show (p (key n 0)).2 = 0
    rw [hk 0 (by omega)]
    show tot _ _ = 0
    unfold tot
    rw [List.sum_eq_zero]
    intro x hx
    simp only [List.mem_map] at hx
    obtain ⟨i, -, rfl⟩ := hx
    simp [under]
  · intro j hj
    show (p (key n (j + 1))).2 = fan n j * ((p (key n j)).2 + (p (key n j)).1)
    rw [hk _ (by omega), hk _ (by omega)]
    exact tot_under_succ n m j hj _
  · rw [h0, Nat.zero_mul, Nat.add_zero] at hsum
    rw [← hsum]
    apply Finset.sum_congr rfl
    intro j hj
    have := Finset.mem_range.1 hj
    rw [hk _ (by omega)]

/-- Subtrees and splitters a plan selects. -/
theorem loopingBranches_counts {n m l : Nat} {p : Plan} (hp : loopingBranches n m (l : Int) (branchesCount n m) = .ok p) :
    ∑ j ∈ Finset.range (n + m + 1), (p (key n j)).1 = (gsel n m l l).length ∧
      ∑ j ∈ Finset.range (n + m + 1), (p (key n j)).1 * Sat n m j = savedSplitters n m (gsel n m l l) := by
  obtain ⟨p', hp', hk⟩ := loopingBranches_eq n m l
  rw [hp] at hp'
  obtain rfl : p = p' := by simpa using hp'
  have hdep : ∀ i ∈ gsel n m l l, i < n + m + 1 := fun i hi => by have := (gsel_fewest n m l).depth i hi; omega
  have hc : ∀ f : Nat → Nat, ∑ j ∈ Finset.range (n + m + 1), (p (key n j)).1 * f j = tot f (gsel n m l l) := fun f => by
    rw [tot_count f (n + m + 1) _ hdep]
    apply Finset.sum_congr rfl
    intro j hj
    rw [hk j (by have := Finset.mem_range.1 hj; omega)]
  refine ⟨?_, by rw [hc, savedSplitters_eq]⟩
  have := hc fun _ => 1
  simpa [tot] using this

theorem gsel_binary (n m : Nat) : ∀ fuel l, 3 ^ m ∣ l → ∀ i ∈ gsel n m fuel l, i ≤ n := by
  intro fuel
  induction fuel with
  | zero => intro l _ i hi; simp [gsel] at hi
  | succ fuel ih =>
    intro l hd i hi
    by_cases h0 : l = 0
    · simp [gsel, h0] at hi
    · obtain ⟨k, h1, h2, h3, h4⟩ := firstFit_pos n m (l : Int) (by omega)
      simp only [gsel, if_neg h0, h1] at hi
      have hk : k ≤ n := by
        by_contra hc
        have h5 := h4 n (by omega)
        have h6 : Lat n m n = 3 ^ m := by simp [Lat, L]
        have h7 := Nat.le_of_dvd (by omega) hd
        rw [h6] at h5
        omega
      rcases List.mem_cons.1 hi with rfl | hi
      · exact hk
      · refine ih _ (Nat.dvd_sub hd ?_) i hi
        unfold Lat L
        rw [show m - (k - n) = m by omega]
        exact dvd_mul_left _ _

/-- Leaves selected on the binary depths. -/
theorem gsel_split (n m : Nat) : ∀ fuel l, l ≤ fuel → tot (fun i => if i ≤ n then Lat n m i else 0) (gsel n m fuel l) = l - l % 3 ^ m := by
  have hn : Lat n m n = 3 ^ m := by simp [Lat, L]
  intro fuel
  induction fuel with
  | zero =>
    intro l hl
    have : l = 0 := by omega
    subst this
    simp [gsel, tot]
  | succ fuel ih =>
    intro l hl
    by_cases h0 : l = 0
    · simp [gsel, h0, tot]
    · obtain ⟨k, h1, h2, h3, h4⟩ := firstFit_pos n m (l : Int) (by omega)
      have hp := Lat_pos n m k
      have h3' : Lat n m k ≤ l := by exact_mod_cast h3
      simp only [gsel, if_neg h0, h1]
      rw [tot_cons, ih _ (by omega)]
      by_cases hk : k ≤ n
      · rw [if_pos hk]
        have hd : 3 ^ m ∣ Lat n m k := by
          unfold Lat L
          rw [show m - (k - n) = m by omega]
          exact dvd_mul_left _ _
        have hm : (l - Lat n m k) % 3 ^ m = l % 3 ^ m := by
          obtain ⟨c, hc⟩ := hd
          have : l = (l - Lat n m k) + 3 ^ m * c := by omega
          conv_rhs => rw [this]
          rw [Nat.add_mul_mod_self_left]
        have hle := Nat.mod_le (l - Lat n m k) (3 ^ m)
        rw [hm] at hle ⊢
        omega
      · rw [if_neg hk]
        have h5 := h4 n (by omega)
        rw [hn] at h5
        have h6 : l < 3 ^ m := by exact_mod_cast h5
        rw [Nat.mod_eq_of_lt h6, Nat.mod_eq_of_lt (by omega)]
        omega

theorem loopingBranches_split (n m l : Nat) (hl : l < L n m) {p : Plan} (hp : loopingBranches n m (l : Int) (branchesCount n m) = .ok p) :
    ∑ j ∈ Finset.range n, (p (key n (j + 1))).1 * Lat n m (j + 1) = l - l % 3 ^ m := by
  obtain ⟨p', hp', hk⟩ := loopingBranches_eq n m l
  have P := loopingBranches_plan n m l hl
  obtain ⟨p'', hp'', P⟩ := P
  rw [hp] at hp' hp''
  cases hp'
  cases hp''
  have hdep := (gsel_fewest n m l).depth
  have h1 := gsel_split n m l l le_rfl
  rw [tot_count _ (n + m + 1) _ (fun i hi => by have := hdep i hi; omega), show n + m + 1 = (n + 1) + m by omega, Finset.sum_range_add,
    Finset.sum_range_succ'] at h1
  have h0 : (gsel n m l l).count 0 = 0 := by
    have : (p (key n 0)).1 = 0 := P.first
    rw [hk 0 (by omega)] at this
    exact this
  have h2 : ∑ x ∈ Finset.range m, (gsel n m l l).count (n + 1 + x) * (if n + 1 + x ≤ n then Lat n m (n + 1 + x) else 0) = 0 := by
    apply Finset.sum_eq_zero
    intro x _
    rw [if_neg (by omega), Nat.mul_zero]
  rw [h2, h0, Nat.zero_mul, Nat.add_zero] at h1
  rw [← h1]
  apply Finset.sum_congr rfl
  intro j hj
  have := Finset.mem_range.1 hj
  rw [hk _ (by omega), if_pos (by omega)]

/-- No branches loop on the ternary depths if `l` is a multiple of `3 ^ m`. -/
theorem loopingBranches_binary (n m l : Nat) (hd : 3 ^ m ∣ l) {p : Plan} (hp : loopingBranches n m (l : Int) (branchesCount n m) = .ok p)
    (j : Nat) (h1 : n < j) (h2 : j ≤ n + m) : (p (key n j)).1 = 0 := by
  obtain ⟨p', hp', hk⟩ := loopingBranches_eq n m l
  rw [hp] at hp'
  cases hp'
  rw [hk j h2]
  exact List.count_eq_zero.2 fun hm => by have := gsel_binary n m l l hd j hm; omega

end Satis.Cost
