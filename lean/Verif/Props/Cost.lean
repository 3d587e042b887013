import Verif.Cost.Packing
/-!
# Properties of `src/cost.py` (C01–C09)

Statements use the vocabulary of `Verif/Cost/Spec.lean` (physical splitter trees, merger steps) and the transcribed
functions of `Verif/Cost/Model.lean`.
-/

namespace Satis
open Satis.Spec Satis.Cost

/-! ## C01 — splitter-tree shape search is sound -/

/-- `find_n_m_l(0)` raises `ValueError`. -/
theorem C01_find_n_m_l_zero : findNML 0 = .error .valueError := rfl

/-- For every `X ≥ 1`, `find_n_m_l(X)` returns `(n, m, l, s)` with `2^n * 3^m = X + l`, which is the number of leaves of
the tree with `n` binary and `m` ternary layers, and `s` is the number of splitters of that tree. -/
theorem C01_find_n_m_l_sound (X : Nat) (hX : 1 ≤ X) :
    ∃ n m l s, findNML X = .ok (n, m, l, s) ∧ 2 ^ n * 3 ^ m = X + l ∧ (complete n m).leaves = X + l ∧
      (complete n m).splitters = s := by
  obtain ⟨n, m, h1, h2, -⟩ := findNML_core X (by omega)
  refine ⟨n, m, _, _, h1, ?_, ?_, complete_splitters n m⟩
  · have : L n m = 2 ^ n * 3 ^ m := rfl
    omega
  · rw [complete_leaves]; omega

/-- Non-trivial case: five parts are cut from a tree with six leaves, one of them looped back. -/
example : findNML 5 = .ok (1, 1, 1, 3) ∧ findNML 7 = .ok (0, 2, 2, 4) := by decide +kernel

/-! ## C02 — splitter-tree shape search is globally optimal -/

/-- The shape returned by `find_n_m_l` is the best one among *all* complete trees with enough leaves: fewest splitters,
then fewest leaves; fewer than `X` leaves are looped back. -/
theorem C02_find_n_m_l_optimal (X : Nat) (hX : 1 ≤ X) :
    ∃ n m l s, findNML X = .ok (n, m, l, s) ∧ X ≤ (complete n m).leaves ∧
      (∀ n' m', X ≤ (complete n' m').leaves → s ≤ (complete n' m').splitters) ∧
      (∀ n' m' l', (complete n' m').leaves = X + l' → (complete n' m').splitters = s → l ≤ l') ∧
      l < X := by
  obtain ⟨n, m, h1, h2, h3, h4⟩ := findNML_core X (by omega)
  refine ⟨n, m, _, _, h1, ?_, ?_, ?_, findNML_loop_lt X n m (by omega) h2 h3⟩
  · rw [complete_leaves]; exact h2
  · intro n' m' h
    rw [complete_leaves] at h; rw [complete_splitters]; exact h3 n' m' h
  · intro n' m' l' ha hb
    rw [complete_leaves] at ha; rw [complete_splitters] at hb
    have := findNML_min_loop X n m h2 h3 h4 n' m' (by omega) hb
    omega

/-- The best shape is unique, so the theorem above determines the result. -/
theorem C02_best_shape_unique {d n m n' m' : Nat} (h : BestShape d n m) (h' : BestShape d n' m') : n = n' ∧ m = m' :=
  bestShape_unique h h'

/-- Non-trivial case: for 4 the shapes (2,0) and (1,1) tie on splitters and the one looping nothing is returned. -/
example : findNML 4 = .ok (2, 0, 0, 3) ∧ (complete 1 1).splitters = 3 ∧ (complete 1 1).leaves = 6 := by decide +kernel

/-! ## C03 — tree tables -/

/-- `compute_splitters_count` and `compute_branches_count` list, by depth, the splitters and leaves of the subtrees of the
`n`-binary/`m`-ternary tree; `count_splits` is the number of splitters of the whole tree. -/
theorem C03_tree_tables (n m : Nat) :
    (splittersCount n m).length = n + m + 1 ∧ (branchesCount n m).length = n + m + 1 ∧
    (∀ i, i ≤ n + m → ∀ t ∈ (complete n m).atDepth i,
      (splittersCount n m)[i]? = some t.splitters ∧ (branchesCount n m)[i]? = some t.leaves) ∧
    countSplits n m = (complete n m).splitters ∧ (splittersCount n m)[0]? = some (countSplits n m) := by
  refine ⟨by simp [splittersCount_eq], by simp [branchesCount_eq], ?_, ?_, ?_⟩
  · intro i hi t ht
    rw [(atDepth_complete n m i hi t).1 ht, splittersCount_eq, branchesCount_eq, List.getElem?_map, List.getElem?_map,
      List.getElem?_range (by omega), complete_splitters, complete_leaves]
    exact ⟨rfl, rfl⟩
  · rw [countSplits_eq, complete_splitters]
  · rw [countSplits_eq, splittersCount_eq, List.getElem?_map, List.getElem?_range (by omega)]
    simp [Sat0]

/-- Every depth up to `n + m` does have subtrees, so the statement above is not empty. -/
theorem C03_depth_inhabited (n m i : Nat) (hi : i ≤ n + m) : subtreeAt n m i ∈ (complete n m).atDepth i :=
  (atDepth_complete n m i hi _).2 rfl

example : splittersCount 1 2 = [9, 4, 1, 0] ∧ branchesCount 1 2 = [18, 9, 3, 1] := by decide +kernel

/-! ## C04 — selection of looping branches -/

/-- For `l ≥ 0`, `compute_n_looping_branches` terminates without error; its result `(k, s)` is realised by `k` subtrees
with exactly `l` leaves and `s` splitters in total, and no selection of subtrees with `l` leaves in total is smaller. -/
theorem C04_n_looping_exact (n m l : Nat) :
    ∃ sel, nLooping l (splittersCount n m) (branchesCount n m) = .ok (sel.length, savedSplitters n m sel) ∧
      FewestCover n m l sel := by
  refine ⟨gsel n m l l, ?_, gsel_fewest n m l⟩
  rw [nLooping_eq, savedSplitters_eq]

/-- The result is the same for *every* fewest selection: it is determined by the specification. -/
theorem C04_n_looping_determined (n m l : Nat) (sel : List Nat) (h : FewestCover n m l sel) :
    nLooping l (splittersCount n m) (branchesCount n m) = .ok (sel.length, savedSplitters n m sel) := by
  have hp := fewest_unique n m l l le_rfl sel h
  rw [nLooping_eq, savedSplitters_eq, hp.length_eq, tot_perm _ hp]

/-- If `l` does not exceed the number of leaves of the tree, the selected subtrees can be taken pairwise disjoint. -/
theorem C04_n_looping_disjoint (n m l : Nat) (h : l ≤ (complete n m).leaves) (sel : List Nat) (hs : Covers n m l sel) :
    ∃ sel', sel'.Perm sel ∧ Packs (complete n m) sel' := by
  obtain ⟨h1, h2⟩ := (covers_iff _ _ _ _).1 hs
  rw [complete_leaves] at h
  exact packs_perm n m sel h1 (by omega)

/-- For `l < 0` the table is exhausted: `IndexError`. -/
theorem C04_n_looping_negative (n m : Nat) (l : Int) (hl : l < 0) :
    nLooping l (splittersCount n m) (branchesCount n m) = .error .indexError := nLooping_neg n m l hl

/-- Non-trivial case: 7 leaves of the 18-leaf tree: two 3-leaf subtrees and one leaf, saving two splitters. -/
example : nLooping 7 (splittersCount 1 2) (branchesCount 1 2) = .ok (3, 2) ∧ savedSplitters 1 2 [2, 2, 3] = 2 := by
  decide +kernel

/-! ## C05 — per-level plan -/

/-- `compute_looping_branches(n, m, l, …)` terminates for every `l ≥ 0`. Depth `j` of the tree is stored under the key
`(min j n, j - n)`. The selected subtrees have exactly `l` leaves; the ignore count of a depth is the number of positions
at that depth lying below a subtree selected higher up; and if `l` is at most the number of leaves, selected plus ignored
positions fit in the width of every depth. The plan selects as few subtrees as possible. -/
theorem C05_looping_branches_exact (n m l : Nat) :
    ∃ p, loopingBranches n m l (branchesCount n m) = .ok p ∧
      (∑ j ∈ Finset.range (n + m + 1), (p (min j n, j - n)).1 * (subtreeAt n m j).leaves) = l ∧
      (∀ j, j ≤ n + m → (p (min j n, j - n)).2 =
        ∑ i ∈ Finset.range j, (p (min i n, i - n)).1 * ((subtreeAt n m i).atDepth (j - i)).length) ∧
      (l ≤ (complete n m).leaves → ∀ j, j ≤ n + m →
        (p (min j n, j - n)).1 + (p (min j n, j - n)).2 ≤ ((complete n m).atDepth j).length) ∧
      (∀ sel, Covers n m l sel → ∑ j ∈ Finset.range (n + m + 1), (p (min j n, j - n)).1 ≤ sel.length) := by
  obtain ⟨p, hp, hk⟩ := loopingBranches_eq n m l
  have hg := gsel_fewest n m l
  have hdep := hg.depth
  obtain ⟨-, htot⟩ := (covers_iff _ _ _ _).1 hg.toCovers
  have hk1 : ∀ j, j ≤ n + m → (p (min j n, j - n)).1 = (gsel n m l l).count j := fun j hj => by
    have := hk j hj; unfold key at this; rw [this]
  have hk2 : ∀ j, j ≤ n + m → (p (min j n, j - n)).2 = tot (fun i => under n m i j) (gsel n m l l) := fun j hj => by
    have := hk j hj; unfold key at this; rw [this]
  refine ⟨p, hp, ?_, ?_, ?_, ?_⟩
  · rw [tot_count (Lat n m) (n + m + 1) _ (fun i hi => by have := hdep i hi; omega)] at htot
    refine Eq.trans ?_ htot
    apply Finset.sum_congr rfl
    intro j hj
    have hj' : j ≤ n + m := by have := Finset.mem_range.1 hj; omega
    rw [hk1 j hj', subtreeAt_leaves]
  · intro j hj
    rw [hk2 j hj, tot_count _ (n + m + 1) _ (fun i hi => by have := hdep i hi; omega)]
    have hsub : Finset.range j ⊆ Finset.range (n + m + 1) := Finset.range_subset_range.2 (by omega)
    rw [← Finset.sum_subset hsub]
    · apply Finset.sum_congr rfl
      intro i hi
      have hi' : i < j := Finset.mem_range.1 hi
      rw [hk1 i (by omega), under_eq n m i j hi' hj]
    · intro i _ hi
      have : ¬ i < j := by simpa using hi
      simp [under, this]
  · intro hl j hj
    rw [hk1 j hj, hk2 j hj]
    rw [complete_leaves] at hl
    have h1 := level_fits n m j hj (gsel n m l l)
    rw [htot] at h1
    have h2 := atDepth_length n m j hj
    have h3 : ((complete n m).atDepth j).length * Lat n m j = L n m := h2
    exact Nat.le_of_mul_le_mul_right (by omega) (Lat_pos n m j)
  · intro sel hs
    have h1 := hg.fewest sel hs
    have h2 : (gsel n m l l).length = ∑ j ∈ Finset.range (n + m + 1), (gsel n m l l).count j := by
      have := tot_count (fun _ => 1) (n + m + 1) (gsel n m l l) (fun i hi => by have := hdep i hi; omega)
      simpa [tot] using this
    have h3 : ∑ j ∈ Finset.range (n + m + 1), (p (min j n, j - n)).1 = ∑ j ∈ Finset.range (n + m + 1), (gsel n m l l).count j :=
      Finset.sum_congr rfl (fun j hj => hk1 j (by have := Finset.mem_range.1 hj; omega))
    omega

/-- Non-trivial case: in the 18-leaf tree, looping 10 leaves selects one subtree at depth 1 and one leaf at depth 3; three
positions of depth 2 and nine of depth 3 are ignored. -/
example : (loopingBranches 1 2 10 (branchesCount 1 2)).toOption.map (fun p => (p (0, 0), p (1, 0), p (1, 1), p (1, 2)))
    = some ((0, 0), (1, 0), (0, 3), (1, 9)) := by decide +kernel

/-! ## C06 — merge_cost is the true minimum -/

/-- `merge_cost(n, t)` mergers turn `n` belts into at most `t` belts, and fewer never do. -/
theorem C06_merge_cost_minimal (n t : Nat) (ht : 1 ≤ t) :
    (∃ t', t' ≤ t ∧ MergeSteps (mergeCost n t) n t') ∧
    (∀ k t', t' ≤ t → MergeSteps k n t' → mergeCost n t ≤ k) := by
  constructor
  · by_cases h : n ≤ t
    · refine ⟨n, h, ?_⟩
      have : mergeCost n t = 0 := by rw [mergeCost_eq]; omega
      rw [this]; exact MergeSteps.done n
    · refine ⟨t, le_rfl, mergeSteps_exists t ht _ n (by omega) ?_⟩
      rw [mergeCost_eq]; omega
  · intro k t' h1 h2
    have := mergeSteps_bound h2
    rw [mergeCost_eq]; omega

example : mergeCost 7 1 = 3 ∧ mergeCost 8 3 = 3 ∧ mergeCost 2 5 = 0 := by decide +kernel

/-! ## C07 — positive costs -/

/-- `extract_cost(x, c) ≥ 1` (and no exception) for `x ≥ 3`, `0 < c < x`, whatever the belt speeds. -/
theorem C07_extract_cost_pos (cfg : Config) (x c : Int) (hx : 3 ≤ x) (hc : 0 < c) (hcx : c < x) :
    ∃ r, extractCost cfg x c = .ok r ∧ 1 ≤ r := extractCost_pos cfg x c hx hc hcx

/-- `divide_cost(x, d) ≥ 1` (and no exception) for `x ≥ 2` and every divisor `d ≥ 2` of `x`. -/
theorem C07_divide_cost_pos (cfg : Config) (x : Int) (d : Nat) (hx : 2 ≤ x) (hd : 2 ≤ d) (hdx : (d : Int) ∣ x) :
    ∃ r, divideCost cfg x d = .ok r ∧ 1 ≤ r := by
  obtain ⟨n, m, r, -, -, -, -, h1, h2, -⟩ := divideCost_core cfg x d hx hd (Int.le_of_dvd (by omega) hdx)
  exact ⟨r, h1, h2⟩

/-- `divide_cost(x, d)` raises exactly for `x ≤ 1` and for `d = 0`. -/
theorem C07_divide_raises (cfg : Config) (x : Int) (d : Nat) : (∃ e, divideCost cfg x d = .error e) ↔ x ≤ 1 ∨ d = 0 := by
  constructor
  · rintro ⟨e, he⟩
    by_contra hc
    unfold divideCost at he
    rw [if_neg (by omega), if_neg (by omega)] at he
    obtain ⟨n, m, h1, -⟩ := findNML_core d (by omega)
    simp only [h1, treeInfo, bind, Except.bind, nLooping_eq, pure, Except.pure] at he
    split_ifs at he
  · intro h
    unfold divideCost
    by_cases hx : x ≤ 1
    · exact ⟨_, if_pos hx⟩
    · exact ⟨_, by rw [if_neg hx, if_pos (h.resolve_left hx)]⟩

/-- `extract_cost(x, c)` raises exactly for `x ≤ 2` and for an amount outside `0 … x` that is not a belt speed. -/
theorem C07_extract_raises (cfg : Config) (x c : Int) : (∃ e, extractCost cfg x c = .error e) ↔
    x ≤ 2 ∨ (c < 0 ∨ x < c) ∧ ∀ s ∈ cfg.speeds, (s : Int) ≠ c := by
  have hmem : c ∈ cfg.speeds.map (fun (s : Nat) => (s : Int)) ↔ ¬ ∀ s ∈ cfg.speeds, (s : Int) ≠ c := by
    simp
  by_cases hx : x ≤ 2
  · exact ⟨fun _ => .inl hx, fun _ => ⟨_, if_pos hx⟩⟩
  by_cases hs : c ∈ cfg.speeds.map (fun (s : Nat) => (s : Int))
  · have h1 := hmem.1 hs
    constructor
    · rintro ⟨e, he⟩
      unfold extractCost at he
      rw [if_neg hx] at he
      split_ifs at he
    · rintro (h | h)
      · exact absurd h hx
      · exact absurd h.2 h1
  by_cases hc : 0 ≤ c ∧ c ≤ x
  · constructor
    · rintro ⟨e, he⟩
      exfalso
      by_cases h0 : c = 0 ∨ c = x
      · unfold extractCost at he
        rw [if_neg hx, if_pos h0] at he
        cases he
      · obtain ⟨r, hr, -⟩ := extractCost_pos cfg x c (by omega) (by omega) (by omega)
        rw [hr] at he
        cases he
    · rintro (h | h) <;> omega
  · refine ⟨fun _ => .inr ⟨by omega, fun s hs' e => hs (by rw [hmem]; exact fun q => q s hs' e)⟩, fun _ => ?_⟩
    have hg : 0 < Int.gcd x (x - c) := Int.gcd_pos_of_ne_zero_left _ (by omega)
    obtain ⟨k, hk⟩ := Int.gcd_dvd_left x (x - c)
    obtain ⟨j, hj⟩ := Int.gcd_dvd_right x (x - c)
    obtain ⟨g, hgg⟩ : ∃ g : ℤ, g = (Int.gcd x (x - c) : ℤ) := ⟨_, rfl⟩
    rw [← hgg] at hk hj
    have hg0 : 0 < g := by omega
    have hk0 : 0 < k := by
      by_contra q
      have : g * k ≤ 0 := Int.mul_nonpos_of_nonneg_of_nonpos hg0.le (by omega)
      omega
    have hd : (x / (Int.gcd x (x - c) : Int)) = k := by
      rw [← hgg, hk]
      exact Int.mul_ediv_cancel_left _ (by omega)
    have hcg : c = g * (k - j) := by rw [Int.mul_sub]; omega
    have hfl : ⌊(c : ℚ) / ((x : ℚ) / ((k.toNat : ℕ) : ℚ))⌋ = k - j := by
      have e1 : ((k.toNat : ℕ) : ℚ) = (k : ℚ) := by exact_mod_cast (Int.toNat_of_nonneg hk0.le)
      have e2 : (c : ℚ) / ((x : ℚ) / (k : ℚ)) = ((k - j : ℤ) : ℚ) := by
        have hkq : (k : ℚ) ≠ 0 := by exact_mod_cast hk0.ne'
        have hgq : (g : ℚ) ≠ 0 := by exact_mod_cast hg0.ne'
        rw [hcg, hk]
        push_cast
        field_simp
      rw [e1, e2, Int.floor_intCast]
    obtain ⟨n, m, h1, -⟩ := findNML_core k.toNat (by omega)
    unfold extractCost
    rw [if_neg hx, if_neg (by omega), if_neg hs]
    simp only [hd, h1, treeInfo, bind, Except.bind, nLooping_eq, pure, Except.pure, hfl]
    have hkn : ((k.toNat : ℕ) : ℤ) = k := Int.toNat_of_nonneg hk0.le
    by_cases hneg : c < 0
    · have hj' : k - j < 0 := by
        by_contra q
        have : 0 ≤ g * (k - j) := Int.mul_nonneg hg0.le (by omega)
        omega
      have e3 : ((k.toNat : ℕ) : ℤ) - (k - j) = (j.toNat : ℕ) := by omega
      rw [e3, nLooping_eq]
      simp only [nLooping_neg n m _ hj']
      exact ⟨_, rfl⟩
    · have hj' : j < 0 := by
        by_contra q
        have : 0 ≤ g * j := Int.mul_nonneg hg0.le (by omega)
        omega
      rw [show ((k.toNat : ℕ) : ℤ) - (k - j) = j by omega]
      simp only [nLooping_neg n m _ hj']
      exact ⟨_, rfl⟩

-- Raising and not raising on both sides of the limits.
example : divideCost config 1 5 = .error .valueError ∧ divideCost config 2 5 = .ok 4 ∧ extractCost config 2 1 = .error .valueError ∧
    extractCost config 9 11 = .error .indexError ∧ extractCost config 9 60 = .ok 1 := by
  refine ⟨?_, ?_, ?_, ?_, ?_⟩ <;> decide +kernel

theorem C07_merge_cost_pos (k : Nat) (hk : 2 ≤ k) : 1 ≤ mergeCost k 1 := by rw [mergeCost_eq]; omega

theorem C07_split_cost : splitCost = 3 := rfl

example : extractCost config 9 1 = .ok 4 ∧ extractCost config 7 3 = .ok 4 ∧ divideCost config 35 7 = .ok 5 := by
  decide +kernel

/-! ## C08 — one uniform formula for divide_cost -/

/-- The belt feeding the splitter tree as `cost.py:101, 136` computes it: `x + l * x / (d + l)`. -/
def codeBelt' (x : Int) (d l : Nat) : ℚ := x + l * x / ((d + l : Nat) : ℚ)

/-- What dividing `x` by `d` costs with the tree `complete n m` and looped subtrees `sel`: the splitters still built plus
what feeding the looped branches back costs (nothing if nothing is looped). -/
def uniformDivideCost (cfg : Config) (x : Int) (d n m : Nat) (sel : List Nat) : Int :=
  let l := (complete n m).leaves - d
  ((complete n m).splitters : Int) - savedSplitters n m sel +
    (if l = 0 then 0 else feedBack (codeBelt' x d l > cfg.limit) sel.length n : Nat)

/-- The property as stated in C08. -/
def UniformDivide (cfg : Config) (x : Int) (d : Nat) : Prop :=
  ∀ n m sel, BestShape d n m → FewestCover n m ((complete n m).leaves - d) sel →
    divideCost cfg x d = .ok (uniformDivideCost cfg x d n m sel)

theorem codeBelt_eq' (x : Int) (d n m : Nat) (h : d ≤ L n m) : codeBelt x n m (L n m - d) = codeBelt' x d (L n m - d) := by
  unfold codeBelt codeBelt'
  rw [show d + (L n m - d) = L n m by omega, mul_div_assoc]

/-- The formula holds whenever no branch is looped, at least three are, or the belt stays within the limit. Missing: one or
two looped branches with the belt over the limit, where the code violates the property (`C08_divide_uniform_false`). -/
theorem C08_divide_uniform_partial (cfg : Config) (x : Int) (d : Nat) (hx : 2 ≤ x) (hd : 2 ≤ d) (hdx : (d : Int) ∣ x)
    (h : ∀ n m, BestShape d n m → (complete n m).leaves = d ∨ d + 3 ≤ (complete n m).leaves ∨
      codeBelt' x d ((complete n m).leaves - d) ≤ cfg.limit) :
    UniformDivide cfg x d := by
  intro n m sel hb hs
  obtain ⟨n', m', r, k1, k2, k3, k4, h1, -, h2, -⟩ := divideCost_core cfg x d hx hd (Int.le_of_dvd (by omega) hdx)
  have hb' : BestShape d n' m' := (bestShape_iff _ _ _).2 ⟨k2, k3, findNML_min_loop d n' m' k2 k3 k4⟩
  obtain ⟨rfl, rfl⟩ := bestShape_unique hb hb'
  have hL := complete_leaves n m
  have hcase := h n m hb
  rw [hL] at hcase hs
  rw [h1, h2]
  · unfold divideFormula uniformDivideCost
    simp only [hL, complete_splitters]
    have hp := fewest_unique n m _ _ le_rfl sel hs
    rw [savedSplitters_eq, tot_perm _ hp, ← hp.length_eq, ← codeBelt_eq' x d n m k2, loopCharge_eq]
  · rw [codeBelt_eq' x d n m k2]
    rcases hcase with h | h | h
    · left; omega
    · right; left; omega
    · right; right; exact h

/-- How far C08 holds, exactly: the formula is right if and only if no branch is looped, at least three are, or the belt
stays within the limit. -/
theorem C08_divide_uniform_iff_partial (cfg : Config) (x : Int) (d : Nat) (hx : 2 ≤ x) (hd : 2 ≤ d) (hdx : (d : Int) ∣ x)
    (n m : Nat) (hb : BestShape d n m) :
    UniformDivide cfg x d ↔ (complete n m).leaves = d ∨ d + 3 ≤ (complete n m).leaves ∨
      codeBelt' x d ((complete n m).leaves - d) ≤ cfg.limit := by
  constructor
  · intro hu
    by_contra hcon
    rw [not_or, not_or] at hcon
    obtain ⟨c1, c2, c3⟩ := hcon
    have hL := complete_leaves n m
    rw [hL] at c1 c2 c3
    obtain ⟨n', m', r, -, k2, k3, k4, h1, -, -, h2⟩ := divideCost_core cfg x d hx hd (Int.le_of_dvd (by omega) hdx)
    have hb' : BestShape d n' m' := (bestShape_iff _ _ _).2 ⟨k2, k3, findNML_min_loop d n' m' k2 k3 k4⟩
    obtain ⟨rfl, rfl⟩ := bestShape_unique hb hb'
    obtain ⟨m', rfl⟩ : ∃ m', m = m' + 1 := by
      rcases m with _ | m'
      · have := no_ternary d n (by omega) k2 k3; omega
      · exact ⟨m', rfl⟩
    have h3 := hu n (m' + 1) (gsel n (m' + 1) (L n (m' + 1) - d) (L n (m' + 1) - d)) hb (by rw [hL]; exact gsel_fewest _ _ _)
    rw [h1, h2 (by omega) (by omega), Except.ok.injEq] at h3
    unfold uniformDivideCost feedBack toOne at h3
    simp only [hL, complete_splitters, savedSplitters_eq] at h3
    rw [if_neg (by omega), if_pos (not_le.1 c3)] at h3
    obtain ⟨a, b⟩ := gsel_small n m'
    have hcases : L n (m' + 1) - d = 1 ∨ L n (m' + 1) - d = 2 := by omega
    rcases hcases with h | h
    · rw [h, a] at h3
      simp only [tot_cons, tot_nil, Sat_last, List.length_cons, List.length_nil] at h3
      split_ifs at h3 <;> push_cast at h3 <;> omega
    · rw [h, b] at h3
      simp only [tot_cons, tot_nil, Sat_last, List.length_cons, List.length_nil] at h3
      split_ifs at h3 <;> push_cast at h3 <;> omega
  · intro h
    refine C08_divide_uniform_partial cfg x d hx hd hdx (fun n' m' hb' => ?_)
    obtain ⟨rfl, rfl⟩ := bestShape_unique hb hb'
    exact h

/-- Non-trivial instance of the hypotheses: dividing 70 into 7 loops two branches, within the limit; dividing 1235 into 13
loops five branches with the belt over the limit. -/
example : divideCost config 70 7 = .ok 5 ∧ findNML 7 = .ok (0, 2, 2, 4) ∧ codeBelt' 70 7 2 ≤ config.limit ∧
    findNML 13 = .ok (1, 2, 5, 9) ∧ codeBelt' 1235 13 5 > config.limit ∧ divideCost config 1235 13 = .ok 12 := by decide +kernel

theorem bestShape_5 : BestShape 5 1 1 := by
  obtain ⟨n, m, h1, h2⟩ := findNML_best 5 (by decide)
  have : findNML 5 = .ok (1, 1, 1, 3) := by decide +kernel
  rw [this] at h1
  simp only [Except.ok.injEq, Prod.mk.injEq] at h1
  obtain ⟨rfl, rfl, -⟩ := h1
  exact h2

/-- The code violates C08: `divide_cost(1200, 5)` is 4, but the single looped branch puts 1400 on the belt feeding the
tree, so the uniform formula, with the over-limit surcharge, gives 6. The shortcut `if l < 3` (`cost.py:131-133`) drops the
surcharge. -/
theorem C08_divide_uniform_false : ¬ ∀ (x : Int) (d : Nat), 2 ≤ x → 2 ≤ d → (d : Int) ∣ x → UniformDivide config x d := by
  intro h
  have h1 := h 1200 5 (by norm_num) (by norm_num) (by norm_num) 1 1 (gsel 1 1 1 1) bestShape_5 (by
    rw [complete_leaves]; exact gsel_fewest 1 1 1)
  revert h1
  decide +kernel

/-! ## C09 — the over-limit surcharge -/

/-- The belt that really feeds the tree: `x` plus the part looped back, `l` belts of `x / d` each. -/
def realBelt (x : ℚ) (d l : Nat) : ℚ := x + l * (x / d)

/-- Cost of extracting `e` parts out of `d` with the tree `complete n m`, feeding back over- or within-limit. -/
def uniformExtractCost (over : Prop) [Decidable over] (n m : Nat) (loop rest extr : List Nat) : Int :=
  ((complete n m).splitters : Int) - savedSplitters n m loop - savedSplitters n m rest - savedSplitters n m extr
    + feedBack over loop.length n + toOne rest.length + toOne extr.length

/-- The property as stated in C09, for extraction. -/
def SurchargeExact (cfg : Config) (x c : Int) : Prop :=
  ∀ (g d e n m : Nat) (loop rest extr : List Nat), g = Int.gcd x (x - c) → x = g * d → c = g * e → BestShape d n m →
    FewestCover n m ((complete n m).leaves - d) loop → FewestCover n m (d - e) rest → FewestCover n m e extr →
    extractCost cfg x c = .ok (uniformExtractCost (realBelt x d ((complete n m).leaves - d) > cfg.limit) n m loop rest extr)

theorem code_le_real (x : Int) (d l : Nat) (hx : 0 ≤ x) (hd : 0 < d) : codeBelt' x d l ≤ realBelt x d l := by
  unfold codeBelt' realBelt
  have hq : (0 : ℚ) ≤ x := by exact_mod_cast hx
  have hdq : (0 : ℚ) < d := by exact_mod_cast hd
  have : (l : ℚ) * x / ((d + l : Nat) : ℚ) ≤ l * x / d := by
    apply div_le_div_of_nonneg_left
    · positivity
    · exact hdq
    · push_cast; have : (0 : ℚ) ≤ l := by positivity
      linarith
  rw [mul_div_assoc] at this
  rw [mul_div_assoc] at this
  rw [mul_div_assoc]
  linarith

/-- What `extract_cost` computes, for every input: the uniform cost, with the surcharge decided by the belt
`x + l * x / (d + l)`. -/
theorem extract_cost_formula (cfg : Config) (x c : Int) (hx : 3 ≤ x) (hc : 0 < c) (hcx : c < x)
    (hs : c ∉ cfg.speeds.map (fun (s : Nat) => (s : Int)))
    (g d e n m : Nat) (loop rest extr : List Nat) (hg : g = Int.gcd x (x - c)) (hd : x = g * d) (he : c = g * e)
    (hb : BestShape d n m) (h1 : FewestCover n m ((complete n m).leaves - d) loop) (h2 : FewestCover n m (d - e) rest)
    (h3 : FewestCover n m e extr) :
    extractCost cfg x c =
      .ok (uniformExtractCost (codeBelt' x d ((complete n m).leaves - d) > cfg.limit) n m loop rest extr) := by
  obtain ⟨g', d', e', n', m', a1, a2, a3, a4, a5, a6, a7, a8, a9, a10, a11⟩ := extractCost_eq cfg x c hx hc hcx hs
  have : g = g' := by omega
  subst this
  have hgz : (g : Int) ≠ 0 := by omega
  have : d = d' := by
    have : (g : Int) * d = g * d' := by rw [← hd, ← a2]
    exact_mod_cast mul_left_cancel₀ hgz this
  subst this
  have : e = e' := by
    have : (g : Int) * e = g * e' := by rw [← he, ← a3]
    exact_mod_cast mul_left_cancel₀ hgz this
  subst this
  have hb' : BestShape d n' m' := (bestShape_iff _ _ _).2 ⟨a8, a9, findNML_min_loop d n' m' a8 a9 a10⟩
  obtain ⟨rfl, rfl⟩ := bestShape_unique hb hb'
  rw [complete_leaves] at h1
  have p1 := fewest_unique n m _ _ le_rfl _ h1
  have p2 := fewest_unique n m _ _ le_rfl _ h2
  have p3 := fewest_unique n m _ _ le_rfl _ h3
  rw [a11]
  unfold uniformExtractCost
  simp only [complete_leaves, complete_splitters, savedSplitters_eq, tot_perm _ p1, tot_perm _ p2, tot_perm _ p3,
    p1.length_eq, p2.length_eq, p3.length_eq, loopCharge_eq, toOne_eq]
  rw [← codeBelt_eq' x d n m a8]

/-- One half of C09 for extraction. If the real belt is within the limit no surcharge is charged, and the surcharge is
charged whenever `x + l * x / (d + l)` is over the limit, in which case the real belt is over it too. Missing: belts whose
real flow is over the limit but `x + l * x / (d + l)` is not; there the code violates the property
(`C09_surcharge_false`). -/
theorem C09_surcharge_partial (cfg : Config) (x c : Int) (hx : 3 ≤ x) (hc : 0 < c) (hcx : c < x)
    (hs : c ∉ cfg.speeds.map (fun (s : Nat) => (s : Int)))
    (h : ∀ d n m, BestShape d n m → (Int.gcd x (x - c) : Int) * d = x →
      realBelt x d ((complete n m).leaves - d) ≤ cfg.limit ∨ codeBelt' x d ((complete n m).leaves - d) > cfg.limit) :
    SurchargeExact cfg x c := by
  intro g d e n m loop rest extr hg hd he hb h1 h2 h3
  rw [extract_cost_formula cfg x c hx hc hcx hs g d e n m loop rest extr hg hd he hb h1 h2 h3]
  have hd0 : 0 < d := by
    rcases Nat.eq_zero_or_pos d with h | h
    · subst h; simp at hd; omega
    · exact h
  have hle := code_le_real x d ((complete n m).leaves - d) (by omega) hd0
  have := h d n m hb (by rw [← hg]; exact hd.symm)
  congr 1
  unfold uniformExtractCost feedBack
  rcases this with hw | ho
  · rw [if_neg (not_lt.2 (le_trans hle hw)), if_neg (not_lt.2 hw)]
  · rw [if_pos ho, if_pos (lt_of_lt_of_le ho hle)]

/-- Charging or not makes a difference. -/
theorem feedBack_ne {p q : Prop} [Decidable p] [Decidable q] (hp : p) (hq : ¬ q) (k n : Nat) :
    feedBack q k n < feedBack p k n := by
  unfold feedBack toOne
  rw [if_pos hp, if_neg hq]
  split_ifs <;> omega

/-- How far C09 holds, exactly: the surcharge of an extraction is right if and only if the real belt is within the limit or
`x + l * x / (d + l)` is over it. -/
theorem C09_surcharge_iff_partial (cfg : Config) (x c : Int) (hx : 3 ≤ x) (hc : 0 < c) (hcx : c < x)
    (hs : c ∉ cfg.speeds.map (fun (s : Nat) => (s : Int))) (d n m : Nat) (hd : (Int.gcd x (x - c) : Int) * d = x)
    (hb : BestShape d n m) :
    SurchargeExact cfg x c ↔
      realBelt x d ((complete n m).leaves - d) ≤ cfg.limit ∨ codeBelt' x d ((complete n m).leaves - d) > cfg.limit := by
  have hg : 0 < Int.gcd x (x - c) := Int.gcd_pos_of_ne_zero_left _ (by omega)
  constructor
  · intro hu
    by_contra hcon
    rw [not_or, not_le, not_lt] at hcon
    obtain ⟨c1, c2⟩ := hcon
    obtain ⟨e, he⟩ : (Int.gcd x (x - c) : Int) ∣ c := by
      have h1 : (Int.gcd x (x - c) : Int) ∣ x := Int.gcd_dvd_left ..
      have h2 : (Int.gcd x (x - c) : Int) ∣ x - c := Int.gcd_dvd_right ..
      have := dvd_sub h1 h2
      rwa [show x - (x - c) = c by ring] at this
    have hepos : 0 < e := by
      by_contra hneg
      have : (Int.gcd x (x - c) : Int) * e ≤ 0 := mul_nonpos_of_nonneg_of_nonpos (by positivity) (by omega)
      omega
    lift e to ℕ using hepos.le
    have h1 := hu _ d e n m (gsel n m _ _) (gsel n m _ _) (gsel n m _ _) rfl hd.symm he hb (gsel_fewest _ _ _)
      (gsel_fewest _ _ _) (gsel_fewest _ _ _)
    rw [extract_cost_formula cfg x c hx hc hcx hs _ d e n m _ _ _ rfl hd.symm he hb (gsel_fewest _ _ _)
      (gsel_fewest _ _ _) (gsel_fewest _ _ _), Except.ok.injEq] at h1
    unfold uniformExtractCost at h1
    have := feedBack_ne (p := realBelt x d ((complete n m).leaves - d) > cfg.limit)
      (q := codeBelt' x d ((complete n m).leaves - d) > cfg.limit) c1 (not_lt.2 c2)
      (gsel n m ((complete n m).leaves - d) ((complete n m).leaves - d)).length n
    omega
  · intro h
    refine C09_surcharge_partial cfg x c hx hc hcx hs (fun d' n' m' hb' hd' => ?_)
    have : d' = d := by
      have h1 : (Int.gcd x (x - c) : Int) * d' = (Int.gcd x (x - c) : Int) * d := by rw [hd', hd]
      exact_mod_cast mul_left_cancel₀ (by exact_mod_cast hg.ne') h1
    subst this
    obtain ⟨rfl, rfl⟩ := bestShape_unique hb hb'
    exact h

/-- Non-trivial instances: extracting 14 of 70 (five parts, one looped, 84 on the belt: within the limit); extracting 240
of 1200 is charged the surcharge (1440 on the belt). -/
example : extractCost config 70 14 = .ok 4 ∧ realBelt 70 5 1 ≤ config.limit ∧
    extractCost config 1200 240 = .ok 6 ∧ codeBelt' 1200 5 1 > config.limit := by decide +kernel

/-- The same half for division: with nothing looped, or the real belt within the limit, or at least three branches looped and
`x + l * x / (d + l)` over the limit, `divide_cost` charges the surcharge iff the real belt is over the limit. Missing: the
cases of `C08_divide_uniform_false` and of `C09_surcharge_false`. -/
theorem C09_divide_surcharge_partial (cfg : Config) (x : Int) (d : Nat) (hx : 2 ≤ x) (hd : 2 ≤ d) (hdx : (d : Int) ∣ x)
    (n m : Nat) (sel : List Nat) (hb : BestShape d n m) (hs : FewestCover n m ((complete n m).leaves - d) sel)
    (h : (complete n m).leaves = d ∨ realBelt x d ((complete n m).leaves - d) ≤ cfg.limit ∨
      (d + 3 ≤ (complete n m).leaves ∧ codeBelt' x d ((complete n m).leaves - d) > cfg.limit)) :
    divideCost cfg x d = .ok (((complete n m).splitters : Int) - savedSplitters n m sel +
      (if (complete n m).leaves = d then 0
       else feedBack (realBelt x d ((complete n m).leaves - d) > cfg.limit) sel.length n : Nat)) := by
  have hle := code_le_real x d ((complete n m).leaves - d) (by omega) (by omega)
  rw [C08_divide_uniform_partial cfg x d hx hd hdx ?_ n m sel hb hs]
  · unfold uniformDivideCost
    have hen := hb.enough
    by_cases h0 : (complete n m).leaves = d
    · simp [h0]
    · rw [if_neg h0]
      simp only
      rw [if_neg (by omega)]
      unfold feedBack
      rcases h with h | h | h
      · exact absurd h h0
      · rw [if_neg (not_lt.2 (le_trans hle h)), if_neg (not_lt.2 h)]
      · rw [if_pos h.2, if_pos (lt_of_lt_of_le h.2 hle)]
  · intro n' m' hb'
    obtain ⟨rfl, rfl⟩ := bestShape_unique hb hb'
    rcases h with h | h | h
    · exact Or.inl h
    · exact Or.inr (Or.inr (le_trans hle h))
    · exact Or.inr (Or.inl h.1)

/-- How far C09 holds for division, exactly. -/
theorem C09_divide_surcharge_iff_partial (cfg : Config) (x : Int) (d : Nat) (hx : 2 ≤ x) (hd : 2 ≤ d) (hdx : (d : Int) ∣ x)
    (n m : Nat) (sel : List Nat) (hb : BestShape d n m) (hs : FewestCover n m ((complete n m).leaves - d) sel) :
    divideCost cfg x d = .ok (((complete n m).splitters : Int) - savedSplitters n m sel +
      (if (complete n m).leaves = d then 0
       else feedBack (realBelt x d ((complete n m).leaves - d) > cfg.limit) sel.length n : Nat)) ↔
    (complete n m).leaves = d ∨ realBelt x d ((complete n m).leaves - d) ≤ cfg.limit ∨
      (d + 3 ≤ (complete n m).leaves ∧ codeBelt' x d ((complete n m).leaves - d) > cfg.limit) := by
  constructor
  · intro hu
    by_contra hcon
    rw [not_or, not_or, not_le] at hcon
    obtain ⟨c1, c2, c3⟩ := hcon
    rw [if_neg c1] at hu
    have hen := hb.enough
    by_cases hu8 : UniformDivide cfg x d
    · have hcase := (C08_divide_uniform_iff_partial cfg x d hx hd hdx n m hb).1 hu8
      have hcode : ¬ codeBelt' x d ((complete n m).leaves - d) > cfg.limit := by
        rcases hcase with h | h | h
        · exact absurd h c1
        · exact fun h' => c3 ⟨h, h'⟩
        · exact not_lt.2 h
      have h1 := hu8 n m sel hb hs
      rw [hu, Except.ok.injEq] at h1
      unfold uniformDivideCost at h1
      simp only at h1
      rw [if_neg (by omega)] at h1
      have := feedBack_ne (p := realBelt x d ((complete n m).leaves - d) > cfg.limit)
        (q := codeBelt' x d ((complete n m).leaves - d) > cfg.limit) c2 hcode sel.length n
      omega
    · rw [C08_divide_uniform_iff_partial cfg x d hx hd hdx n m hb, not_or, not_or] at hu8
      obtain ⟨-, h2, h3⟩ := hu8
      apply not_or.2 ⟨c1, not_or.2 ⟨h2, h3⟩⟩
      refine (C08_divide_uniform_iff_partial cfg x d hx hd hdx n m hb).1 (fun n' m' sel' hb' hs' => ?_)
      obtain ⟨rfl, rfl⟩ := bestShape_unique hb hb'
      have hp := (fewest_unique n m _ _ le_rfl sel hs).trans (fewest_unique n m _ _ le_rfl sel' hs').symm
      rw [hu]
      unfold uniformDivideCost feedBack
      simp only
      have hl0 : ¬ (complete n m).leaves - d = 0 := by omega
      rw [if_pos c2, if_neg hl0, if_pos (not_le.1 h3), savedSplitters_eq, savedSplitters_eq, tot_perm _ hp, hp.length_eq]
  · exact C09_divide_surcharge_partial cfg x d hx hd hdx n m sel hb hs

/-- Non-trivial instance: 13 parts of 1235, five looped, belt over the limit: charged 12. -/
example : divideCost config 1235 13 = .ok 12 ∧ codeBelt' 1235 13 5 > config.limit ∧ realBelt 1235 13 5 > config.limit := by
  decide +kernel

/-- The code violates C09: extracting 201 of 1005 really puts 1206 on the belt feeding the tree, over the limit of 1200, but
`extract_cost` computes 1172.5 and charges no surcharge. -/
theorem C09_surcharge_false : ¬ ∀ x c : Int, 3 ≤ x → 0 < c → c < x → c ∉ config.speeds.map (fun (s : Nat) => (s : Int)) →
    SurchargeExact config x c := by
  intro h
  have h1 := h 1005 201 (by norm_num) (by norm_num) (by norm_num) (by decide) 201 5 1 1 1 (gsel 1 1 1 1) (gsel 1 1 4 4)
    (gsel 1 1 1 1) (by decide +kernel) (by norm_num) (by norm_num) bestShape_5 (by
    rw [complete_leaves]; exact gsel_fewest 1 1 1) (gsel_fewest 1 1 4) (gsel_fewest 1 1 1)
  revert h1
  decide +kernel

end Satis
