import Verif.Solver.ScoreExact
import Verif.Props.Score
import Mathlib.Algebra.BigOperators.Group.Finset.Basic
/-!
# What a score says (C93)
-/

namespace Satis
open Utils Utils.Spec Cost Solver.Score Solver.Spec

/-- C93. The score of a single value: one if it is a target, otherwise the most targets per machine that one operation makes of it. -/
theorem C93_individual {cfg : Config} (hcfg : cfg.speeds.Pairwise (· ≤ ·)) (targets : List Int) {src : Int} (hs : 0 < src) :
    ∃ w, individual cfg targets src = .ok w ∧ Worth cfg targets src w := individual_exact hcfg targets hs

theorem Worth.unique {cfg : Config} {targets : List Int} {src : Int} {a b : ℚ} (ha : Worth cfg targets src a) (hb : Worth cfg targets src b) :
    a = b := by
  unfold Worth at ha hb
  split at ha
  · next w => rw [if_pos w] at hb; rw [ha, hb]
  · next w => rw [if_neg w] at hb; exact ha.unique hb

theorem Taken.unique {l : List Int} {s : Int} {a b : ℕ} (ha : Taken l s a) (hb : Taken l s b) : a = b := by
  induction ha generalizing b with
  | none =>
    generalize e : ([] : List Int) = l at hb
    cases hb with
    | none => rfl
    | take _ _ => simp at e
    | leave _ _ => simp at e
  | @take l x s n h1 _ ih =>
    generalize e : l ++ [x] = l' at hb
    cases hb with
    | none => simp at e
    | @take l2 x2 s2 n2 q1 q2 =>
      obtain ⟨rfl, w⟩ := List.append_inj' e rfl
      cases w
      rw [ih q2]
    | @leave l2 x2 s2 n2 q1 q2 =>
      obtain ⟨rfl, w⟩ := List.append_inj' e rfl
      cases w
      exact absurd h1 q1
  | @leave l x s n h1 _ ih =>
    generalize e : l ++ [x] = l' at hb
    cases hb with
    | none => simp at e
    | @take l2 x2 s2 n2 q1 q2 =>
      obtain ⟨rfl, w⟩ := List.append_inj' e rfl
      cases w
      exact absurd q1 h1
    | @leave l2 x2 s2 n2 q1 q2 =>
      obtain ⟨rfl, w⟩ := List.append_inj' e rfl
      cases w
      exact ih q2

/-- The description leaves no choice. -/
theorem Scored.unique {cfg : Config} {targets sources : List Int} {a b : ℚ} (ha : Scored cfg targets sources a)
    (hb : Scored cfg targets sources b) : a = b := by
  obtain ⟨u, D, w, k, p1, p2, p3, p4, rfl⟩ := ha
  obtain ⟨u', D', w', k', q1, q2, q3, q4, rfl⟩ := hb
  have hu : u = u' := (Multiset.coe_eq_coe.1 (p2.trans q2.symm)).eq_of_pairwise (fun _ _ _ _ h1 h2 => le_antisymm h1 h2) p1 q1
  subst hu
  have hD : D = D' := by
    ext s
    rw [p3, q3]
  subst hD
  congr 2
  refine Finset.sum_congr rfl fun s hs => ?_
  rw [Worth.unique (p4 s hs).1 (q4 s hs).1, Taken.unique (p4 s hs).2 (q4 s hs).2]

theorem dict_get_of_mem {d : Dict Int ℕ} (hd : d.keys.Nodup) {kv : Int × ℕ} (h : kv ∈ d) : d.get? kv.1 = some kv.2 :=
  Dict.get?_of_mem _ hd _ _ h

/-- C93. The score of a state whose sources are positive and in order, as they are in the search. -/
theorem C93_score {cfg : Config} (hcfg : cfg.speeds.Pairwise (· ≤ ·)) {targets sources : List Int} (hs : ∀ v ∈ sources, 0 < v)
    (hsort : sources.Pairwise (· ≤ ·)) : ∃ x, compute cfg targets sources = .ok x ∧ Scored cfg targets sources x := by
  set u := (removePairs sources targets).1 with hu
  set t := (removePairs sources targets).2 with ht
  have hus : ∀ v ∈ u, 0 < v := by
    intro v hv
    obtain ⟨c, h1, _⟩ := removePairs_perm sources targets
    exact hs v (h1.subset (by simp [← hu, hv]))
  have husort : u.Pairwise (· ≤ ·) := (removePairs_pairwise (fun x => le_refl x) sources targets).1 hsort
  have humul : (u : Multiset Int) = (sources : Multiset Int) - (targets : Multiset Int) := by
    ext v
    rw [Multiset.count_sub, Multiset.coe_count, Multiset.coe_count, Multiset.coe_count, hu, (removePairs_count sources targets v).1]
    omega
  have hm := matched_eq sources targets
  rw [← ht] at hm
  have hpair : removePairs sources targets = (u, t) := rfl
  obtain ⟨d, d1, d2, d3, d4⟩ := C18_all_sums u hus
  have hkpos : ∀ s ∈ d.keys, 0 < s := by
    intro s hs'
    obtain ⟨n, h1, sub, h2, h3, h4⟩ := (d3 s).1 hs'
    rw [← h3]
    cases sub with
    | nil => simp at h4; omega
    | cons a sub =>
      have hp : ∀ b ∈ a :: sub, 0 < b := fun b hb => hus b (h2.subset hb)
      have := hp a (by simp)
      have hsum : 0 ≤ sub.sum := List.sum_nonneg (fun b hb => (hp b (by simp [hb])).le)
      simp; omega
  have hw : ∀ s : Int, ∃ w : ℚ, 0 < s → individual cfg targets s = .ok w ∧ Worth cfg targets s w := by
    intro s
    by_cases h : 0 < s
    · obtain ⟨w, hw⟩ := C93_individual hcfg targets h
      exact ⟨w, fun _ => hw⟩
    · exact ⟨0, fun h' => absurd h' h⟩
  choose w hw using hw
  let k : Int → ℕ := fun s => (d.get? s).getD 0
  have hkey : ∀ kv ∈ d, kv.1 ∈ d.keys := fun kv h => List.mem_map_of_mem h
  have hk : ∀ kv ∈ d, k kv.1 = kv.2 := fun kv h => by
    show (d.get? kv.1).getD 0 = kv.2
    rw [dict_get_of_mem d2 h]; rfl
  have hterm : ∀ kv ∈ d, term cfg targets kv.1 kv.2 = .ok (w kv.1 / (max 1 (k kv.1 / 2) : ℕ)) := by
    intro kv hkv
    have h1 := (d4 _ _ (dict_get_of_mem d2 hkv)).1
    unfold term
    rw [(hw kv.1 (hkpos _ (hkey kv hkv))).1, hk kv hkv, mergeCost_eq]
    have e : ((((kv.2 : Int) - 1).toNat + 1) / 2) = kv.2 / 2 := by omega
    show pyDiv (w kv.1) _ = _
    rw [e]
    split
    · next q =>
      have : kv.2 / 2 = 0 := q
      rw [pyDiv_pos _ le_rfl, this]
      norm_num
    · next q =>
      have : (1 : Int) ≤ (kv.2 / 2 : ℕ) := by omega
      rw [pyDiv_pos _ this, max_eq_right (by omega)]
      norm_cast
  have hfold := foldlM_sum (fun kv : Int × Nat => term cfg targets kv.1 kv.2) _ d hterm 0
  rw [zero_add] at hfold
  have hmap : (d.map fun kv : Int × ℕ => w kv.1 / ((max 1 (k kv.1 / 2) : ℕ) : ℚ)).sum =
      ∑ s ∈ d.keys.toFinset, w s / ((max 1 (k s / 2) : ℕ) : ℚ) := by
    rw [List.sum_toFinset _ d2]
    unfold Dict.keys
    rw [List.map_map]
    rfl
  rw [hmap] at hfold
  refine ⟨_, ?_, u, d.keys.toFinset, w, k, husort, humul, fun s => by rw [List.mem_toFinset, d3],
    fun s hs' => ?_, rfl⟩
  · have hsq : ∀ x : ℚ, (((((targets.length : Int) - t.length) * ((targets.length : Int) - t.length) : Int) : ℚ) + x) =
        (((sources : Multiset Int) ∩ (targets : Multiset Int)).card : ℚ) ^ 2 + x := by
      intro x; rw [hm]; unfold matched; push_cast; ring
    rw [← hsq]
    unfold compute
    rw [hpair]
    simp only
    by_cases hn : u.length > 0
    · rw [if_pos hn, d1]
      change ((List.foldlM _ (0 : ℚ) d : Py ℚ) >>= _) = _
      rw [hfold]
      have hp2 : 2 ≤ 2 ^ u.length := by
        calc 2 = 2 ^ 1 := rfl
          _ ≤ 2 ^ u.length := Nat.pow_le_pow_right (by norm_num) hn
      have hden : (1 : Int) ≤ ((2 ^ u.length - 1 : Nat) : Int) := by omega
      show (pyDiv _ _ >>= _) = _
      rw [pyDiv_pos _ hden]
      have : (((2 ^ u.length - 1 : Nat) : Int) : ℚ) = (2 : ℚ) ^ u.length - 1 := by
        rw [Int.cast_natCast, Nat.cast_sub (by omega)]; push_cast; rfl
      rw [this]
      rfl
    · rw [if_neg hn]
      have h0 : u.length = 0 := by omega
      rw [h0]
      norm_num
      rfl
  · rw [List.mem_toFinset] at hs'
    refine ⟨(hw s (hkpos s hs')).2, C18_counts u d1 ?_⟩
    obtain ⟨kv, hkv, rfl⟩ := List.mem_map.1 hs'
    rw [hk kv hkv]
    exact dict_get_of_mem d2 hkv

/-- C93. The score that is computed is the only one that fits the description. -/
theorem C93_score_iff {cfg : Config} (hcfg : cfg.speeds.Pairwise (· ≤ ·)) {targets sources : List Int} (hs : ∀ v ∈ sources, 0 < v)
    (hsort : sources.Pairwise (· ≤ ·)) (x : ℚ) : compute cfg targets sources = .ok x ↔ Scored cfg targets sources x := by
  obtain ⟨y, h1, h2⟩ := C93_score hcfg hs hsort (targets := targets)
  constructor
  · intro h
    rw [h1] at h
    cases h
    exact h2
  · intro h
    rw [h1, Scored.unique h h2]

-- Six and four from seven and three: neither is there yet.
example : Scored config [4, 6] [3, 7] (1 / 4) := (C93_score_iff (by decide) (by decide) (by decide) _).1 (by decide +kernel)

-- A belt of 100 splits into 40, 40 and 20: three targets for three machines.
example : individual config [20, 40, 40] 100 = .ok 1 ∧ individual config [20, 40] 100 = .ok (2 / 3) := by decide +kernel

-- The order of the sources matters: here twelve is made last of all.
example : compute config [15] [1, 1, 1, 5, 5, 5, 12] ≠ compute config [15] [12, 1, 1, 1, 5, 5, 5] := by decide +kernel

end Satis
