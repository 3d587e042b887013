import Verif.Solver.ScoreFacts
/-!
# Properties of the scores (C58)
-/

namespace Satis
open Utils Utils.Spec Solver.Score

/-- How many targets are matched by sources of the same value. -/
def matched (sources targets : List Int) : Nat := (Multiset.ofList sources ∩ Multiset.ofList targets).card

theorem matched_eq (sources targets : List Int) : (targets.length : Int) - (removePairs sources targets).2.length = matched sources targets := by
  have h : (removePairs sources targets).2.length + matched sources targets = targets.length := by
    unfold matched
    have : Multiset.ofList (removePairs sources targets).2 + (Multiset.ofList sources ∩ Multiset.ofList targets) = Multiset.ofList targets := by
      ext v
      rw [Multiset.count_add, Multiset.count_inter, Multiset.coe_count, Multiset.coe_count, Multiset.coe_count,
        (removePairs_count sources targets v).2]
      omega
    have := congrArg Multiset.card this
    rw [Multiset.card_add] at this
    simpa using this
  omega

/-- The mean that `compute` adds, and how it is bounded. -/
theorem compute_ok (cfg : Config) {targets sources : List Int} (hs : ∀ v ∈ sources, 0 < v) :
    ∃ mean : ℚ, compute cfg targets sources = .ok ((matched sources targets : ℚ) ^ 2 + mean) ∧ 0 ≤ mean ∧
      ((removePairs sources targets).1 = [] → mean = 0) ∧ mean ≤ max (targets.length : ℚ) 2 ∧
      (∀ T, targets = [T] → sources.sum = T → sources ≠ [T] → mean ≤ 1 / 3) := by
  set u := (removePairs sources targets).1 with hu
  set w := (removePairs sources targets).2 with hw
  have hus : ∀ v ∈ u, 0 < v := by
    intro v hv
    obtain ⟨c, h1, _⟩ := removePairs_perm sources targets
    exact hs v (h1.subset (by simp [← hu, hv]))
  have hm := matched_eq sources targets
  rw [← hw] at hm
  have hpair : removePairs sources targets = (u, w) := rfl
  have hsq : ∀ x : ℚ, (((((targets.length : Int) - w.length) * ((targets.length : Int) - w.length) : Int) : ℚ) + x) =
      (matched sources targets : ℚ) ^ 2 + x := by
    intro x; rw [hm]; push_cast; ring
  unfold compute
  rw [hpair]
  simp only
  by_cases hn : u.length > 0
  swap
  · rw [if_neg hn]
    have := hsq 0
    rw [add_zero] at this
    refine ⟨0, by rw [← hsq 0, add_zero]; rfl, le_rfl, fun _ => rfl, by positivity, fun _ _ _ _ => by norm_num⟩
  · rw [if_pos hn]
    obtain ⟨d, d1, d2, d3, d4⟩ := C18_all_sums u hus
    have hkey : ∀ kv ∈ d, ∃ n, 1 ≤ n ∧ SubSum u kv.1 n := fun kv hkv => (d3 kv.1).1 (List.mem_map_of_mem hkv)
    have hkpos : ∀ kv ∈ d, 0 < kv.1 := by
      intro kv hkv
      obtain ⟨n, h1, sub, h2, h3, h4⟩ := hkey kv hkv
      rw [← h3]
      cases sub with
      | nil => simp at h4; omega
      | cons a sub =>
        have hp : ∀ b ∈ a :: sub, 0 < b := fun b hb => hus b (h2.subset hb)
        have := hp a (by simp)
        have hsum : 0 ≤ sub.sum := List.sum_nonneg (fun b hb => (hp b (by simp [hb])).le)
        simp; omega
    have hcount : ∀ v : Int, (targets.count v : ℚ) ≤ targets.length := fun v => by exact_mod_cast List.count_le_length
    have hterm : ∀ kv ∈ d, ∃ y, term cfg targets kv.1 kv.2 = .ok y ∧ 0 ≤ y ∧ y ≤ max (targets.length : ℚ) 2 := by
      intro kv hkv
      obtain ⟨x, x1, x2, x3⟩ := individual_ok (targets := targets) cfg (hkpos kv hkv) (e := 1) (e' := targets.length) (by norm_num)
        (by positivity) (fun v _ => hit_le _ _) (fun v _ => hcount v) (b := max (targets.length : ℚ) 2) (by simp) (by simp)
      exact term_ok cfg kv.2 x1 x2 x3
    let τ : Int × Nat → ℚ := fun kv => match term cfg targets kv.1 kv.2 with
      | .ok y => y
      | .error _ => 0
    have hτ : ∀ kv ∈ d, term cfg targets kv.1 kv.2 = .ok (τ kv) ∧ 0 ≤ τ kv ∧ τ kv ≤ max (targets.length : ℚ) 2 := by
      intro kv hkv
      obtain ⟨y, y1, y2, y3⟩ := hterm kv hkv
      have : τ kv = y := by show (match term cfg targets kv.1 kv.2 with | .ok y => y | .error _ => 0) = y; rw [y1]
      rw [this]; exact ⟨y1, y2, y3⟩
    have hfold := foldlM_sum (fun kv : Int × Nat => term cfg targets kv.1 kv.2) τ d (fun kv hkv => (hτ kv hkv).1) 0
    rw [zero_add] at hfold
    have hp2 : 2 ≤ 2 ^ u.length := by
      calc 2 = 2 ^ 1 := rfl
        _ ≤ 2 ^ u.length := Nat.pow_le_pow_right (by norm_num) hn
    have hden : (1 : Int) ≤ ((2 ^ u.length - 1 : Nat) : Int) := by omega
    have hdenq : (0 : ℚ) < (((2 ^ u.length - 1 : Nat) : Int) : ℚ) := by exact_mod_cast (by omega : 0 < 2 ^ u.length - 1)
    have hsum0 : 0 ≤ (d.map τ).sum := List.sum_nonneg (by
      intro x hx
      obtain ⟨kv, hkv, rfl⟩ := List.mem_map.1 hx
      exact (hτ kv hkv).2.1)
    refine ⟨(d.map τ).sum / (((2 ^ u.length - 1 : Nat) : Int) : ℚ), ?_, by positivity, ?_, ?_, ?_⟩
    · rw [← hsq, d1]
      change ((List.foldlM _ (0 : ℚ) d : Py ℚ) >>= _) = _
      rw [hfold]
      show (pyDiv _ _ >>= _) = _
      rw [pyDiv_pos _ hden]; rfl
    · intro h; rw [h] at hn; simp at hn
    · rw [div_le_iff₀ hdenq]
      have h1 : (d.map τ).sum ≤ (d.map τ).length • max (targets.length : ℚ) 2 := by
        apply List.sum_le_card_nsmul
        intro x hx
        obtain ⟨kv, hkv, rfl⟩ := List.mem_map.1 hx
        exact (hτ kv hkv).2.2
      have h2 := keys_length hus d2 d3
      have h3 : ((d.length : Nat) : ℚ) ≤ (((2 ^ u.length - 1 : Nat) : Int) : ℚ) := by exact_mod_cast h2
      rw [List.length_map, nsmul_eq_mul] at h1
      have h4 : (0 : ℚ) ≤ max (targets.length : ℚ) 2 := by positivity
      nlinarith
    · intro T hT hsumT hne
      -- nothing is matched, and only the full sum scores
      have hTs : T ∉ sources := by
        intro hin
        obtain ⟨a, b, e⟩ := List.append_of_mem hin
        have ha : 0 ≤ a.sum := List.sum_nonneg (fun v hv => (hs v (by rw [e]; simp [hv])).le)
        have hb : 0 ≤ b.sum := List.sum_nonneg (fun v hv => (hs v (by rw [e]; simp [hv])).le)
        rw [e] at hsumT
        simp at hsumT
        have za : ∀ l : List Int, (∀ v ∈ l, 0 < v) → l.sum = 0 → l = [] := by
          intro l hl h
          cases l with
          | nil => rfl
          | cons x xs =>
            have := hl x (by simp)
            have : 0 ≤ xs.sum := List.sum_nonneg (fun v hv => (hl v (by simp [hv])).le)
            simp at h; omega
        have ea := za a (fun v hv => hs v (by rw [e]; simp [hv])) (by omega)
        have eb := za b (fun v hv => hs v (by rw [e]; simp [hv])) (by omega)
        rw [ea, eb] at e
        exact hne e
      have huperm : u.Perm sources := by
        rw [List.perm_iff_count]
        intro v
        rw [hu, (removePairs_count sources targets v).1, hT, List.count_singleton]
        by_cases hv : T = v
        · subst hv
          rw [List.count_eq_zero_of_not_mem hTs]; simp
        · simp [hv]
      have husum : u.sum = T := by rw [huperm.sum_eq, hsumT]
      have hle : ∀ kv ∈ d, kv.1 ≤ T := by
        intro kv hkv
        obtain ⟨n, _, sub, h2, h3, _⟩ := hkey kv hkv
        rw [← h3, ← husum]
        obtain ⟨l, hl⟩ := h2.exists_perm_append
        rw [hl.sum_eq, List.sum_append]
        have : 0 ≤ l.sum := List.sum_nonneg (fun v hv => (hus v (hl.symm.subset (by simp [hv]))).le)
        omega
      have hone : ∀ kv ∈ d, τ kv ≤ if kv.1 = T then 1 else 0 := by
        intro kv hkv
        by_cases hkT : kv.1 = T
        · rw [if_pos hkT]
          have hin : individual cfg targets kv.1 = .ok 1 := individual_target cfg (by rw [hT, hkT]; simp)
          obtain ⟨y, y1, _, y3⟩ := term_ok cfg kv.2 hin zero_le_one le_rfl
          rw [(hτ kv hkv).1] at y1
          injection y1 with y1
          rw [y1]; exact y3
        · rw [if_neg hkT]
          have hlt : kv.1 < T := lt_of_le_of_ne (hle kv hkv) hkT
          obtain ⟨x, x1, x2, x3⟩ := individual_ok (targets := targets) cfg (hkpos kv hkv) (e := 0) (e' := 0) le_rfl le_rfl
            (fun v hv => by
              unfold hit; rw [hT, if_neg (by simp; omega)])
            (fun v hv => by
              rw [hT, List.count_eq_zero_of_not_mem (by simp; omega)]; simp) (b := 0) (by norm_num) le_rfl
          obtain ⟨y, y1, _, y3⟩ := term_ok cfg kv.2 x1 x2 x3
          rw [(hτ kv hkv).1] at y1
          injection y1 with y1
          rw [y1]; exact y3
      have hsum1 : (d.map τ).sum ≤ 1 := by
        have h1 : (d.map τ).sum ≤ (d.map fun kv => if kv.1 = T then (1 : ℚ) else 0).sum := by
          apply List.sum_le_sum
          exact hone
        refine le_trans h1 ?_
        have h2 : ∀ l : List (Int × Nat), (l.map Prod.fst).Nodup → (l.map fun kv => if kv.1 = T then (1 : ℚ) else 0).sum ≤ 1 := by
          intro l
          induction l with
          | nil => intro _; simp
          | cons a l ih =>
            intro hnd
            rw [List.map_cons, List.nodup_cons] at hnd
            rw [List.map_cons, List.sum_cons]
            by_cases ha : a.1 = T
            · have hz : (l.map fun kv => if kv.1 = T then (1 : ℚ) else 0) = l.map fun _ => 0 := by
                apply List.map_congr_left
                intro b hb
                rw [if_neg]
                intro hbT
                exact hnd.1 (List.mem_map.2 ⟨b, hb, by rw [hbT, ha]⟩)
              rw [hz, if_pos ha]; simp
            · rw [if_neg ha, zero_add]; exact ih hnd.2
        exact h2 d d2
      have hu2 : 2 ≤ u.length := by
        by_contra hlt
        have h1 : u.length = 1 := by omega
        obtain ⟨x, hx⟩ := List.length_eq_one_iff.1 h1
        rw [hx] at huperm husum
        have : sources = [x] := List.perm_singleton.1 huperm.symm
        simp at husum
        exact hne (by rw [this, husum])
      have h4 : 4 ≤ 2 ^ u.length := by
        calc 4 = 2 ^ 2 := rfl
          _ ≤ 2 ^ u.length := Nat.pow_le_pow_right (by norm_num) hu2
      have h5 : (3 : ℚ) ≤ (((2 ^ u.length - 1 : Nat) : Int) : ℚ) := by exact_mod_cast (by omega : 3 ≤ 2 ^ u.length - 1)
      rw [div_le_iff₀ hdenq]
      linarith

/-- C58. For positive sources, `compute` never raises (in particular, never divides by zero), and the score is at least the square of
the number of matched targets; so it is not negative. Exact arithmetic, see `Solver.Score`. -/
theorem C58_score_defined (cfg : Config) {targets sources : List Int} (hs : ∀ v ∈ sources, 0 < v) :
    ∃ x, compute cfg targets sources = .ok x ∧ ((matched sources targets : Nat) : ℚ) ^ 2 ≤ x ∧ 0 ≤ x := by
  obtain ⟨mean, h1, h2, _⟩ := compute_ok cfg (targets := targets) hs
  exact ⟨_, h1, by linarith, by positivity⟩

/-- C58. When the sources are the targets, the score is the square of the number of targets. -/
theorem C58_solution_score (cfg : Config) {targets sources : List Int} (hs : ∀ v ∈ sources, 0 < v) (hp : sources.Perm targets) :
    compute cfg targets sources = .ok ((targets.length : ℚ) ^ 2) := by
  obtain ⟨mean, h1, _, h3, _⟩ := compute_ok cfg (targets := targets) hs
  have hnil : (removePairs sources targets).1 = [] := by
    rw [List.eq_nil_iff_forall_not_mem]
    intro v hv
    have := List.count_pos_iff.2 hv
    rw [(removePairs_count sources targets v).1, hp.count_eq] at this
    omega
  have hm : matched sources targets = targets.length := by
    unfold matched
    rw [Multiset.coe_eq_coe.2 hp, le_antisymm Multiset.inter_le_left (Multiset.le_inter le_rfl le_rfl)]; simp
  rw [h1, h3 hnil, hm, add_zero]

/-- C58, converse, for sources and targets with the same total (which all states of a search have, C27): when the sources are not the
targets, the score is smaller, even by 2/3. Missing: other totals, for which it is false (`C58_full_score_false`). -/
theorem C58_full_score_partial (cfg : Config) {targets sources : List Int} (hs : ∀ v ∈ sources, 0 < v)
    (hsum : sources.sum = targets.sum) (hp : ¬ sources.Perm targets) :
    ∃ x, compute cfg targets sources = .ok x ∧ x ≤ (targets.length : ℚ) ^ 2 - 2 / 3 := by
  obtain ⟨mean, h1, h2, h3, h4, h5⟩ := compute_ok cfg (targets := targets) hs
  refine ⟨_, h1, ?_⟩
  have hm : matched sources targets < targets.length := by
    have hle : (Multiset.ofList sources ∩ Multiset.ofList targets) ≤ Multiset.ofList targets := Multiset.inter_le_right
    rcases lt_or_eq_of_le (Multiset.card_le_card hle) with h | h
    · exact h
    · exfalso
      have he := Multiset.eq_of_le_of_card_le hle (le_of_eq h.symm)
      have he' : Multiset.ofList targets ≤ Multiset.ofList sources := by rw [← he]; exact Multiset.inter_le_left
      obtain ⟨l', hl'⟩ := Multiset.le_iff_exists_add.1 he'
      obtain ⟨l, rfl⟩ := Quot.exists_rep l'
      have hl : sources.Perm (targets ++ l) := Multiset.coe_eq_coe.1 hl'
      have h6 := hl.sum_eq
      rw [List.sum_append, hsum] at h6
      have h7 : l = [] := by
        cases l with
        | nil => rfl
        | cons x xs =>
          have hx := hs x (hl.symm.subset (by simp))
          have : 0 ≤ xs.sum := List.sum_nonneg (fun v hv => (hs v (hl.symm.subset (by simp [hv]))).le)
          simp at h6; omega
      rw [h7, List.append_nil] at hl
      exact hp hl
  have hq : ((matched sources targets : Nat) : ℚ) ≤ targets.length - 1 := by
    have : ((matched sources targets + 1 : Nat) : ℚ) ≤ targets.length := by exact_mod_cast hm
    push_cast at this; linarith
  have hq0 : (0 : ℚ) ≤ (matched sources targets : Nat) := by positivity
  by_cases hN : targets.length = 1
  · obtain ⟨T, hT⟩ := List.length_eq_one_iff.1 hN
    have hmz : matched sources targets = 0 := by omega
    have := h5 T hT (by rw [hsum, hT]; simp) (by intro e; exact hp (by rw [e, hT]))
    rw [hmz, hN]; norm_num; linarith
  · have hN2 : (2 : ℚ) ≤ targets.length := by exact_mod_cast (by omega : 2 ≤ targets.length)
    rw [max_eq_left hN2] at h4
    nlinarith

/-- C58 without any condition on the totals, for two or more targets: the score reaches the square of their number if and only if every target is matched by a
source of its own; otherwise it stays below by at least one less than their number. -/
theorem C58_reaches_iff (cfg : Config) {targets sources : List Int} (hs : ∀ v ∈ sources, 0 < v) (h2 : 2 ≤ targets.length) :
    ∃ x, compute cfg targets sources = .ok x ∧ ((targets.length : ℚ) ^ 2 ≤ x ↔ ∀ v, targets.count v ≤ sources.count v) ∧
      (¬ (∀ v, targets.count v ≤ sources.count v) → x ≤ (targets.length : ℚ) ^ 2 - (targets.length - 1)) := by
  obtain ⟨mean, h1, h0, -, h4, -⟩ := compute_ok cfg (targets := targets) hs
  have hN2 : (2 : ℚ) ≤ targets.length := by exact_mod_cast h2
  rw [max_eq_left hN2] at h4
  have hle : (Multiset.ofList sources ∩ Multiset.ofList targets) ≤ Multiset.ofList targets := Multiset.inter_le_right
  have hall : (∀ v, targets.count v ≤ sources.count v) ↔ matched sources targets = targets.length := by
    constructor
    · intro w
      have : Multiset.ofList targets ≤ Multiset.ofList sources := Multiset.le_iff_count.2 fun v => by simpa using w v
      unfold matched
      rw [le_antisymm hle (Multiset.le_inter this le_rfl)]
      simp
    · intro w v
      have he := Multiset.eq_of_le_of_card_le hle (show Multiset.card (Multiset.ofList targets) ≤ _ by
        show targets.length ≤ matched sources targets
        omega)
      have he' : Multiset.ofList targets ≤ Multiset.ofList sources := by rw [← he]; exact Multiset.inter_le_left
      simpa using Multiset.le_iff_count.1 he' v
  have hml : matched sources targets ≤ targets.length := by
    have := Multiset.card_le_card hle
    simpa [matched] using this
  have low : matched sources targets ≠ targets.length → (matched sources targets : ℚ) ^ 2 + mean ≤ (targets.length : ℚ) ^ 2 - (targets.length - 1) := by
    intro w
    have hq : ((matched sources targets : Nat) : ℚ) ≤ targets.length - 1 := by
      have : ((matched sources targets + 1 : Nat) : ℚ) ≤ targets.length := by exact_mod_cast (by omega : matched sources targets + 1 ≤ targets.length)
      push_cast at this
      linarith
    have hq0 : (0 : ℚ) ≤ (matched sources targets : Nat) := by positivity
    nlinarith
  refine ⟨_, h1, ?_, fun w => low fun q => w (hall.2 q)⟩
  rw [hall]
  constructor
  · intro w
    by_contra hne
    have := low hne
    linarith
  · intro w
    rw [w]
    linarith

/-- Two of three targets matched, and a solution with something left over. -/
example : compute config [1, 2, 5] [1, 2, 3] = .ok 5 ∧ compute config [1, 5] [1, 5, 2] = .ok 5 := by decide +kernel

/-- With a single target it is reached without a match: the target 5 and the source 10. -/
theorem C58_single_false : compute config [5] [10] = .ok (([5] : List Int).length ^ 2) := by decide +kernel

/-- C58 fails for unbalanced lists: with the target 5, the sources 1, 5 score 1 as well. -/
theorem C58_full_score_false : ∃ sources targets : List Int, (∀ v ∈ sources, 0 < v) ∧ (∀ v ∈ targets, 0 < v) ∧
    ¬ sources.Perm targets ∧ compute config targets sources = .ok ((targets.length : ℚ) ^ 2) :=
  ⟨[1, 5], [5], by decide, by decide, by decide, by decide +kernel⟩

example : compute config [1, 5] [2, 4] = .ok (2 / 3) ∧ compute config [1, 2, 5] [1, 3, 4] = .ok (16 / 9) := by decide +kernel

end Satis
