import Verif.Utils.FastListLemmas
import Verif.Utils.Descending
import Verif.Utils.Literals
/-!
# Properties of the helper modules (C10–C19)
-/

namespace Satis
open Utils Utils.Spec

/-! ## C10 -/

/-- **C10.** Start from `FastList(*args)` and make any sequence of calls, catching exceptions: the elements and everything
the caller saw are those of a plain ordered set; there is no duplicate; `contains` is membership; and the elements are in
the order in which they were offered. -/
theorem C10_fastlist_ordered_set {α : Type} [DecidableEq α] (args : List α) (cs : List (FastList.Call α)) :
    let l := ((FastList.new args).calls cs).1
    l.items = (FastList.Spec.steps (args.foldl FastList.Spec.insert []) cs).1 ∧
    ((FastList.new args).calls cs).2 = (FastList.Spec.steps (args.foldl FastList.Spec.insert []) cs).2 ∧
    l.items.Nodup ∧ (∀ x, l.contains x = true ↔ x ∈ l.items) ∧
    l.items.Sublist (args ++ FastList.Spec.offered cs) := by
  have h0 : (FastList.new args).items = args.foldl FastList.Spec.insert [] := FastList.extend_items FastList.wf_empty args
  obtain ⟨h1, h2, h3⟩ := FastList.calls_spec (FastList.wf_new args) cs
  rw [h0] at h2 h3
  refine ⟨h2, h3, h1.nodup, h1.contains_iff, ?_⟩
  rw [h2]
  refine (FastList.steps_sublist _ cs).trans ?_
  have := (FastList.foldl_insert_sublist args []).append (List.Sublist.refl (FastList.Spec.offered cs))
  simpa using this

example : ((FastList.new [1, 2, 1]).calls [.append 3, .append 2, .remove 1, .remove 9, .pop (-1), .append 1, .pop 7]) =
    (⟨[2, 1], [2, 1]⟩, [.ok none, .ok none, .ok none, .error .valueError, .ok (some 3), .ok none, .error .indexError]) := by
  decide +kernel

/-! ## C11 -/

/-- **C11.** `remove_pairs` cancels exactly the common part: counts, disjointness, the difference of the sums, order, and a
second application changes no count. -/
theorem C11_remove_pairs_exact (a b : List ℚ) :
    (∀ v, (removePairs a b).1.count v = a.count v - min (a.count v) (b.count v)) ∧
    (∀ v, (removePairs a b).2.count v = b.count v - min (a.count v) (b.count v)) ∧
    (∀ v ∈ (removePairs a b).1, v ∉ (removePairs a b).2) ∧
    (removePairs a b).1.sum - (removePairs a b).2.sum = a.sum - b.sum ∧
    (a.Pairwise (· ≤ ·) → (removePairs a b).1.Pairwise (· ≤ ·)) ∧
    (b.Pairwise (· ≤ ·) → (removePairs a b).2.Pairwise (· ≤ ·)) ∧
    (removePairs (removePairs a b).1 (removePairs a b).2).1.Perm (removePairs a b).1 ∧
    (removePairs (removePairs a b).1 (removePairs a b).2).2.Perm (removePairs a b).2 := by
  have hc := removePairs_count a b
  have hdisj : ∀ v ∈ (removePairs a b).1, v ∉ (removePairs a b).2 := by
    intro v h1 h2
    have c1 := List.count_pos_iff.2 h1
    have c2 := List.count_pos_iff.2 h2
    rw [(hc v).1] at c1; rw [(hc v).2] at c2
    omega
  obtain ⟨c, p1, p2⟩ := removePairs_perm a b
  have hp := removePairs_pairwise (r := fun x y : ℚ => x ≤ y) (fun x => le_refl x) a b
  refine ⟨fun v => (hc v).1, fun v => (hc v).2, hdisj, ?_, hp.1, hp.2, ?_, ?_⟩
  · rw [← p1.sum_eq, ← p2.sum_eq, List.sum_append, List.sum_append]; ring
  · rw [List.perm_iff_count]; intro v
    have := removePairs_count (removePairs a b).1 (removePairs a b).2 v
    rw [this.1, (hc v).1, (hc v).2]; omega
  · rw [List.perm_iff_count]; intro v
    have := removePairs_count (removePairs a b).1 (removePairs a b).2 v
    rw [this.2, (hc v).1, (hc v).2]; omega

/-- **C11.** A second application changes nothing at all. -/
theorem C11_remove_pairs_idempotent (a b : List ℚ) :
    removePairs (removePairs a b).1 (removePairs a b).2 = removePairs a b := by
  have hk := cancel_keys (counter a).keys (counter a, counter b) (fun k hk => hk)
  have h1 : Adjacent (removePairs a b).1 := adjacent_elements _ (by rw [hk.1]; exact counter_keys_nodup a)
  have h2 : Adjacent (removePairs a b).2 := adjacent_elements _ (by rw [hk.2]; exact counter_keys_nodup b)
  rw [removePairs_disjoint _ h1 _ (C11_remove_pairs_exact a b).2.2.1, elements_counter_adjacent _ h2]

example : removePairs [1, 1, 2, 5 / 2, 3] [1, 5 / 2, 5 / 2, 4] = ([1, 2, 3], [(5 / 2 : ℚ), 4]) := by decide +kernel

/-! ## C12 -/

/-- **C12.** Every value is multiplied by `D`, exactly; `D ≥ 1`; and `D` divides every positive multiplier that makes all
the values integral. -/
theorem C12_scaling_exact (fs : List ℚ) :
    (fractionsToIntegers fs).1.length = fs.length ∧
    (∀ (i : ℕ) (f : ℚ), fs[i]? = some f → ∃ z : ℤ, (fractionsToIntegers fs).1[i]? = some z ∧ (z : ℚ) = f * (fractionsToIntegers fs).2) ∧
    1 ≤ (fractionsToIntegers fs).2 ∧
    ∀ e : ℕ, (∀ f ∈ fs, Integral (f * e)) → (fractionsToIntegers fs).2 ∣ e := by
  have h := fractionsToIntegers_cast fs
  have hl : (fractionsToIntegers fs).1.length = fs.length := by simp [fractionsToIntegers]
  refine ⟨hl, ?_, common_pos fs, common_min fs⟩
  intro i f hf
  have hi : i < fs.length := (List.getElem?_eq_some_iff.1 hf).1
  refine ⟨(fractionsToIntegers fs).1[i], List.getElem?_eq_getElem (by omega), ?_⟩
  have h2 := congrArg (fun l => l[i]?) h
  simp only [List.getElem?_map, hf, List.getElem?_eq_getElem (show i < (fractionsToIntegers fs).1.length by omega),
    Option.map_some, Option.some.injEq] at h2
  exact h2

/-- **C12.** Comparisons and sums are preserved. -/
theorem C12_scaling_order (fs : List ℚ) :
    (∀ (i j : ℕ) (f g : ℚ) (y z : ℤ), fs[i]? = some f → fs[j]? = some g → (fractionsToIntegers fs).1[i]? = some y →
      (fractionsToIntegers fs).1[j]? = some z → ((y < z ↔ f < g) ∧ (y = z ↔ f = g))) ∧
    (((fractionsToIntegers fs).1.sum : ℤ) : ℚ) = fs.sum * (fractionsToIntegers fs).2 := by
  obtain ⟨_, h2, h3, _⟩ := C12_scaling_exact fs
  have hD : (0 : ℚ) < (fractionsToIntegers fs).2 := by exact_mod_cast h3
  constructor
  · intro i j f g y z hf hg hy hz
    obtain ⟨y', e1, e2⟩ := h2 i f hf
    obtain ⟨z', e3, e4⟩ := h2 j g hg
    rw [e1] at hy; rw [e3] at hz
    simp only [Option.some.injEq] at hy hz
    subst hy hz
    constructor
    · rw [← Int.cast_lt (R := ℚ), e2, e4]; exact mul_lt_mul_iff_left₀ hD
    · rw [← Int.cast_inj (α := ℚ), e2, e4]; exact mul_left_inj' hD.ne'
  · have h := congrArg List.sum (fractionsToIntegers_cast fs)
    rw [List.sum_map_mul_right] at h
    simp only [List.map_id'] at h
    rw [← h]
    generalize (fractionsToIntegers fs).1 = l
    induction l with
    | nil => simp
    | cons a l ih => simp [ih]

example : fractionsToIntegers [1 / 2, 7 / 12, 3] = ([6, 7, 36], 12) := by decide +kernel

/-! ## C13 -/

/-- **C13.** A finite expansion is recognised, with the least sufficient number of decimals; otherwise the number returned
is the least `m` after which the decimals repeat (`None` standing for zero). -/
theorem C13_decimal_classification (f : ℚ) :
    ((decimalInfo f).1 = true ↔ ∃ k, ExactWith f k) ∧
    ((∃ k, ExactWith f k) → ∃ m, decimalInfo f = (true, some m) ∧ IsLeast {k | ExactWith f k} m) ∧
    ((¬ ∃ k, ExactWith f k) → ∃ m, decimalInfo f = (false, if m = 0 then none else some m) ∧
      IsLeast {m | PeriodicAfter |f| m} m) := by
  obtain ⟨a, b, r, h1, h2, h3, h4⟩ := decimalInfo_split f
  have hex := exactWith_iff f h1 h2 h3
  have hper := periodicAfter_abs_iff f h1 h2 h3
  have hfin : (∃ k, ExactWith f k) ↔ r = 1 := by
    constructor
    · rintro ⟨k, hk⟩; exact ((hex k).1 hk).1
    · intro hr; exact ⟨max a b, (hex _).2 ⟨hr, le_max_left _ _, le_max_right _ _⟩⟩
  rw [hfin]
  refine ⟨?_, ?_, ?_⟩
  · rw [h4]
    by_cases hr : r = 1
    · rw [if_pos hr]; simp [hr]
    · rw [if_neg hr]; split_ifs <;> simp [hr]
  · intro hr
    refine ⟨max a b, by rw [h4, if_pos hr], (hex _).2 ⟨hr, le_max_left _ _, le_max_right _ _⟩, ?_⟩
    intro k hk
    have := (hex k).1 hk
    exact max_le this.2.1 this.2.2
  · intro hr
    refine ⟨max a b, ?_, (hper _).2 ⟨le_max_left _ _, le_max_right _ _⟩, ?_⟩
    · rw [h4, if_neg hr]
      by_cases h0 : a = 0 ∧ b = 0
      · rw [if_pos h0, h0.1, h0.2]; rfl
      · rw [if_neg h0, if_neg (by omega)]
    · intro k hk
      have := (hper k).1 hk
      exact max_le this.1 this.2

example : decimalInfo (7 / 40) = (true, some 3) ∧ decimalInfo (7 / 12) = (false, some 2) ∧ decimalInfo (-5 / 3) = (false, none) ∧
    decimalInfo 4 = (true, some 0) := by decide +kernel

/-! ## C14 -/

/-- **C14.** Every complete literal parses, to the number it denotes. -/
theorem C14_literals (l : Literal) (h : l.Valid) : ∃ q, parseFraction l.text = .ok q ∧ l.Denotes q := literal_denotes l h

/-- **C14.** A zero denominator is an exception, not a number. -/
theorem C14_zero_denominator (big : Bool) (s s' : Sign) (a b : List (Fin 10)) (ha : a ≠ []) (hb : b ≠ []) (h0 : digitsNat b = 0) :
    parseFraction (Literal.ratio big s a s' b).text = .error .zeroDivision := by
  simp only [Literal.text]
  rw [parseRatio_spec (if big then '⧸' else '/') (by cases big <;> simp) s s' _ _ (allDigits_map a) (allDigits_map b)
    (by simpa using ha) (by simpa using hb), digitsFold_map, digitsFold_map, h0]
  cases s' <;> rfl

example : (Literal.repeating [1] [2] [3, 4]).Valid ∧ (Literal.repeating [1] [2] [3, 4]).text = "1.2(34)".toList ∧
    parseFraction "1.2(34)".toList = .ok (611 / 495) := ⟨by simp [Literal.Valid], by decide +kernel, by decide +kernel⟩
example : (Literal.ratio true .none [7] .minus [1, 2]).text = "7⧸-12".toList ∧ parseFraction "7⧸-12".toList = .ok (-7 / 12) :=
  ⟨by decide +kernel, by decide +kernel⟩

/-! ## C15 -/

/-- **C15.** The name of a problem parses back to the problem, also after `⧸` was replaced by `/`. -/
theorem C15_name_round_trip (s t : List ℚ) (hs : s ≠ []) (ht : t ≠ []) (hsn : ∀ f ∈ s, 0 ≤ f) (htn : ∀ f ∈ t, 0 ≤ f) :
    ∃ s' t', parseUserInput (problemName s t) = .ok (some (s', t')) ∧
      parseUserInput (replaceChar '⧸' '/' (problemName s t)) = .ok (some (s', t')) ∧
      s'.Perm s ∧ t'.Perm t ∧ (Adjacent s → s' = s) ∧ (Adjacent t → t' = t) := by
  have h1 := parse_problemName '⧸' (Or.inr rfl) s t hs ht hsn htn
  have h2 := parse_problemName '/' (Or.inl rfl) s t hs ht hsn htn
  have hid : replaceChar '⧸' '⧸' (problemName s t) = problemName s t := by
    unfold replaceChar
    conv_rhs => rw [← List.map_id (problemName s t)]
    refine List.map_congr_left (fun c _ => ?_)
    split
    · rename_i h; rw [h]; rfl
    · rfl
  rw [hid] at h1
  exact ⟨_, _, h1, h2, elements_counter_perm s, elements_counter_perm t, elements_counter_adjacent s, elements_counter_adjacent t⟩

/-- Sorted lists (what `load` formats) have equal values adjacent. -/
theorem C15_sorted_adjacent (l : List ℚ) (h : l.Pairwise (· ≤ ·)) : Adjacent l := by
  intro u v w x hl y hy
  rw [hl] at h
  simp only [List.append_assoc, List.cons_append] at h
  have h1 := (List.pairwise_append.1 h).2.1
  rw [List.pairwise_cons] at h1
  have h2 := (List.pairwise_append.1 h1.2).2.2
  exact le_antisymm (h2 y hy x (by simp)) (h1.1 y (by simp [hy]))

example : problemName [1 / 2, 1 / 2, 7 / 12] [0, 19 / 12] = "2x 0.5 7⧸12 to 0 19⧸12".toList ∧
    parseUserInput "2x 0.5 7/12 to 0 19/12".toList = .ok (some ([1 / 2, 1 / 2, 7 / 12], [0, 19 / 12])) :=
  ⟨by decide +kernel, by decide +kernel⟩

/-! ## C16 -/

/-- **C16.** No problem name contains a path separator (any values, also negative ones). -/
theorem C16_no_separator (s t : List ℚ) : '/' ∉ formatFractions s ∧ '/' ∉ problemName s t := by
  have hf : ∀ l, '/' ∉ formatFractions l := by
    intro l h
    rcases mem_joinSp _ _ h with h | ⟨u, hu, hc⟩
    · exact absurd h (by decide)
    · obtain ⟨kv, _, rfl⟩ := List.mem_map.1 hu
      unfold withCount at hc
      split at hc
      · simp only [List.mem_append, List.mem_cons] at hc
        rcases hc with h | h | h | h
        · exact natStr_no_slash _ h
        · exact absurd h (by decide)
        · exact absurd h (by decide)
        · exact valueStr_no_slash _ h
      · exact valueStr_no_slash _ hc
  refine ⟨hf s, ?_⟩
  unfold problemName
  simp only [List.mem_append, not_or]
  exact ⟨⟨hf s, by decide⟩, hf t⟩

/-- **C16.** Problems with the same name have the same multisets of sources and targets. -/
theorem C16_names_injective (s t s' t' : List ℚ) (hs : s ≠ []) (ht : t ≠ []) (hs' : s' ≠ []) (ht' : t' ≠ [])
    (h : ∀ f ∈ s ++ t ++ s' ++ t', 0 ≤ f) (heq : problemName s t = problemName s' t') : s.Perm s' ∧ t.Perm t' := by
  obtain ⟨a, b, h1, _, h2, h3, _⟩ := C15_name_round_trip s t hs ht (fun f hf => h f (by simp [hf])) (fun f hf => h f (by simp [hf]))
  obtain ⟨a', b', h1', _, h2', h3', _⟩ := C15_name_round_trip s' t' hs' ht' (fun f hf => h f (by simp [hf])) (fun f hf => h f (by simp [hf]))
  rw [heq, h1'] at h1
  simp only [Except.ok.injEq, Option.some.injEq, Prod.mk.injEq] at h1
  obtain ⟨rfl, rfl⟩ := h1
  exact ⟨h2.symm.trans h2', h3.symm.trans h3'⟩

example : problemName [1 / 2, 1, 1 / 2] [2] = problemName [1 / 2, 1 / 2, 1] [2] ∧ problemName [1 / 2, 1] [3 / 2] ≠ problemName [1 / 2, 1, 1] [5 / 2] := by
  decide +kernel

/-! ## C17 -/

/-- **C17 (partial).** Soundness as stated fails (see `C17_linear_combinations_false`): a yielded vector is only known to
have a prefix that sums to `y`, and a solution is only known to be yielded up to a prefix after which it is zero. The
coefficients are non-negative, there is one per value, and nothing is raised. -/
theorem C17_linear_combinations_partial (x : List ℤ) (hx : ∀ a ∈ x, 0 < a) (y : ℤ) :
    ∃ outs, findLinearCombinations x y = .ok outs ∧
      (∀ v ∈ outs, v.length = x.length ∧ (∀ a ∈ v, 0 ≤ a) ∧ ∃ k ≤ x.length, dot (v.take k) (x.take k) = y) ∧
      (x ≠ [] → ∀ c, Combination x y c → ∃ v ∈ outs, ∃ k, v.take k = c.take k ∧ ∀ a ∈ c.drop k, a = 0) := by
  by_cases h : x = [] ∨ y < 0
  · refine ⟨[], by unfold findLinearCombinations; rw [if_pos h], by simp, ?_⟩
    intro hx0 c hc
    rcases h with h | h
    · exact absurd h hx0
    · have := dot_nonneg c x hc.nonneg hx
      rw [hc.total] at this; omega
  · rw [not_or] at h
    obtain ⟨outs, tl', e1, _, _, e4⟩ := flc_spec x hx y (by omega) [] (List.replicate x.length 0) (by simp) (by
      intro a ha; rw [List.eq_of_mem_replicate ha])
    refine ⟨outs, ?_, ?_, ?_⟩
    · unfold findLinearCombinations; rw [if_neg (by tauto)]
      simp only [List.nil_append, List.length_nil] at e1
      rw [e1]; rfl
    · intro v hv
      obtain ⟨w, rfl, w2, w3, k, k1, k2⟩ := e4.sound v hv
      exact ⟨by simpa using w2, by simpa using w3, k, k1, by simpa using k2⟩
    · intro _ c hc
      obtain ⟨v, hv, k, t, r1, r2⟩ := e4.complete c hc
      refine ⟨v, hv, min k c.length, ?_, ?_⟩
      · rw [r1]
        simp only [List.nil_append]
        have hlen : (c.take k).length = min k c.length := by simp
        rw [← hlen, List.take_left' rfl, hlen]
        rcases Nat.le_total k c.length with h | h
        · rw [min_eq_left h]
        · rw [min_eq_right h, List.take_of_length_le h, List.take_length]
      · intro a ha
        rcases Nat.le_total k c.length with h | h
        · rw [min_eq_left h] at ha; exact r2 a ha
        · rw [min_eq_right h] at ha; simp at ha

/-- **C17 is false.** For `x = [1, 1]`, `y = 1` the vectors yielded are `[0, 1]` and `[1, 1]`: the second is not a solution,
and the solution `[1, 0]` is missing. `current_solution` keeps the coefficient of an earlier branch. -/
theorem C17_linear_combinations_false :
    ∃ outs, findLinearCombinations [1, 1] 1 = .ok outs ∧ (∃ v ∈ outs, ¬ Combination [1, 1] 1 v) ∧
      ∃ c, Combination [1, 1] 1 c ∧ c ∉ outs := by
  refine ⟨[[0, 1], [1, 1]], by decide +kernel, ⟨[1, 1], by simp, fun h => absurd h.total (by decide)⟩, [1, 0], ?_, by decide⟩
  exact ⟨rfl, by simp, by decide⟩

/-- **C17 (partial), exactly when it holds.** For positive values the enumeration is exact for every sum (each solution
once, nothing else) if and only if the values are strictly ascending. -/
theorem C17_exact_iff_ascending_partial (x : List ℤ) (hx : ∀ a ∈ x, 0 < a) (hne : x ≠ []) :
    (∀ y, ∃ outs, findLinearCombinations x y = .ok outs ∧ outs.Nodup ∧ ∀ v, v ∈ outs ↔ Combination x y v) ↔
      x.Pairwise (· < ·) := by
  constructor
  · intro h
    by_contra hs
    obtain ⟨y, hy, hbad⟩ := flc_unsound x hx hs
    obtain ⟨outs, h1, _, h2⟩ := h y
    obtain ⟨o, tl', e1, w, hw, hd⟩ := hbad [] (List.replicate x.length 0) (by simp) (by
      intro a ha; rw [List.eq_of_mem_replicate ha])
    unfold findLinearCombinations at h1
    rw [if_neg (by rw [not_or]; exact ⟨hne, by omega⟩)] at h1
    simp only [List.length_nil, List.nil_append] at e1 hw
    rw [e1] at h1
    simp only [Except.map, Except.ok.injEq] at h1
    rw [h1] at hw
    exact hd ((h2 w).1 hw).total
  · intro hs y
    by_cases hy : y < 0
    · refine ⟨[], by unfold findLinearCombinations; rw [if_pos (Or.inr hy)], by simp, ?_⟩
      intro v
      simp only [List.not_mem_nil, false_iff]
      intro hv
      have := dot_nonneg v x hv.nonneg hx
      rw [hv.total] at this
      omega
    · obtain ⟨outs, tl', e1, _, e3, e4, _⟩ := flc_ascending x hx hs y (by omega) [] (List.replicate x.length 0) (by simp)
        (fun _ a ha => List.eq_of_mem_replicate ha)
      refine ⟨outs, ?_, e3, ?_⟩
      · unfold findLinearCombinations
        rw [if_neg (by rw [not_or]; exact ⟨hne, hy⟩)]
        simp only [List.length_nil, List.nil_append] at e1
        rw [e1]
        rfl
      · intro v
        rw [e4]
        simp

-- Two values in the order in which CPython's `set` holds them: eight and three do not give sixteen this way.
example : findLinearCombinations [8, 3] 16 = .ok [[2, 2]] ∧ findLinearCombinations [3, 8] 16 = .ok [[0, 2]] := by
  decide +kernel

example : findLinearCombinations [2, 3] 7 = .ok [[2, 1]] ∧ Combination [2, 3] 7 [2, 1] :=
  ⟨by decide +kernel, rfl, by simp, by decide⟩

/-! ## C18 -/

/-- **C18.** For positive numbers the keys are the sums of the non-empty sub-multisets, each key occurs once, and each count
is the size of a sub-multiset with that sum. -/
theorem C18_all_sums (numbers : List ℤ) (hpos : ∀ a ∈ numbers, 0 < a) :
    ∃ d, allSums numbers = .ok d ∧ d.keys.Nodup ∧ (∀ s, s ∈ d.keys ↔ ∃ n, 1 ≤ n ∧ SubSum numbers s n) ∧
      ∀ s n, d.get? s = some n → 1 ≤ n ∧ SubSum numbers s n := by
  obtain ⟨h1, h2, h3⟩ := sums_inv numbers
  have hzero : ∀ s n, SubSum numbers s n → (s = 0 ↔ n = 0) := by
    rintro s n ⟨sub, hs, rfl, rfl⟩
    cases sub with
    | nil => simp
    | cons a sub =>
      have hp : ∀ b ∈ a :: sub, 0 < b := fun b hb => hpos b (hs.subset hb)
      have hsum : 0 ≤ sub.sum := List.sum_nonneg (fun b hb => (hp b (by simp [hb])).le)
      have := hp a (by simp)
      constructor
      · intro h; simp at h; omega
      · intro h; simp at h
  have h0 : (0 : ℤ) ∈ (numbers.foldl sumsStep [(0, 0)]).keys := (h2 0).2 ⟨0, [], by simp, by simp, rfl⟩
  generalize hd : numbers.foldl sumsStep [(0, 0)] = d at *
  refine ⟨d.filter (fun kv => kv.1 ≠ 0), ?_, ?_, ?_, ?_⟩
  · unfold allSums
    rw [hd]
    unfold Dict.erase
    cases hg : d.get? 0 with
    | none => exact absurd h0 ((Dict.get?_eq_none d 0).1 hg)
    | some v => rfl
  · exact h1.sublist (List.Sublist.map _ List.filter_sublist)
  · intro s
    rw [keys_filter, h2]
    constructor
    · rintro ⟨⟨n, hn⟩, hs⟩
      refine ⟨n, ?_, hn⟩
      have := hzero s n hn
      omega
    · rintro ⟨n, hn1, hn⟩
      exact ⟨⟨n, hn⟩, fun hs => by have := (hzero s n hn).1 hs; omega⟩
  · intro s n h
    have hs : s ∈ Dict.keys (d.filter (fun kv => kv.1 ≠ 0)) := by
      by_contra hn; rw [(Dict.get?_eq_none _ _).2 hn] at h; simp at h
    rw [keys_filter] at hs
    have := h3 s n (get_filter d 0 s n h)
    refine ⟨?_, this⟩
    have h4 := hzero s n this
    have := hs.2
    omega

/-- **C18.** Which size it is: that of the numbers taken from the last to the first. -/
theorem C18_counts (numbers : List ℤ) {d : Dict ℤ ℕ} (h : allSums numbers = .ok d) {s : ℤ} {n : ℕ} (hs : d.get? s = some n) :
    Taken numbers s n := by
  refine sums_taken numbers s n ?_
  unfold allSums Dict.erase at h
  cases hg : (numbers.foldl sumsStep [(0, 0)]).get? 0 with
  | none => rw [hg] at h; cases h
  | some v =>
    rw [hg] at h
    cases h
    exact get_filter _ 0 s n hs

example : allSums [1, 1, 2] = .ok [(1, 1), (2, 1), (3, 2), (4, 3)] := by decide +kernel

-- Not the smallest such size: fifteen is twelve and three ones, although three fives are enough.
example : ((allSums [1, 1, 1, 5, 5, 5, 12]).toOption.getD []).get? 15 = some 4 ∧ SubSum [1, 1, 1, 5, 5, 5, 12] 15 3 :=
  ⟨by decide +kernel, [5, 5, 5], by decide, by decide, by decide⟩

/-! ## C19 -/

/-- **C19.** `compute_gcd` returns the greatest common divisor; the filter keeps every positive multiple of it, in
particular every positive source or target. -/
theorem C19_gcd_filter (values : List ℤ) (hne : values ≠ []) (hnn : ∀ v ∈ values, 0 ≤ v) :
    ∃ g, computeGcd values = .ok g ∧ 0 ≤ g ∧ (∀ v ∈ values, g ∣ v) ∧ (∀ d, (∀ v ∈ values, d ∣ v) → d ∣ g) ∧
      (∀ k, 0 < k → g ∣ k → gcdIncompatible g k = false) ∧ (∀ v ∈ values, 0 < v → gcdIncompatible g v = false) := by
  cases values with
  | nil => exact absurd rfl hne
  | cons x xs =>
    have h1 := foldl_gcd_dvd xs x
    have hdiv : ∀ v ∈ x :: xs, xs.foldl (fun a b => (Int.gcd a b : ℤ)) x ∣ v := by
      intro v hv
      rcases List.mem_cons.1 hv with rfl | hv
      · exact h1.1
      · exact h1.2 v hv
    have hmul : ∀ k, 0 < k → xs.foldl (fun a b => (Int.gcd a b : ℤ)) x ∣ k →
        gcdIncompatible (xs.foldl (fun a b => (Int.gcd a b : ℤ)) x) k = false := by
      intro k hk hd
      have := Int.le_of_dvd hk hd
      unfold gcdIncompatible
      simp only [decide_eq_false_iff_not, not_lt]; exact this
    exact ⟨_, rfl, foldl_gcd_nonneg xs x (hnn x (by simp)), hdiv, fun d hd =>
      dvd_foldl_gcd xs x d (hd x (by simp)) (fun y hy => hd y (by simp [hy])), hmul, fun v hv hp => hmul v hp (hdiv v hv)⟩

/-- **C19.** The divisors tried when dividing are exactly those from `2` up to the value. -/
theorem C19_divisors (n : ℤ) (d : ℕ) : d ∈ getDivisors n ↔ 2 ≤ d ∧ (d : ℤ) ≤ n ∧ (d : ℤ) ∣ n := by
  unfold getDivisors
  rw [List.mem_filter, List.mem_range', decide_eq_true_iff]
  constructor
  · rintro ⟨⟨i, hi, rfl⟩, h⟩
    exact ⟨by omega, by omega, Int.dvd_of_emod_eq_zero h⟩
  · rintro ⟨h1, h2, h3⟩
    exact ⟨⟨d - 2, by omega, by omega⟩, Int.emod_eq_zero_of_dvd h3⟩

example : computeGcd [12, 18, 30] = .ok 6 ∧ gcdIncompatible 6 5 = true ∧ gcdIncompatible 6 6 = false ∧
    getDivisors 12 = [2, 3, 4, 6, 12] := by decide +kernel

end Satis
