import Verif.Solver.ScoreFacts
import Verif.Solver.ScoreSpec
/-!
# Scores, exactly
-/

namespace Satis.Solver.Score
open Satis Satis.Utils Satis.Cost Satis.Utils.Spec Satis.Solver.Spec

theorem hit_made (targets : List Int) (x : Int) : hit targets x = made targets x := rfl

/-- The best of the offers `n`. -/
theorem foldlM_greatest {α : Type} (n : α → Option ℚ) (f : ℚ → α → Py ℚ) (l : List α)
    (hf : ∀ a ∈ l, ∀ s, f s a = .ok (match n a with | none => s | some q => better s q)) (s : ℚ) :
    ∃ x, l.foldlM f s = .ok x ∧ s ≤ x ∧ (x = s ∨ ∃ a ∈ l, n a = some x) ∧ ∀ a ∈ l, ∀ q, n a = some q → q ≤ x := by
  induction l generalizing s with
  | nil => exact ⟨s, rfl, le_rfl, .inl rfl, by simp⟩
  | cons a l ih =>
    rw [List.foldlM_cons, hf a (by simp)]
    cases e : n a with
    | none =>
      obtain ⟨x, h1, h2, h3, h4⟩ := ih (fun b hb => hf b (by simp [hb])) s
      refine ⟨x, h1, h2, h3.imp_right fun ⟨b, hb, w⟩ => ⟨b, by simp [hb], w⟩, fun b hb q hq => ?_⟩
      rcases List.mem_cons.1 hb with rfl | hb
      · rw [e] at hq; cases hq
      · exact h4 b hb q hq
    | some q =>
      obtain ⟨x, h1, h2, h3, h4⟩ := ih (fun b hb => hf b (by simp [hb])) (better s q)
      have hb : s ≤ better s q ∧ q ≤ better s q ∧ (better s q = s ∨ better s q = q) := by
        unfold better
        split
        · next w => exact ⟨w.le, le_rfl, .inr rfl⟩
        · next w => exact ⟨le_rfl, not_lt.1 w, .inl rfl⟩
      refine ⟨x, h1, hb.1.trans h2, ?_, fun b hb' q' hq => ?_⟩
      · rcases h3 with w | ⟨b, hb', w⟩
        · rcases hb.2.2 with w' | w'
          · exact .inl (w.trans w')
          · exact .inr ⟨a, by simp, by rw [e, w, w']⟩
        · exact .inr ⟨b, by simp [hb'], w⟩
      · rcases List.mem_cons.1 hb' with rfl | hb'
        · rw [e] at hq
          cases hq
          exact hb.2.1.trans h2
        · exact h4 b hb' q' hq

variable {cfg : Config} {targets : List Int} {src : Int}

theorem scoreExtract_exact (cfg : Config) (targets : List Int) (src : Int) :
    ∃ x, scoreExtract cfg targets src = .ok x ∧ 0 ≤ x ∧ Offer cfg targets src x ∧
      ∀ c r : Int, 0 < c → 2 * c < src → extractCost cfg src c = .ok r → (made targets c + made targets (src - c)) / r ≤ x := by
  let n : Nat → Option ℚ := fun k => match extractCost cfg src ((k : Int) + 1) with
    | .ok r => some ((made targets ((k : Int) + 1) + made targets (src - ((k : Int) + 1))) / r)
    | .error _ => none
  have hn : ∀ k ∈ List.range ((src - 1) / 2).toNat, ∃ r, extractCost cfg src ((k : Int) + 1) = .ok r ∧ 1 ≤ r := fun k hk => by
    have := List.mem_range.1 hk
    exact C07_extract_cost_pos cfg src _ (by omega) (by omega) (by omega)
  obtain ⟨x, h1, h2, h3, h4⟩ := foldlM_greatest n (fun (score : ℚ) (k : Nat) => do
    let c : Int := (k : Int) + 1
    let overflow := src - c
    if c = overflow then return score
    let cost ← extractCost cfg src c
    let new ← pyDiv (hit targets c + hit targets overflow) cost
    return better score new) (List.range ((src - 1) / 2).toNat) (fun k hk s => by
      obtain ⟨r, e1, e2⟩ := hn k hk
      have := List.mem_range.1 hk
      simp only [n, e1]
      rw [if_neg (by omega)]
      show (pyDiv _ r >>= _) = _
      rw [pyDiv_pos _ e2]
      rfl) 0
  refine ⟨x, h1, h2, ?_, fun c r hc hc2 hr => ?_⟩
  · rcases h3 with rfl | ⟨k, hk, w⟩
    · exact .nothing
    · obtain ⟨r, e1, e2⟩ := hn k hk
      have := List.mem_range.1 hk
      simp only [n, e1, Option.some.injEq] at w
      rw [← w]
      exact .extract _ r (by omega) (by omega) e1
  · refine h4 (c - 1).toNat (List.mem_range.2 (by omega)) _ ?_
    have : (((c - 1).toNat : Int) + 1) = c := by omega
    simp only [n, this, hr]

theorem scoreDivide_exact (cfg : Config) (targets : List Int) (hs : 0 < src) :
    ∃ x, scoreDivide cfg targets src = .ok x ∧ 0 ≤ x ∧ Offer cfg targets src x ∧
      ∀ (d : Nat) (r : Int), 2 ≤ d → (d : Int) ∣ src → divideCost cfg src d = .ok r → (targets.count (src / d) : ℚ) / r ≤ x := by
  let n : Nat → Option ℚ := fun d => match divideCost cfg src d with
    | .ok r => some ((targets.count (src / (d : Int)) : ℚ) / r)
    | .error _ => none
  have hn : ∀ d ∈ getDivisors src, 2 ≤ d ∧ (d : Int) ∣ src ∧ ∃ r, divideCost cfg src d = .ok r ∧ 1 ≤ r := fun d hd => by
    rw [C19_divisors] at hd
    obtain ⟨h2, h3, h4⟩ := hd
    exact ⟨h2, h4, C07_divide_cost_pos cfg src d (by omega) h2 h4⟩
  obtain ⟨x, h1, h2, h3, h4⟩ := foldlM_greatest n (fun (score : ℚ) (d : Nat) => do
    let cost ← divideCost cfg src d
    let new ← pyDiv (targets.count (src / (d : Int)) : ℚ) cost
    return better score new) (getDivisors src) (fun d hd s => by
      obtain ⟨-, -, r, e1, e2⟩ := hn d hd
      simp only [n, e1]
      show (pyDiv _ r >>= _) = _
      rw [pyDiv_pos _ e2]
      rfl) 0
  refine ⟨x, h1, h2, ?_, fun d r hd hd2 hr => ?_⟩
  · rcases h3 with rfl | ⟨d, hd, w⟩
    · exact .nothing
    · obtain ⟨q1, q2, r, e1, e2⟩ := hn d hd
      simp only [n, e1, Option.some.injEq] at w
      rw [← w]
      exact .divide d r q1 q2 e1
  · refine h4 d ((C19_divisors _ _).2 ⟨hd, Int.le_of_dvd hs hd2, hd2⟩) _ ?_
    simp only [n, hr]

theorem scoreSplit_exact (hcfg : cfg.speeds.Pairwise (· ≤ ·)) (targets : List Int) (hs : 0 < src) :
    ∃ x, scoreSplit cfg targets src = .ok x ∧ 0 ≤ x ∧ Offer cfg targets src x ∧
      ∀ c : Nat, c ∈ cfg.speeds → src < c → (∀ s ∈ cfg.speeds, src < (s : Int) → c ≤ s) → 2 * ((c : Int) / 3) < src →
        src - 2 * ((c : Int) / 3) ≠ (c : Int) / 3 → ((targets.count ((c : Int) / 3) : ℚ) + made targets (src - 2 * ((c : Int) / 3))) / 3 ≤ x := by
  have hnone : ∀ y : Py ℚ, y = .ok 0 → (∀ c : Nat, c ∈ cfg.speeds → src < c → (∀ s ∈ cfg.speeds, src < (s : Int) → c ≤ s) →
      2 * ((c : Int) / 3) < src → src - 2 * ((c : Int) / 3) ≠ (c : Int) / 3 → False) →
      ∃ x, y = .ok x ∧ 0 ≤ x ∧ Offer cfg targets src x ∧
      ∀ c : Nat, c ∈ cfg.speeds → src < c → (∀ s ∈ cfg.speeds, src < (s : Int) → c ≤ s) → 2 * ((c : Int) / 3) < src →
        src - 2 * ((c : Int) / 3) ≠ (c : Int) / 3 → ((targets.count ((c : Int) / 3) : ℚ) + made targets (src - 2 * ((c : Int) / 3))) / 3 ≤ x := by
    intro y hy H
    exact ⟨0, hy, le_rfl, .nothing, fun c h1 h2 h3 h4 h5 => absurd (H c h1 h2 h3 h4 h5) id⟩
  unfold scoreSplit
  cases hf : cfg.speeds.find? (fun (c : Nat) => decide ((c : Int) > src)) with
  | none =>
    refine hnone _ rfl fun c h1 h2 _ _ _ => ?_
    have := List.find?_eq_none.1 hf c h1
    simp at this
    omega
  | some c =>
    obtain ⟨hc, as, bs, e, hlt⟩ := List.find?_eq_some_iff_append.1 hf
    have hc : src < (c : Int) := by simpa using hc
    have hmin : ∀ s ∈ cfg.speeds, src < (s : Int) → c ≤ s := by
      intro s hs' hlt'
      rw [e] at hs' hcfg
      rcases List.mem_append.1 hs' with w | w
      · have := hlt s w
        simp at this
        omega
      · rcases List.mem_cons.1 w with rfl | w
        · exact le_rfl
        · exact (List.pairwise_cons.1 (List.pairwise_append.1 hcfg).2.1).1 s w
    have hmem : c ∈ cfg.speeds := by rw [e]; simp
    have huniq : ∀ c' : Nat, c' ∈ cfg.speeds → src < c' → (∀ s ∈ cfg.speeds, src < (s : Int) → c' ≤ s) → c' = c := fun c' h1 h2 h3 =>
      le_antisymm (h3 c hmem hc) (hmin c' h1 h2)
    simp only
    rw [if_neg (by omega)]
    split
    · refine hnone _ rfl fun c' h1 h2 h3 h4 h5 => ?_
      rw [huniq c' h1 h2 h3] at h4
      omega
    · next q1 =>
      split
      · refine hnone _ rfl fun c' h1 h2 h3 h4 h5 => ?_
        rw [huniq c' h1 h2 h3] at h5
        omega
      · next q2 =>
        have h3 : (1 : Int) ≤ splitCost := by decide
        have h7 : ((splitCost : Int) : ℚ) = 3 := by norm_num [splitCost]
        have hcomm : (c : Int) / 3 * 2 = 2 * ((c : Int) / 3) := by ring
        rw [pyDiv_pos _ h3, h7, hcomm, hit_made]
        refine ⟨_, rfl, ?_, .split c hmem hc hmin (by omega) (by omega), fun c' h1 h2 h3 h4 h5 => ?_⟩
        · have := hit_nonneg targets (src - 2 * ((c : Int) / 3))
          rw [hit_made] at this
          positivity
        · rw [huniq c' h1 h2 h3]

theorem individual_exact (hcfg : cfg.speeds.Pairwise (· ≤ ·)) (targets : List Int) (hs : 0 < src) :
    ∃ w, individual cfg targets src = .ok w ∧ Worth cfg targets src w := by
  unfold individual Worth
  split
  · exact ⟨1, rfl, rfl⟩
  · obtain ⟨x, x1, x2, x3, x4⟩ := scoreExtract_exact cfg targets src
    obtain ⟨y, y1, y2, y3, y4⟩ := scoreDivide_exact cfg targets hs
    obtain ⟨z, z1, z2, z3, z4⟩ := scoreSplit_exact hcfg targets hs
    rw [x1, y1, z1]
    refine ⟨max x (max y z), rfl, ?_, ?_⟩
    · rcases max_choice x (max y z) with w | w
      · rw [w]; exact x3
      · rw [w]
        rcases max_choice y z with w | w
        · rw [w]; exact y3
        · rw [w]; exact z3
    · intro q hq
      cases hq with
      | nothing => exact le_max_of_le_left x2
      | extract c r h1 h2 h3 => exact le_max_of_le_left (x4 c r h1 h2 h3)
      | divide d r h1 h2 h3 => exact le_max_of_le_right (le_max_of_le_left (y4 d r h1 h2 h3))
      | split c h1 h2 h3 h4 h5 => exact le_max_of_le_right (le_max_of_le_right (z4 c h1 h2 h3 h4 h5))

end Satis.Solver.Score
