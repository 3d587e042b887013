import Verif.Solver.Score
import Verif.Props.Cost
import Verif.Props.Utils
import Mathlib.Data.List.Sublists
import Mathlib.Algebra.Order.BigOperators.Group.List
import Mathlib.Tactic.Positivity
import Mathlib.Tactic.FieldSimp
/-!
# Bounds on scores
-/

namespace Satis.Solver.Score
open Satis Satis.Utils Satis.Cost Satis.Utils.Spec

theorem foldlM_better {α : Type} (b : ℚ) (f : ℚ → α → Py ℚ) (l : List α)
    (hf : ∀ a ∈ l, ∀ s, f s a = .ok s ∨ ∃ n, 0 ≤ n ∧ n ≤ b ∧ f s a = .ok (better s n)) :
    ∀ s, 0 ≤ s → s ≤ b → ∃ x, l.foldlM f s = .ok x ∧ 0 ≤ x ∧ x ≤ b := by
  induction l with
  | nil => intro s h1 h2; exact ⟨s, rfl, h1, h2⟩
  | cons a l ih =>
    intro s h1 h2
    rw [List.foldlM_cons]
    rcases hf a (by simp) s with e | ⟨n, n1, n2, e⟩
    · rw [e]; exact ih (fun a ha => hf a (by simp [ha])) s h1 h2
    · rw [e]
      refine ih (fun a ha => hf a (by simp [ha])) _ ?_ ?_
      · unfold better; split <;> assumption
      · unfold better; split <;> assumption

theorem hit_nonneg (targets : List Int) (x : Int) : 0 ≤ hit targets x := by unfold hit; split <;> norm_num

theorem hit_le (targets : List Int) (x : Int) : hit targets x ≤ 1 := by unfold hit; split <;> norm_num

theorem div_bounds {a e : ℚ} {c : Int} (h0 : 0 ≤ a) (h1 : a ≤ e) (hc : 1 ≤ c) : 0 ≤ a / (c : ℚ) ∧ a / (c : ℚ) ≤ e := by
  have hc' : (1 : ℚ) ≤ (c : ℚ) := by exact_mod_cast hc
  constructor
  · positivity
  · exact le_trans (div_le_self h0 hc') h1

theorem pyDiv_pos (a : ℚ) {b : Int} (hb : 1 ≤ b) : pyDiv a b = .ok (a / (b : ℚ)) := by
  unfold pyDiv; rw [if_neg (by omega)]

section
variable {targets : List Int} {src : Int} {e e' : ℚ}

theorem scoreExtract_ok (cfg : Config) (h0 : 0 ≤ e) (he : ∀ v, v ≤ src → hit targets v ≤ e) :
    ∃ x, scoreExtract cfg targets src = .ok x ∧ 0 ≤ x ∧ x ≤ 2 * e := by
  unfold scoreExtract
  apply foldlM_better _ _ _ _ 0 le_rfl (by positivity)
  intro k hk s
  have hk' := List.mem_range.1 hk
  simp only
  by_cases hc : (k : Int) + 1 = src - ((k : Int) + 1)
  · left; rw [if_pos hc]; rfl
  · right
    obtain ⟨r, e1, e2⟩ := C07_extract_cost_pos cfg src ((k : Int) + 1) (by omega) (by omega) (by omega)
    obtain ⟨b1, b2⟩ := div_bounds (e := 2 * e) (c := r) (a := hit targets ((k : Int) + 1) + hit targets (src - ((k : Int) + 1)))
      (add_nonneg (hit_nonneg _ _) (hit_nonneg _ _))
      (by have := he ((k : Int) + 1) (by omega); have := he (src - ((k : Int) + 1)) (by omega); linarith) e2
    refine ⟨_, b1, b2, ?_⟩
    rw [if_neg hc, e1]
    show (pyDiv _ r >>= _) = _
    rw [pyDiv_pos _ e2]; rfl

theorem scoreDivide_ok (cfg : Config) (hs : 0 < src) (h0 : 0 ≤ e') (he : ∀ v, v ≤ src → (targets.count v : ℚ) ≤ e') :
    ∃ x, scoreDivide cfg targets src = .ok x ∧ 0 ≤ x ∧ x ≤ e' := by
  unfold scoreDivide
  apply foldlM_better _ _ _ _ 0 le_rfl h0
  intro d hd s
  right
  rw [C19_divisors] at hd
  obtain ⟨h2, h3, h4⟩ := hd
  obtain ⟨r, e1, e2⟩ := C07_divide_cost_pos cfg src d (by omega) h2 h4
  obtain ⟨b1, b2⟩ := div_bounds (e := e') (c := r) (a := (targets.count (src / (d : Int)) : ℚ)) (by positivity)
    (he _ (Int.ediv_le_self _ (by omega))) e2
  refine ⟨_, b1, b2, ?_⟩
  rw [e1]
  show (pyDiv _ r >>= _) = _
  rw [pyDiv_pos _ e2]; rfl

theorem scoreSplit_ok (cfg : Config) (hs : 0 < src) (h0 : 0 ≤ e) (h0' : 0 ≤ e') (he : ∀ v, v ≤ src → hit targets v ≤ e)
    (he' : ∀ v, v ≤ src → (targets.count v : ℚ) ≤ e') :
    ∃ x, scoreSplit cfg targets src = .ok x ∧ 0 ≤ x ∧ x ≤ (e' + e) / 3 := by
  have hz : ∃ x, (Except.ok 0 : Py ℚ) = .ok x ∧ 0 ≤ x ∧ x ≤ (e' + e) / 3 := ⟨0, rfl, le_rfl, by positivity⟩
  unfold scoreSplit
  split
  · exact hz
  · rename_i c hc
    split
    · exact hz
    · simp only
      split
      · exact hz
      · rename_i h1
        split
        · exact hz
        · have h3 : (1 : Int) ≤ splitCost := by decide
          rw [pyDiv_pos _ h3]
          have h4 := he' ((c : Int) / 3) (by omega)
          have h5 := he (src - (c : Int) / 3 * 2) (by omega)
          have h6 := hit_nonneg targets (src - (c : Int) / 3 * 2)
          have h7 : ((splitCost : Int) : ℚ) = 3 := by norm_num [splitCost]
          refine ⟨_, rfl, ?_, ?_⟩
          · rw [h7]; positivity
          · rw [h7]; linarith

theorem individual_ok (cfg : Config) (hs : 0 < src) (h0 : 0 ≤ e) (h0' : 0 ≤ e') (he : ∀ v, v ≤ src → hit targets v ≤ e)
    (he' : ∀ v, v ≤ src → (targets.count v : ℚ) ≤ e') {b : ℚ} (h1 : 2 * e ≤ b) (h2 : e' ≤ b) :
    ∃ x, individual cfg targets src = .ok x ∧ 0 ≤ x ∧ x ≤ b := by
  unfold individual
  split
  · rename_i hin
    have := he src le_rfl
    unfold hit at this
    rw [if_pos hin] at this
    exact ⟨1, rfl, by norm_num, by linarith⟩
  · obtain ⟨x, x1, x2, x3⟩ := scoreExtract_ok cfg h0 he
    obtain ⟨y, y1, y2, y3⟩ := scoreDivide_ok cfg hs h0' he'
    obtain ⟨z, z1, z2, z3⟩ := scoreSplit_ok cfg hs h0 h0' he he'
    rw [x1, y1, z1]
    refine ⟨max x (max y z), rfl, le_max_of_le_left x2, ?_⟩
    refine max_le (by linarith) (max_le (by linarith) (by linarith))

theorem individual_target (cfg : Config) (h : src ∈ targets) : individual cfg targets src = .ok 1 := by
  unfold individual; rw [if_pos h]

theorem term_ok (cfg : Config) (n : Nat) {x b : ℚ} (hx : individual cfg targets src = .ok x) (h1 : 0 ≤ x) (h2 : x ≤ b) :
    ∃ y, term cfg targets src n = .ok y ∧ 0 ≤ y ∧ y ≤ b := by
  unfold term
  rw [hx]
  have hm : (1 : Int) ≤ if mergeCost (n : Int) 1 = 0 then 1 else (mergeCost (n : Int) 1 : Int) := by
    split
    · exact le_rfl
    · rename_i h; omega
  exact ⟨_, pyDiv_pos _ hm, (div_bounds h1 h2 hm).1, (div_bounds h1 h2 hm).2⟩

end

theorem foldlM_sum {α : Type} (f : α → Py ℚ) (τ : α → ℚ) (l : List α) (hf : ∀ a ∈ l, f a = .ok (τ a)) (s : ℚ) :
    l.foldlM (fun (acc : ℚ) (a : α) => do
      let x ← f a
      return acc + x) s = (Except.ok (s + (l.map τ).sum) : Py ℚ) := by
  induction l generalizing s with
  | nil => simp; rfl
  | cons a l ih =>
    rw [List.foldlM_cons, hf a (by simp)]
    show List.foldlM _ (s + τ a) l = _
    rw [ih (fun a ha => hf a (by simp [ha]))]
    simp [add_assoc]

theorem keys_length {numbers : List Int} (hpos : ∀ a ∈ numbers, 0 < a) {d : Dict Int Nat} (hn : d.keys.Nodup)
    (hk : ∀ s, s ∈ d.keys ↔ ∃ n, 1 ≤ n ∧ SubSum numbers s n) : d.length ≤ 2 ^ numbers.length - 1 := by
  have h0 : (0 : Int) ∉ d.keys := by
    rw [hk]
    rintro ⟨n, h1, sub, h2, h3, rfl⟩
    cases sub with
    | nil => simp at h1
    | cons a sub =>
      have hp : ∀ b ∈ a :: sub, 0 < b := fun b hb => hpos b (h2.subset hb)
      have hsum : 0 ≤ sub.sum := List.sum_nonneg (fun b hb => (hp b (by simp [hb])).le)
      have := hp a (by simp)
      simp at h3; omega
  have hnd : (0 :: d.keys).Nodup := List.nodup_cons.2 ⟨h0, hn⟩
  have hsub : (0 :: d.keys) ⊆ numbers.sublists.map List.sum := by
    intro x hx
    rw [List.mem_map]
    rcases List.mem_cons.1 hx with rfl | hx
    · exact ⟨[], by simp, rfl⟩
    · obtain ⟨n, _, sub, h2, h3, _⟩ := (hk x).1 hx
      exact ⟨sub, by simpa using h2, h3⟩
  have := (hnd.subperm hsub).length_le
  simp only [List.length_cons, List.length_map, List.length_sublists] at this
  have e : d.keys.length = d.length := by unfold Dict.keys; simp
  omega

end Satis.Solver.Score
