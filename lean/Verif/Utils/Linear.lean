import Verif.Utils.Model
import Verif.Utils.Spec
import Mathlib.Tactic.Linarith
import Mathlib.Tactic.Ring
/-!
# Lemmas about `find_linear_combinations`
-/

namespace Satis.Utils
open Satis Spec

/-- What `flc` yields below a fixed prefix `pre` of coefficients. -/
structure FlcOut (xs : List ℤ) (y : ℤ) (pre : List ℤ) (outs : List (List ℤ)) : Prop where
  sound : ∀ v ∈ outs, ∃ w, v = pre ++ w ∧ w.length = xs.length ∧ (∀ a ∈ w, 0 ≤ a) ∧
    ∃ k, k ≤ xs.length ∧ dot (w.take k) (xs.take k) = y
  complete : ∀ c, Combination xs y c → ∃ v ∈ outs, ∃ k t, v = pre ++ c.take k ++ t ∧ ∀ a ∈ c.drop k, a = 0

theorem dot_cons (c x : ℤ) (cs xs : List ℤ) : dot (c :: cs) (x :: xs) = c * x + dot cs xs := by simp [dot]

theorem dot_nonneg (c x : List ℤ) (hc : ∀ a ∈ c, 0 ≤ a) (hx : ∀ a ∈ x, 0 < a) : 0 ≤ dot c x := by
  induction c generalizing x with
  | nil => simp [dot]
  | cons a c ih =>
    cases x with
    | nil => simp [dot]
    | cons b x =>
      rw [dot_cons]
      have h1 := ih x (fun a ha => hc a (by simp [ha])) (fun a ha => hx a (by simp [ha]))
      have h2 : 0 ≤ a := hc a (by simp)
      have h3 : 0 < b := hx b (by simp)
      have := mul_nonneg h2 h3.le
      omega

theorem dot_zero (c x : List ℤ) (hl : c.length = x.length) (hc : ∀ a ∈ c, 0 ≤ a) (hx : ∀ a ∈ x, 0 < a) (h : dot c x = 0) :
    ∀ a ∈ c, a = 0 := by
  induction c generalizing x with
  | nil => simp
  | cons a c ih =>
    cases x with
    | nil => simp at hl
    | cons b x =>
      rw [dot_cons] at h
      have h1 := dot_nonneg c x (fun a ha => hc a (by simp [ha])) (fun a ha => hx a (by simp [ha]))
      have h2 : 0 ≤ a := hc a (by simp)
      have h3 : 0 < b := hx b (by simp)
      have h4 := mul_nonneg h2 h3.le
      have h5 : a * b = 0 := by omega
      have h6 : a = 0 := by
        rcases mul_eq_zero.1 h5 with h | h
        · exact h
        · omega
      intro z hz
      rcases List.mem_cons.1 hz with rfl | hz
      · exact h6
      · exact ih x (by simpa using hl) (fun a ha => hc a (by simp [ha])) (fun a ha => hx a (by simp [ha])) (by omega) z hz

/-- `flc` never raises for positive values; it keeps the prefix and the shape of `current_solution`. -/
theorem flc_spec (xs : List ℤ) (hx : ∀ a ∈ xs, 0 < a) (y : ℤ) (hy : 0 ≤ y) (pre tl : List ℤ) (htl : tl.length = xs.length)
    (htn : ∀ a ∈ tl, 0 ≤ a) :
    ∃ outs tl', flc xs pre.length y (pre ++ tl) = .ok (outs, pre ++ tl') ∧ tl'.length = xs.length ∧ (∀ a ∈ tl', 0 ≤ a) ∧
      FlcOut xs y pre outs := by
  induction xs generalizing y pre tl with
  | nil =>
    have htl0 : tl = [] := List.length_eq_zero_iff.1 htl
    subst htl0
    by_cases h0 : y = 0
    · refine ⟨[pre], [], by simp [flc, h0], rfl, by simp, ?_, ?_⟩
      · intro v hv
        refine ⟨[], by simpa using hv, rfl, by simp, 0, le_refl _, ?_⟩
        simp [dot, h0]
      · intro c hc
        have hc0 : c = [] := List.length_eq_zero_iff.1 hc.length
        exact ⟨pre, by simp, 0, [], by simp, by simp [hc0]⟩
    · refine ⟨[], [], by simp [flc, h0], rfl, by simp, by simp, ?_⟩
      rintro ⟨v, hv⟩
      · intro h; exact absurd h.total.symm (by simpa [dot] using h0)
      · intro h; simpa using h.length
  | cons a xs ih =>
    have ha : 0 < a := hx a (by simp)
    have hxs : ∀ b ∈ xs, 0 < b := fun b hb => hx b (by simp [hb])
    by_cases h0 : y = 0
    · refine ⟨[pre ++ tl], tl, by simp [flc, h0], htl, htn, ?_, ?_⟩
      · intro v hv
        refine ⟨tl, by simpa using hv, htl, htn, 0, by simp, by simp [dot, h0]⟩
      · intro c hc
        refine ⟨pre ++ tl, by simp, 0, tl, by simp, ?_⟩
        exact dot_zero c (a :: xs) hc.length hc.nonneg hx (by rw [hc.total, h0])
    · -- the loop
      have loop : ∀ n : ℕ, (n : ℤ) * a ≤ y + a → ∀ tl : List ℤ, tl.length = (a :: xs).length → (∀ b ∈ tl, 0 ≤ b) →
          ∃ outs tl', (List.range n).foldlM (fun (s : List (List ℤ) × List ℤ) (c : ℕ) => (do
            let r ← flc xs (pre.length + 1) (y - c * a) (s.2.set pre.length c)
            return (s.1 ++ r.1, r.2) : Py _)) (([] : List (List ℤ)), pre ++ tl) = .ok (outs, pre ++ tl') ∧
            tl'.length = (a :: xs).length ∧ (∀ b ∈ tl', 0 ≤ b) ∧
            (∀ v ∈ outs, ∃ w, v = pre ++ w ∧ w.length = (a :: xs).length ∧ (∀ b ∈ w, 0 ≤ b) ∧
              ∃ k, k ≤ (a :: xs).length ∧ dot (w.take k) ((a :: xs).take k) = y) ∧
            ∀ (i : ℕ) (c : List ℤ), i < n → Combination xs (y - i * a) c →
              ∃ v ∈ outs, ∃ k t, v = pre ++ ((i : ℤ) :: c).take k ++ t ∧ ∀ b ∈ ((i : ℤ) :: c).drop k, b = 0 := by
        intro n
        induction n with
        | zero => intro _ tl h1 h2; exact ⟨[], tl, rfl, h1, h2, by simp, by intro i c hi; omega⟩
        | succ n ihn =>
          intro hn tl h1 h2
          have hn' : (n : ℤ) * a ≤ y := by push_cast at hn; linarith
          obtain ⟨outs, tl1, e1, e2, e3, e4, e5⟩ := ihn (by linarith) tl h1 h2
          cases tl1 with
          | nil => simp at e2
          | cons b tl1 =>
            have hset : (pre ++ b :: tl1).set pre.length (n : ℤ) = (pre ++ [(n : ℤ)]) ++ tl1 := by
              rw [List.set_append_right _ _ (le_refl _)]; simp
            obtain ⟨o, tl2, f1, f2, f3, f4⟩ := ih hxs (y - n * a) (by linarith) (pre ++ [(n : ℤ)]) tl1 (by simpa using e2)
              (fun z hz => e3 z (by simp [hz]))
            refine ⟨outs ++ o, (n : ℤ) :: tl2, ?_, by simp [f2], ?_, ?_, ?_⟩
            · rw [List.range_succ, List.foldlM_append, e1]
              simp only [List.foldlM_cons, List.foldlM_nil, bind, Except.bind, hset]
              rw [show pre.length + 1 = (pre ++ [(n : ℤ)]).length by simp, f1]
              simp [pure, Except.pure]
            · intro z hz
              rcases List.mem_cons.1 hz with rfl | hz
              · positivity
              · exact f3 z hz
            · intro v hv
              rcases List.mem_append.1 hv with hv | hv
              · exact e4 v hv
              · obtain ⟨w, rfl, w2, w3, k, k1, k2⟩ := f4.sound v hv
                refine ⟨(n : ℤ) :: w, by simp, by simp [w2], ?_, k + 1, by simpa using k1, ?_⟩
                · intro z hz
                  rcases List.mem_cons.1 hz with rfl | hz
                  · positivity
                  · exact w3 z hz
                · simp only [List.take_succ_cons]; rw [dot_cons, k2]; ring
            · intro i c hi hc
              by_cases hin : i < n
              · obtain ⟨v, hv, r⟩ := e5 i c hin hc
                exact ⟨v, by simp [hv], r⟩
              · have : i = n := by omega
                subst this
                obtain ⟨v, hv, k, t, r1, r2⟩ := f4.complete c hc
                exact ⟨v, by simp [hv], k + 1, t, by simp [r1], by simpa using r2⟩
      have hmax : ∀ i : ℕ, (i : ℤ) * a ≤ y ↔ i < (Int.fdiv y a + 1).toNat := by
        intro i
        rw [Int.fdiv_eq_ediv_of_nonneg _ ha.le]
        have : (i : ℤ) * a ≤ y ↔ (i : ℤ) ≤ y / a := (Int.le_ediv_iff_mul_le ha).symm
        rw [this]; omega
      have hbound : (((Int.fdiv y a + 1).toNat : ℕ) : ℤ) * a ≤ y + a := by
        rw [Int.fdiv_eq_ediv_of_nonneg _ ha.le]
        have h1 : 0 ≤ y / a := Int.ediv_nonneg hy ha.le
        have h2 : y / a * a ≤ y := Int.ediv_mul_le y ha.ne'
        rw [Int.toNat_of_nonneg (by omega)]; linarith
      obtain ⟨outs, tl', e1, e2, e3, e4, e5⟩ := loop _ hbound tl htl htn
      refine ⟨outs, tl', ?_, e2, e3, e4, ?_⟩
      · simp only [flc]; rw [if_neg h0, if_neg ha.ne']; exact e1
      · intro c hc
        cases c with
        | nil => have := hc.length; simp at this
        | cons i c =>
          have hi : 0 ≤ i := hc.nonneg i (by simp)
          obtain ⟨j, rfl⟩ := Int.eq_ofNat_of_zero_le hi
          have htot := hc.total
          rw [dot_cons] at htot
          have hcn : ∀ b ∈ c, 0 ≤ b := fun b hb => hc.nonneg b (by simp [hb])
          have := dot_nonneg c xs hcn hxs
          exact e5 j c ((hmax j).1 (by linarith)) ⟨by simpa using hc.length, hcn, by linarith⟩

end Satis.Utils
