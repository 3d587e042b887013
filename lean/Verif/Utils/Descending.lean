import Verif.Utils.Ascending

/-!
# `find_linear_combinations` on values that are not strictly ascending
-/

namespace Satis.Utils
open Satis Spec

/-- One round of the loop of `flc`. -/
def flcStep (xs : List ℤ) (idx : ℕ) (a y : ℤ) (s : List (List ℤ) × List ℤ) (c : ℕ) : Py (List (List ℤ) × List ℤ) := do
  let r ← flc xs (idx + 1) (y - c * a) (s.2.set idx c)
  return (s.1 ++ r.1, r.2)

theorem flc_cons (a : ℤ) (xs : List ℤ) (idx : ℕ) (y : ℤ) (cur : List ℤ) (h0 : y ≠ 0) (ha : 0 < a) :
    flc (a :: xs) idx y cur = (List.range (Int.fdiv y a + 1).toNat).foldlM (flcStep xs idx a y) ([], cur) := by
  simp only [flc]
  rw [if_neg h0, if_neg ha.ne']
  rfl

theorem flcSteps_keep (xs : List ℤ) (idx : ℕ) (a y : ℤ) : ∀ (cs : List ℕ) (s r : List (List ℤ) × List ℤ),
    cs.foldlM (flcStep xs idx a y) s = .ok r → ∀ v ∈ s.1, v ∈ r.1 := by
  intro cs
  induction cs with
  | nil =>
    intro s r h v hv
    simp only [List.foldlM_nil, pure, Except.pure, Except.ok.injEq] at h
    rwa [← h]
  | cons c cs ih =>
    intro s r h v hv
    rw [List.foldlM_cons] at h
    unfold flcStep at h
    cases hc : flc xs (idx + 1) (y - c * a) (s.2.set idx c) with
    | error e => rw [hc] at h; simp [bind, Except.bind] at h
    | ok q =>
      rw [hc] at h
      exact ih _ r h v (List.mem_append_left _ hv)

/-- After a search for `y > 0` the first coefficient is the largest that was tried. -/
theorem flc_last (a : ℤ) (xs : List ℤ) (hx : ∀ b ∈ a :: xs, 0 < b) (y : ℤ) (hy : 0 < y) (pre tl : List ℤ)
    (htl : tl.length = (a :: xs).length) (htn : ∀ b ∈ tl, 0 ≤ b) (outs : List (List ℤ)) (tl' : List ℤ)
    (h : flc (a :: xs) pre.length y (pre ++ tl) = .ok (outs, pre ++ tl')) : ∃ t, tl' = (y / a) :: t := by
  have ha : 0 < a := hx a (by simp)
  have hxs : ∀ b ∈ xs, 0 < b := fun b hb => hx b (by simp [hb])
  rw [flc_cons a xs _ _ _ hy.ne' ha] at h
  have hq : 0 ≤ y / a := Int.ediv_nonneg hy.le ha.le
  have hk : (Int.fdiv y a + 1).toNat = (y / a).toNat + 1 := by
    rw [Int.fdiv_eq_ediv_of_nonneg _ ha.le]; omega
  rw [hk] at h
  have steps : ∀ n : ℕ, (n : ℤ) ≤ y / a → ∃ o t, (List.range (n + 1)).foldlM (flcStep xs pre.length a y) ([], pre ++ tl)
      = .ok (o, pre ++ (n : ℤ) :: t) ∧ t.length = xs.length ∧ ∀ b ∈ t, 0 ≤ b := by
    intro n
    induction n with
    | zero =>
      intro _
      cases tl with
      | nil => simp at htl
      | cons b tl =>
        have hset : (pre ++ b :: tl).set pre.length ((0 : ℕ) : ℤ) = (pre ++ [((0 : ℕ) : ℤ)]) ++ tl := by
          rw [List.set_append_right _ _ (le_refl _)]; simp
        obtain ⟨o, t, e1, e2, e3, _⟩ := flc_spec xs hxs (y - (0 : ℕ) * a) (by push_cast; linarith) (pre ++ [((0 : ℕ) : ℤ)]) tl
          (by simpa using htl) (fun z hz => htn z (by simp [hz]))
        refine ⟨[] ++ o, t, ?_, e2, e3⟩
        rw [List.range_one]
        simp only [List.foldlM_cons, List.foldlM_nil, flcStep, bind, Except.bind, hset]
        rw [show pre.length + 1 = (pre ++ [((0 : ℕ) : ℤ)]).length by simp, e1]
        simp [pure, Except.pure]
    | succ n ih =>
      intro hn
      obtain ⟨o, t, e1, e2, e3⟩ := ih (by push_cast at hn; omega)
      have hset : (pre ++ (n : ℤ) :: t).set pre.length ((n + 1 : ℕ) : ℤ) = (pre ++ [((n + 1 : ℕ) : ℤ)]) ++ t := by
        rw [List.set_append_right _ _ (le_refl _)]; simp
      have hle : ((n + 1 : ℕ) : ℤ) * a ≤ y := (Int.le_ediv_iff_mul_le ha).mp hn
      obtain ⟨o', t', f1, f2, f3, _⟩ := flc_spec xs hxs (y - (n + 1 : ℕ) * a) (by linarith) (pre ++ [((n + 1 : ℕ) : ℤ)]) t
        e2 e3
      refine ⟨o ++ o', t', ?_, f2, f3⟩
      rw [List.range_succ, List.foldlM_append, e1]
      simp only [List.foldlM_cons, List.foldlM_nil, flcStep, bind, Except.bind, hset]
      rw [show pre.length + 1 = (pre ++ [((n + 1 : ℕ) : ℤ)]).length by simp, f1]
      simp [pure, Except.pure]
  obtain ⟨o, t, e1, _, _⟩ := steps (y / a).toNat (by omega)
  rw [e1, Except.ok.injEq, Prod.mk.injEq, List.append_cancel_left_eq] at h
  refine ⟨t, ?_⟩
  rw [← h.2]
  congr 1
  omega

/-- If the values are not strictly ascending, there is a sum for which a wrong vector is yielded. -/
theorem flc_unsound (xs : List ℤ) (hx : ∀ a ∈ xs, 0 < a) (hs : ¬ xs.Pairwise (· < ·)) : ∃ y, 0 < y ∧
    ∀ pre tl : List ℤ, tl.length = xs.length → (∀ b ∈ tl, 0 ≤ b) → ∃ outs tl',
      flc xs pre.length y (pre ++ tl) = .ok (outs, tl') ∧ ∃ w, pre ++ w ∈ outs ∧ dot w xs ≠ y := by
  induction xs with
  | nil => exact absurd List.Pairwise.nil hs
  | cons a xs ih =>
    have ha : 0 < a := hx a (by simp)
    have hxs : ∀ b ∈ xs, 0 < b := fun b hb => hx b (by simp [hb])
    by_cases hss : xs.Pairwise (· < ·)
    · -- the first value is not smaller than the second
      cases xs with
      | nil => exact absurd (List.pairwise_singleton _ _) hs
      | cons b xs =>
        have hab : b ≤ a := by
          by_contra hlt
          refine hs (List.pairwise_cons.mpr ⟨?_, hss⟩)
          intro c hc
          rcases List.mem_cons.mp hc with rfl | hc
          · omega
          · have := (List.pairwise_cons.mp hss).1 c hc
            omega
        have hb : 0 < b := hxs b (by simp)
        refine ⟨a, ha, ?_⟩
        intro pre tl htl htn
        have hk : (Int.fdiv a a + 1).toNat = 2 := by
          rw [Int.fdiv_eq_ediv_of_nonneg _ ha.le, Int.ediv_self ha.ne']
          rfl
        cases tl with
        | nil => simp at htl
        | cons z tl =>
          have hset : (pre ++ z :: tl).set pre.length ((0 : ℕ) : ℤ) = (pre ++ [((0 : ℕ) : ℤ)]) ++ tl := by
            rw [List.set_append_right _ _ (le_refl _)]; simp
          obtain ⟨o, t, e1, e2, e3, _⟩ := flc_spec (b :: xs) hxs (a - (0 : ℕ) * a) (by push_cast; linarith)
            (pre ++ [((0 : ℕ) : ℤ)]) tl (by simpa using htl) (fun w hw => htn w (by simp [hw]))
          obtain ⟨t2, ht2⟩ := flc_last b xs hxs (a - (0 : ℕ) * a) (by push_cast; linarith) (pre ++ [((0 : ℕ) : ℤ)]) tl
            (by simpa using htl) (fun w hw => htn w (by simp [hw])) o t e1
          have hset2 : ((pre ++ [((0 : ℕ) : ℤ)]) ++ t).set pre.length ((1 : ℕ) : ℤ) = pre ++ ((1 : ℕ) : ℤ) :: t := by
            rw [List.append_assoc, List.set_append_right _ _ (le_refl _)]; simp
          have hy0 : a - ((1 : ℕ) : ℤ) * a = 0 := by push_cast; ring
          have hlast : flc (b :: xs) (pre.length + 1) (a - ((1 : ℕ) : ℤ) * a) (pre ++ ((1 : ℕ) : ℤ) :: t)
              = .ok ([pre ++ ((1 : ℕ) : ℤ) :: t], pre ++ ((1 : ℕ) : ℤ) :: t) := by
            rw [hy0]
            simp [flc]
          refine ⟨[] ++ o ++ [pre ++ ((1 : ℕ) : ℤ) :: t], pre ++ ((1 : ℕ) : ℤ) :: t, ?_, ((1 : ℕ) : ℤ) :: t, by simp, ?_⟩
          · rw [flc_cons a _ _ _ _ ha.ne' ha, hk, List.range_succ, List.range_one]
            simp only [List.singleton_append, List.foldlM_cons, List.foldlM_nil, flcStep, bind, Except.bind, hset]
            rw [show pre.length + 1 = (pre ++ [((0 : ℕ) : ℤ)]).length by simp, e1]
            simp only [pure, Except.pure, hset2]
            rw [show (pre ++ [((0 : ℕ) : ℤ)]).length = pre.length + 1 by simp, hlast]
          · rw [dot_cons, ht2, dot_cons]
            have hq : 1 ≤ (a - ((0 : ℕ) : ℤ) * a) / b := by
              rw [show a - ((0 : ℕ) : ℤ) * a = a by push_cast; ring]
              exact (Int.le_ediv_iff_mul_le hb).mpr (by linarith)
            have h1 := dot_nonneg t2 xs (fun w hw => e3 w (by rw [ht2]; simp [hw])) (fun w hw => hxs w (by simp [hw]))
            have h2 := mul_le_mul_of_nonneg_right hq hb.le
            push_cast at *
            intro h
            linarith
    · obtain ⟨y, hy, h⟩ := ih hxs hss
      refine ⟨y, hy, ?_⟩
      intro pre tl htl htn
      cases tl with
      | nil => simp at htl
      | cons z tl =>
        have hset : (pre ++ z :: tl).set pre.length ((0 : ℕ) : ℤ) = (pre ++ [((0 : ℕ) : ℤ)]) ++ tl := by
          rw [List.set_append_right _ _ (le_refl _)]; simp
        obtain ⟨o, t, e1, w, hw, hne⟩ := h (pre ++ [((0 : ℕ) : ℤ)]) tl (by simpa using htl) (fun v hv => htn v (by simp [hv]))
        obtain ⟨outs, tl', f1, _⟩ := flc_spec (a :: xs) hx y hy.le pre (z :: tl) htl htn
        refine ⟨outs, pre ++ tl', f1, 0 :: w, ?_, ?_⟩
        · rw [flc_cons a xs _ _ _ hy.ne' ha] at f1
          have hq : 0 ≤ y / a := Int.ediv_nonneg hy.le ha.le
          have hk : (Int.fdiv y a + 1).toNat = (y / a).toNat + 1 := by
            rw [Int.fdiv_eq_ediv_of_nonneg _ ha.le]; omega
          rw [hk, List.range_succ_eq_map, List.foldlM_cons] at f1
          have hfirst : flcStep xs pre.length a y ([], pre ++ z :: tl) 0 = .ok ([] ++ o, t) := by
            simp only [flcStep, bind, Except.bind, hset]
            rw [show pre.length + 1 = (pre ++ [((0 : ℕ) : ℤ)]).length by simp,
              show y - ((0 : ℕ) : ℤ) * a = y by push_cast; ring, e1]
            rfl
          rw [hfirst] at f1
          refine flcSteps_keep xs pre.length a y _ _ _ f1 _ ?_
          simpa using hw
        · rw [dot_cons]
          simpa using hne

end Satis.Utils
