import Verif.Utils.Linear

/-!
# `find_linear_combinations` on strictly ascending values
-/

namespace Satis.Utils
open Satis Spec

/-- For strictly ascending positive values the stale coefficients are all zero when a vector is yielded. -/
theorem flc_ascending (xs : List ℤ) (hx : ∀ a ∈ xs, 0 < a) (hs : xs.Pairwise (· < ·)) (y : ℤ) (hy : 0 ≤ y)
    (pre tl : List ℤ) (htl : tl.length = xs.length) (hz : y = 0 → ∀ a ∈ tl, a = 0) :
    ∃ outs tl', flc xs pre.length y (pre ++ tl) = .ok (outs, pre ++ tl') ∧ tl'.length = xs.length ∧ outs.Nodup ∧
      (∀ v, v ∈ outs ↔ ∃ c, v = pre ++ c ∧ Combination xs y c) ∧
      ((∀ b ∈ xs, y < b) → ∀ z ∈ tl', z = 0) := by
  induction xs generalizing y pre tl with
  | nil =>
    have htl0 : tl = [] := List.length_eq_zero_iff.1 htl
    subst htl0
    by_cases h0 : y = 0
    · refine ⟨[pre], [], by simp [flc, h0], rfl, by simp, ?_, by simp⟩
      intro v
      rw [List.mem_singleton]
      constructor
      · rintro rfl
        exact ⟨[], by simp, rfl, by simp, by simp [dot, h0]⟩
      · rintro ⟨c, rfl, hc⟩
        rw [List.length_eq_zero_iff.1 hc.length, List.append_nil]
    · refine ⟨[], [], by simp [flc, h0], rfl, by simp, ?_, by simp⟩
      intro v
      simp only [List.not_mem_nil, false_iff]
      rintro ⟨c, _, hc⟩
      have ht := hc.total
      rw [List.length_eq_zero_iff.1 hc.length] at ht
      simp [dot] at ht
      omega
  | cons a xs ih =>
    have ha : 0 < a := hx a (by simp)
    have hxs : ∀ b ∈ xs, 0 < b := fun b hb => hx b (by simp [hb])
    have hlt : ∀ b ∈ xs, a < b := (List.pairwise_cons.mp hs).1
    have hss := (List.pairwise_cons.mp hs).2
    by_cases h0 : y = 0
    · refine ⟨[pre ++ tl], tl, by simp [flc, h0], htl, by simp, ?_, fun _ => hz h0⟩
      have hall : ∀ c : List ℤ, Combination (a :: xs) y c → c = tl := by
        intro c hc
        have := dot_zero c (a :: xs) hc.length hc.nonneg hx (by rw [hc.total, h0])
        refine List.ext_getElem (by rw [hc.length, htl]) ?_
        intro i h1 h2
        rw [this _ (List.getElem_mem h1), hz h0 _ (List.getElem_mem h2)]
      have hrep : Combination (a :: xs) y tl := by
        refine ⟨htl, fun z hz' => by rw [hz h0 z hz'], ?_⟩
        have : ∀ (c x : List ℤ), (∀ z ∈ c, z = 0) → dot c x = 0 := by
          intro c
          induction c with
          | nil => intro x _; simp [dot]
          | cons z c ihc =>
            intro x hc
            cases x with
            | nil => simp [dot]
            | cons b x =>
              rw [dot_cons, ihc x (fun w hw => hc w (by simp [hw])), hc z (by simp)]
              simp
        rw [this tl _ (hz h0), h0]
      intro v
      rw [List.mem_singleton]
      constructor
      · rintro rfl; exact ⟨tl, rfl, hrep⟩
      · rintro ⟨c, rfl, hc⟩; rw [hall c hc]
    · have loop : ∀ n : ℕ, (n : ℤ) * a ≤ y + a → ∃ outs tl',
          (List.range n).foldlM (fun (s : List (List ℤ) × List ℤ) (c : ℕ) => (do
            let r ← flc xs (pre.length + 1) (y - c * a) (s.2.set pre.length c)
            return (s.1 ++ r.1, r.2) : Py _)) (([] : List (List ℤ)), pre ++ tl) = .ok (outs, pre ++ tl') ∧
            tl'.length = (a :: xs).length ∧ outs.Nodup ∧
            (∀ v, v ∈ outs ↔ ∃ (i : ℕ) (c : List ℤ), i < n ∧ v = pre ++ (i : ℤ) :: c ∧ Combination xs (y - i * a) c) ∧
            (∀ m : ℕ, n = m + 1 → (∀ b ∈ xs, y - m * a < b) → ∃ tl2, tl' = (m : ℤ) :: tl2 ∧ ∀ z ∈ tl2, z = 0) := by
        intro n
        induction n with
        | zero =>
          intro _
          exact ⟨[], tl, rfl, htl, by simp, by simp, by intro m hm; omega⟩
        | succ n ihn =>
          intro hn
          have hn' : (n : ℤ) * a ≤ y := by push_cast at hn; linarith
          obtain ⟨outs, tl1, e1, e2, e3, e4, e5⟩ := ihn (by linarith)
          cases tl1 with
          | nil => simp at e2
          | cons b tl1 =>
            have hset : (pre ++ b :: tl1).set pre.length (n : ℤ) = (pre ++ [(n : ℤ)]) ++ tl1 := by
              rw [List.set_append_right _ _ (le_refl _)]; simp
            obtain ⟨o, tl2, f1, f2, f3, f4, f5⟩ := ih hxs hss (y - n * a) (by linarith) (pre ++ [(n : ℤ)]) tl1
              (by simpa using e2) (by
                intro hzero
                cases n with
                | zero => simp at hzero; exact absurd hzero h0
                | succ m =>
                  obtain ⟨tl3, g1, g2⟩ := e5 m rfl (by
                    intro c hc
                    have := hlt c hc
                    push_cast at hzero
                    linarith)
                  simp only [List.cons.injEq] at g1
                  rw [g1.2]
                  exact g2)
            refine ⟨outs ++ o, (n : ℤ) :: tl2, ?_, by simp [f2], ?_, ?_, ?_⟩
            · rw [List.range_succ, List.foldlM_append, e1]
              simp only [List.foldlM_cons, List.foldlM_nil, bind, Except.bind, hset]
              rw [show pre.length + 1 = (pre ++ [(n : ℤ)]).length by simp, f1]
              simp [pure, Except.pure]
            · rw [List.nodup_append]
              refine ⟨e3, f3, ?_⟩
              intro v hv w hw
              obtain ⟨i, c, hi, rfl, _⟩ := (e4 v).1 hv
              obtain ⟨d, rfl, _⟩ := (f4 w).1 hw
              intro heq
              rw [List.append_assoc, List.append_cancel_left_eq, List.singleton_append, List.cons.injEq] at heq
              have := heq.1
              omega
            · intro v
              rw [List.mem_append, e4, f4]
              constructor
              · rintro (⟨i, c, hi, rfl, hc⟩ | ⟨c, rfl, hc⟩)
                · exact ⟨i, c, by omega, rfl, hc⟩
                · exact ⟨n, c, by omega, by simp, hc⟩
              · rintro ⟨i, c, hi, rfl, hc⟩
                by_cases hin : i < n
                · exact Or.inl ⟨i, c, hin, rfl, hc⟩
                · have : i = n := by omega
                  subst this
                  exact Or.inr ⟨c, by simp, hc⟩
            · intro m hm hlt'
              have : m = n := by omega
              subst this
              exact ⟨tl2, rfl, f5 hlt'⟩
      have hmax : ∀ i : ℕ, (i : ℤ) * a ≤ y ↔ i < (Int.fdiv y a + 1).toNat := by
        intro i
        rw [Int.fdiv_eq_ediv_of_nonneg _ ha.le]
        have : (i : ℤ) * a ≤ y ↔ (i : ℤ) ≤ y / a := (Int.le_ediv_iff_mul_le ha).symm
        rw [this]; omega
      have hbound : (((Int.fdiv y a + 1).toNat : ℕ) : ℤ) * a ≤ y + a := by
        rw [Int.fdiv_eq_ediv_of_nonneg _ ha.le]
        have h1 : 0 ≤ y / a := Int.ediv_nonneg hy ha.le
        have h2 : y / a * a ≤ y := Int.ediv_mul_le y ha.ne'
        rw [Int.toNat_of_nonneg (by omega)]; linarith
      obtain ⟨outs, tl', e1, e2, e3, e4, e5⟩ := loop _ hbound
      refine ⟨outs, tl', ?_, e2, e3, ?_, ?_⟩
      · simp only [flc]; rw [if_neg h0, if_neg ha.ne']; exact e1
      · intro v
        rw [e4]
        constructor
        · rintro ⟨i, c, _, rfl, hc⟩
          refine ⟨_, rfl, by simp [hc.length], ?_, ?_⟩
          · intro z hz'
            rcases List.mem_cons.1 hz' with rfl | hz'
            · positivity
            · exact hc.nonneg z hz'
          · rw [dot_cons, hc.total]; ring
        · rintro ⟨c, rfl, hc⟩
          cases c with
          | nil => have := hc.length; simp at this
          | cons i c =>
            have hi : 0 ≤ i := hc.nonneg i (by simp)
            obtain ⟨j, rfl⟩ := Int.eq_ofNat_of_zero_le hi
            have htot := hc.total
            rw [dot_cons] at htot
            have hcn : ∀ b ∈ c, 0 ≤ b := fun b hb => hc.nonneg b (by simp [hb])
            have := dot_nonneg c xs hcn hxs
            exact ⟨j, c, (hmax j).1 (by linarith), rfl, by simpa using hc.length, hcn, by linarith⟩
      · intro hsmall z hz'
        have hya : y < a := hsmall a (by simp)
        have hone : (Int.fdiv y a + 1).toNat = 0 + 1 := by
          rw [Int.fdiv_eq_ediv_of_nonneg _ ha.le, Int.ediv_eq_zero_of_lt hy hya]
          rfl
        obtain ⟨tl2, g1, g2⟩ := e5 0 hone (by
          intro b hb
          have := hsmall b (by simp [hb])
          push_cast
          linarith)
        rw [g1] at hz'
        rcases List.mem_cons.1 hz' with rfl | hz'
        · rfl
        · exact g2 z hz'

end Satis.Utils
