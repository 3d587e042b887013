import Verif.Utils.Pairs
import Mathlib.Data.List.Sort

/-!
Model of `tests/gpt.py` 6-11 and 34-72: the first way of removing pairs, and the comparison of two methods.  The lists
are changed in place by `remove_pairs_original`; `benchmark` calls it with copies.  Times are left out.  `remove_pairs`
(14-32) is the text of `src/utils/other.py` (`Utils/Model.lean`).  The script ends with a call that names
`remove_pairs_optimized`, which does not exist; the comparison is modelled with the method that does.
-/

namespace Satis.Pairing

/-- tests/gpt.py 7-10: one value of the copy of `sim`. -/
def strike (s : List ℤ × List ℤ) (value : ℤ) : List ℤ × List ℤ :=
  if value ∈ s.2 then (s.1.erase value, s.2.erase value) else s

/-- tests/gpt.py 6-11 `remove_pairs_original`. -/
def removePairsOriginal (sim targets : List ℤ) : List ℤ × List ℤ := sim.foldl strike (sim, targets)

/-- tests/gpt.py 54-67: are the results the same up to order? -/
def same (r s : List ℤ × List ℤ) : Bool :=
  (r.1.insertionSort (· ≤ ·), r.2.insertionSort (· ≤ ·)) == (s.1.insertionSort (· ≤ ·), s.2.insertionSort (· ≤ ·))

/-- tests/gpt.py 35-72 `benchmark`: the third result. -/
def consistent (m1 m2 : List ℤ → List ℤ → List ℤ × List ℤ) : List (List ℤ × List ℤ) → Bool
  | [] => true
  | c :: cases => if same (m1 c.1 c.2) (m2 c.1 c.2) then consistent m1 m2 cases else false

theorem strike_count (value x : ℤ) (s : List ℤ × List ℤ) :
    ((strike s value).1.count x = if x = value ∧ 0 < s.2.count x then s.1.count x - 1 else s.1.count x) ∧
    ((strike s value).2.count x = if x = value ∧ 0 < s.2.count x then s.2.count x - 1 else s.2.count x) := by
  unfold strike
  by_cases hv : value ∈ s.2
  · rw [if_pos hv]
    by_cases hx : x = value
    · subst hx
      rw [if_pos ⟨rfl, List.count_pos_iff.mpr hv⟩, if_pos ⟨rfl, List.count_pos_iff.mpr hv⟩]
      exact ⟨List.count_erase_self, List.count_erase_self⟩
    · rw [if_neg (fun h => hx h.1), if_neg (fun h => hx h.1)]
      exact ⟨List.count_erase_of_ne hx, List.count_erase_of_ne hx⟩
  · rw [if_neg hv]
    by_cases hx : x = value
    · subst hx
      have : ¬ 0 < s.2.count x := fun h => hv (List.count_pos_iff.mp h)
      rw [if_neg (fun h => this h.2), if_neg (fun h => this h.2)]
      exact ⟨rfl, rfl⟩
    · rw [if_neg (fun h => hx h.1), if_neg (fun h => hx h.1)]
      exact ⟨rfl, rfl⟩

theorem strikes_count (x : ℤ) : ∀ (vs : List ℤ) (s : List ℤ × List ℤ), vs.count x ≤ s.1.count x →
    (vs.foldl strike s).1.count x = s.1.count x - min (vs.count x) (s.2.count x) ∧
    (vs.foldl strike s).2.count x = s.2.count x - min (vs.count x) (s.2.count x) := by
  intro vs
  induction vs with
  | nil => intro s _; simp
  | cons v vs ih =>
    intro s h
    rw [List.foldl_cons]
    have hs := strike_count v x s
    by_cases hx : x = v
    · subst hx
      rw [List.count_cons_self] at h ⊢
      have h1 := ih (strike s x) (by
        rw [hs.1]
        split_ifs <;> omega)
      rw [h1.1, h1.2, hs.1, hs.2]
      by_cases hp : 0 < s.2.count x
      · rw [if_pos ⟨rfl, hp⟩, if_pos ⟨rfl, hp⟩]
        omega
      · rw [if_neg (fun h => hp h.2), if_neg (fun h => hp h.2)]
        omega
    · rw [List.count_cons_of_ne (fun h => hx h.symm)] at h ⊢
      rw [if_neg (fun h => hx h.1), if_neg (fun h => hx h.1)] at hs
      have h1 := ih (strike s v) (by rw [hs.1]; exact h)
      rw [h1.1, h1.2, hs.1, hs.2]
      exact ⟨rfl, rfl⟩

/-- A value in both lists is taken out of both, once per occurrence in the shorter supply. -/
theorem original_count (sim targets : List ℤ) (x : ℤ) :
    (removePairsOriginal sim targets).1.count x = sim.count x - min (sim.count x) (targets.count x) ∧
    (removePairsOriginal sim targets).2.count x = targets.count x - min (sim.count x) (targets.count x) :=
  strikes_count x sim (sim, targets) (le_refl _)

theorem original_sublist (sim targets : List ℤ) :
    (removePairsOriginal sim targets).1.Sublist sim ∧ (removePairsOriginal sim targets).2.Sublist targets := by
  have : ∀ (vs : List ℤ) (s : List ℤ × List ℤ), (vs.foldl strike s).1.Sublist s.1 ∧ (vs.foldl strike s).2.Sublist s.2 := by
    intro vs
    induction vs with
    | nil => intro s; exact ⟨List.Sublist.refl _, List.Sublist.refl _⟩
    | cons v vs ih =>
      intro s
      rw [List.foldl_cons]
      have h1 : (strike s v).1.Sublist s.1 ∧ (strike s v).2.Sublist s.2 := by
        unfold strike
        split_ifs
        · exact ⟨List.erase_sublist, List.erase_sublist⟩
        · exact ⟨List.Sublist.refl _, List.Sublist.refl _⟩
      exact ⟨(ih _).1.trans h1.1, (ih _).2.trans h1.2⟩
  exact this sim (sim, targets)

theorem same_of_perm {r s : List ℤ × List ℤ} (h1 : r.1.Perm s.1) (h2 : r.2.Perm s.2) : same r s = true := by
  have key : ∀ a b : List ℤ, a.Perm b → a.insertionSort (· ≤ ·) = b.insertionSort (· ≤ ·) := by
    intro a b hp
    exact List.Perm.eq_of_pairwise' (List.pairwise_insertionSort _ a) (List.pairwise_insertionSort _ b)
      ((List.perm_insertionSort _ a).trans (hp.trans (List.perm_insertionSort _ b).symm))
  unfold same
  rw [key _ _ h1, key _ _ h2]
  simp

theorem perm_of_same {r s : List ℤ × List ℤ} (h : same r s = true) : r.1.Perm s.1 ∧ r.2.Perm s.2 := by
  unfold same at h
  rw [beq_iff_eq, Prod.mk.injEq] at h
  constructor
  · exact (List.perm_insertionSort _ r.1).symm.trans (h.1 ▸ List.perm_insertionSort _ s.1)
  · exact (List.perm_insertionSort _ r.2).symm.trans (h.2 ▸ List.perm_insertionSort _ s.2)

end Satis.Pairing
