import Verif.Side.Combinations
import Mathlib.Data.List.Sort
import Mathlib.Data.List.GetD

/-! `sort_combination` of `tests/combinations.c` sorts. -/

namespace Satis.Comb

theorem rd_ok {a : List ℤ} {i : ℕ} (h : i < a.length) : rd a i = .ok (a.getD i 0) := if_pos h

theorem wr_ok {a : List ℤ} {i : ℕ} (h : i < a.length) (v : ℤ) : wr a i v = .ok (a.set i v) := if_pos h

theorem checked_ok {z : ℤ} (h : intMin ≤ z ∧ z ≤ intMax) : checked z = .ok z := if_pos h

theorem getD_set (l : List ℤ) (i k : ℕ) (v : ℤ) (h : i < l.length) :
    (l.set i v).getD k 0 = if k = i then v else l.getD k 0 := by
  simp only [List.getD_eq_getElem?_getD, List.getElem?_set]
  by_cases e : k = i
  · subst e
    simp [h]
  · rw [if_neg (fun h => e h.symm), if_neg e]

/-- What holds while position `i` is compared with the later ones: everything before `i` is in place, the first `r`
positions hold the same values, nothing else changes, `i` holds the least of the positions before `m`. -/
structure Sorting (c₀ : List ℤ) (r i m : ℕ) (c : List ℤ) : Prop where
  len : c.length = c₀.length
  perm : c.Perm c₀
  rest : ∀ k, r ≤ k → c.getD k 0 = c₀.getD k 0
  placed : ∀ p, p < i → ∀ q, p ≤ q → q < r → c.getD p 0 ≤ c.getD q 0
  least : ∀ k, i ≤ k → k < m → c.getD i 0 ≤ c.getD k 0

theorem exchange_ok {c₀ c : List ℤ} {r i j : ℕ} (hr : r ≤ c₀.length) (hij : i < j) (hj : j < r)
    (h : Sorting c₀ r i j c) : ∃ c', exchange i c j = .ok c' ∧ Sorting c₀ r i (j + 1) c' := by
  have li : i < c.length := by rw [h.len]; omega
  have lj : j < c.length := by rw [h.len]; omega
  unfold exchange
  rw [rd_ok li]
  dsimp only [bind, Except.bind]
  rw [rd_ok lj]
  dsimp only
  by_cases hgt : c.getD i 0 > c.getD j 0
  · rw [if_pos hgt, wr_ok li]
    dsimp only
    have lj' : j < (c.set i (c.getD j 0)).length := by rw [List.length_set]; exact lj
    rw [wr_ok lj']
    refine ⟨_, rfl, ?_⟩
    have val : ∀ k, ((c.set i (c.getD j 0)).set j (c.getD i 0)).getD k 0
        = if k = j then c.getD i 0 else if k = i then c.getD j 0 else c.getD k 0 := by
      intro k
      rw [getD_set _ _ _ _ lj', getD_set _ _ _ _ li]
    refine ⟨by simpa using h.len, ?_, ?_, ?_, ?_⟩
    · refine List.Perm.trans ?_ h.perm
      have := List.set_set_perm (as := c) li lj
      rwa [List.getD_eq_getElem c 0 li, List.getD_eq_getElem c 0 lj]
    · intro k hk
      rw [val, if_neg (by omega), if_neg (by omega)]
      exact h.rest k hk
    · intro p hp q hpq hq
      rw [val p, if_neg (by omega), if_neg (by omega), val q]
      split_ifs
      · exact h.placed p hp i (by omega) (by omega)
      · exact h.placed p hp j (by omega) (by omega)
      · exact h.placed p hp q hpq hq
    · intro k hk hkm
      rw [val i, if_neg (by omega), if_pos rfl, val k]
      split_ifs with h1 h2
      · omega
      · omega
      · have := h.least k hk (by omega)
        omega
  · rw [if_neg hgt]
    refine ⟨c, rfl, h.len, h.perm, h.rest, h.placed, ?_⟩
    intro k hk hkm
    rcases Nat.lt_succ_iff_lt_or_eq.mp hkm with h' | h'
    · exact h.least k hk h'
    · subst h'
      omega

theorem exchanges_ok {c₀ : List ℤ} {r i : ℕ} (hr : r ≤ c₀.length) :
    ∀ (n j : ℕ) (c : List ℤ), i < j → j + n ≤ r → Sorting c₀ r i j c →
      ∃ c', (List.range' j n).foldlM (exchange i) c = .ok c' ∧ Sorting c₀ r i (j + n) c' := by
  intro n
  induction n with
  | zero => intro j c _ _ h; exact ⟨c, rfl, h⟩
  | succ n ih =>
    intro j c hij hjn h
    obtain ⟨c', e, h'⟩ := exchange_ok hr hij (by omega) h
    obtain ⟨c'', e', h''⟩ := ih (j + 1) c' (by omega) (by omega) h'
    refine ⟨c'', ?_, by rwa [Nat.add_assoc, Nat.add_comm 1 n] at h''⟩
    rw [List.range'_succ, List.foldlM_cons, e]
    exact e'

theorem sorts_from {c₀ : List ℤ} {r : ℕ} (hr : r ≤ c₀.length) :
    ∀ (n i : ℕ) (c : List ℤ), i + n = r - 1 → Sorting c₀ r i i c →
      ∃ c', (List.range' i n).foldlM
        (fun c i => (List.range' (i + 1) (r - (i + 1))).foldlM (exchange i) c) c = .ok c' ∧
        Sorting c₀ r (r - 1) (r - 1) c' := by
  intro n
  induction n with
  | zero => intro i c e h; exact ⟨c, rfl, by rw [← e]; exact h⟩
  | succ n ih =>
    intro i c hin h
    have h0 : Sorting c₀ r i (i + 1) c := by
      refine ⟨h.len, h.perm, h.rest, h.placed, ?_⟩
      intro k hk hk'
      have : k = i := by omega
      rw [this]
    obtain ⟨c', e, h'⟩ := exchanges_ok hr (r - (i + 1)) (i + 1) c (by omega) (by omega) h0
    have h1 : Sorting c₀ r (i + 1) (i + 1) c' := by
      refine ⟨h'.len, h'.perm, h'.rest, ?_, fun k hk hk' => by omega⟩
      intro p hp q hpq hq
      rcases Nat.lt_succ_iff_lt_or_eq.mp hp with hp' | hp'
      · exact h'.placed p hp' q hpq hq
      · subst hp'
        exact h'.least q hpq (by omega)
    obtain ⟨c'', e', h''⟩ := ih (i + 1) c' (by omega) h1
    refine ⟨c'', ?_, h''⟩
    rw [List.range'_succ, List.foldlM_cons, e]
    exact e'

/-- The first `r` cells are sorted, the others stay. -/
theorem sortCombination_ok {c : List ℤ} {r : ℕ} (hr : r ≤ c.length) :
    ∃ c', sortCombination c r = .ok c' ∧ c'.length = c.length ∧ (c'.take r).Perm (c.take r) ∧
      (c'.take r).Pairwise (· ≤ ·) := by
  have h0 : Sorting c r 0 0 c :=
    ⟨rfl, List.Perm.refl c, fun _ _ => rfl, fun p hp => absurd hp (Nat.not_lt_zero p),
      fun k _ hk => absurd hk (Nat.not_lt_zero k)⟩
  obtain ⟨c', e, h⟩ := sorts_from hr (r - 1) 0 c (by omega) h0
  refine ⟨c', ?_, h.len, ?_, ?_⟩
  · unfold sortCombination
    rw [List.range_eq_range']
    exact e
  · have hd : c'.drop r = c.drop r := by
      apply List.ext_getElem?
      intro k
      simp only [List.getElem?_drop]
      by_cases hk : r + k < c.length
      · have := h.rest (r + k) (by omega)
        rw [List.getD_eq_getElem _ _ hk, List.getD_eq_getElem _ _ (by rw [h.len]; exact hk)] at this
        rw [List.getElem?_eq_getElem hk, List.getElem?_eq_getElem (by rw [h.len]; exact hk), this]
      · rw [List.getElem?_eq_none (by rw [h.len]; omega), List.getElem?_eq_none (by omega)]
    have p := h.perm
    rw [← List.take_append_drop r c', ← List.take_append_drop r c, hd] at p
    exact (List.perm_append_right_iff _).mp p
  · rw [List.pairwise_iff_getElem]
    intro p q hp hq hpq
    simp only [List.length_take] at hp hq
    simp only [List.getElem_take]
    have := h.placed p (by omega) q (by omega) (by omega)
    rwa [List.getD_eq_getElem _ _ (by omega), List.getD_eq_getElem _ _ (by omega)] at this

end Satis.Comb
